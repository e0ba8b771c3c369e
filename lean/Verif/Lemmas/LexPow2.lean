import Verif.Lemmas.LexTm
import Verif.Lemmas.LyndonPow2

/-! # The lexicographic parse of the power-of-two words -/

namespace Verif

open Spec Model

/-- blocks `b a … a` of the given lengths, then the last byte -/
def baBlocks : List Nat → List UInt8
  | [] => [0]
  | n :: ns => 98 :: (List.replicate n 97 ++ baBlocks ns)

theorem baBlocks_ne (ns : List Nat) : baBlocks ns ≠ [] := by cases ns <;> simp [baBlocks]

theorem suffix_replicate_append {u v : List UInt8} {n : Nat} {c : UInt8} (h : u <:+ List.replicate n c ++ v) :
    u <:+ v ∨ ∃ i, i ≤ n ∧ u = List.replicate i c ++ v := by
  induction n with
  | zero => left; simpa using h
  | succ n ih =>
    rw [List.replicate_succ, List.cons_append, List.suffix_cons_iff] at h
    rcases h with h | h
    · exact .inr ⟨n + 1, Nat.le_refl _, by rw [h, List.replicate_succ, List.cons_append]⟩
    · rcases ih h with h | ⟨i, h1, h2⟩
      · exact .inl h
      · exact .inr ⟨i, by omega, h2⟩

theorem baBlocks_suffix {ns : List Nat} {u : List UInt8} (h : u <:+ baBlocks ns) (hne : u ≠ []) :
    u = [0] ∨ (∃ m ms, (m :: ms) <:+ ns ∧ u = baBlocks (m :: ms)) ∨
      ∃ m ms i, (m :: ms) <:+ ns ∧ i ≤ m ∧ 1 ≤ i ∧ u = List.replicate i 97 ++ baBlocks ms := by
  induction ns with
  | nil =>
    simp only [baBlocks, List.suffix_cons_iff, List.suffix_nil] at h
    rcases h with h | h
    · exact .inl h
    · exact absurd h hne
  | cons n ns ih =>
    have lift : u <:+ baBlocks ns → u = [0] ∨ (∃ m ms, (m :: ms) <:+ n :: ns ∧ u = baBlocks (m :: ms)) ∨
      ∃ m ms i, (m :: ms) <:+ n :: ns ∧ i ≤ m ∧ 1 ≤ i ∧ u = List.replicate i 97 ++ baBlocks ms := by
      intro h
      rcases ih h with h | ⟨m, ms, h1, h2⟩ | ⟨m, ms, i, h1, h2⟩
      · exact .inl h
      · exact .inr (.inl ⟨m, ms, h1.trans (List.suffix_cons _ _), h2⟩)
      · exact .inr (.inr ⟨m, ms, i, h1.trans (List.suffix_cons _ _), h2⟩)
    rw [baBlocks, List.suffix_cons_iff] at h
    rcases h with h | h
    · exact .inr (.inl ⟨n, ns, List.suffix_refl _, h⟩)
    · rcases suffix_replicate_append h with h | ⟨i, h1, h2⟩
      · exact lift h
      · rcases Nat.eq_zero_or_pos i with rfl | h0
        · exact lift (by rw [h2]; simp)
        · exact .inr (.inr ⟨n, ns, i, List.suffix_refl _, h1, h0, h2⟩)

/-- Suffixes of an increasing list are ordered by their heads. -/
theorem suffix_tri {t ms ns : List Nat} {m n : Nat} (ht : t.Pairwise (· < ·)) (h1 : (m :: ms) <:+ t) (h2 : (n :: ns) <:+ t) :
    (m = n ∧ ms = ns) ∨ ((m :: ms) <:+ ns ∧ n < m) ∨ ((n :: ns) <:+ ms ∧ m < n) := by
  have key : ∀ {m n : Nat} {ms ns : List Nat}, (m :: ms) <:+ (n :: ns) → (n :: ns).Pairwise (· < ·) →
      (m = n ∧ ms = ns) ∨ ((m :: ms) <:+ ns ∧ n < m) := by
    intro m n ms ns h hp
    rcases List.suffix_cons_iff.1 h with h | h
    · injection h with h1 h2; exact .inl ⟨h1, h2⟩
    · exact .inr ⟨h, (List.pairwise_cons.1 hp).1 m (h.subset (by simp))⟩
  rcases List.suffix_or_suffix_of_suffix h1 h2 with h | h
  · rcases key h (ht.sublist h2.sublist) with h | h
    · exact .inl h
    · exact .inr (.inl h)
  · rcases key h (ht.sublist h1.sublist) with h | h
    · exact .inl ⟨h.1.symm, h.2.symm⟩
    · exact .inr (.inr h)

theorem lcp_rep_lt {i j : Nat} {x y : List UInt8} {c d : UInt8} (h : i < j) (hd : d ≠ c) :
    lcpLen (List.replicate i c ++ d :: x) (List.replicate j c ++ y) = i := by
  obtain ⟨k, rfl⟩ := Nat.exists_eq_add_of_lt h
  rw [show i + k + 1 = i + (1 + k) by omega, List.replicate_add, List.replicate_add, List.append_assoc, List.append_assoc,
    lcpLen_append_left]
  simp [lcpLen, hd]

theorem rep_lt {i j : Nat} {x y : List UInt8} {c d : UInt8} (h : i < j) (hd : d ≠ c) :
    (List.replicate i c ++ d :: x < List.replicate j c ++ y ↔ d < c) := by
  obtain ⟨k, rfl⟩ := Nat.exists_eq_add_of_lt h
  rw [show i + k + 1 = i + (1 + k) by omega, List.replicate_add, List.replicate_add, List.append_assoc, List.append_assoc,
    append_lt_left]
  simp [List.cons_lt_cons_iff, hd]

theorem rep_gt {i j : Nat} {x y : List UInt8} {c d : UInt8} (h : i < j) (hd : c ≠ d) :
    (List.replicate j c ++ y < List.replicate i c ++ d :: x ↔ c < d) := by
  obtain ⟨k, rfl⟩ := Nat.exists_eq_add_of_lt h
  rw [show i + k + 1 = i + (1 + k) by omega, List.replicate_add, List.replicate_add, List.append_assoc, List.append_assoc,
    append_lt_left]
  simp [List.cons_lt_cons_iff, hd]

theorem suffix_baBlocks {ms ns : List Nat} (h : ms <:+ ns) : baBlocks ms <:+ baBlocks ns := by
  obtain ⟨s, rfl⟩ := h
  induction s with
  | nil => exact List.suffix_refl _
  | cons n s ih =>
    rw [List.cons_append, baBlocks]
    exact ih.trans ((List.suffix_append _ _).trans (List.suffix_cons _ _))

theorem baBlocks_lexLen {t ns : List Nat} {n m : Nat} (ht : t.Pairwise (· < ·)) (h : (n :: m :: ns) <:+ t) :
    LexLen (baBlocks t) (baBlocks (n :: m :: ns)) (n + 1) := by
  have hnm : n < m := (List.pairwise_cons.1 (ht.sublist h.sublist)).1 m (by simp)
  have hl : ∀ {i : Nat} {ms : List Nat}, n < i → lcpLen (baBlocks (i :: ms)) (baBlocks (n :: m :: ns)) = n + 1 := by
    intro i ms hi
    rw [baBlocks, baBlocks, baBlocks, lcpLen, if_pos rfl, lcpLen_comm, lcp_rep_lt hi (by decide)]
  refine ⟨?_, .inr ⟨baBlocks (m :: ns), ⟨suffix_baBlocks ((List.suffix_cons _ _).trans h), baBlocks_ne _, ?_⟩, hl hnm⟩⟩
  · rintro u ⟨h1, h2, h3⟩
    rcases baBlocks_suffix h1 h2 with rfl | ⟨i, is, g1, rfl⟩ | ⟨i, is, j, g1, g2, g3, rfl⟩
    · simp [baBlocks, lcpLen]
    · rcases suffix_tri ht g1 h with ⟨rfl, rfl⟩ | ⟨-, g⟩ | ⟨g, g'⟩
      · exact absurd h3 (lt_irrefl _)
      · exact (hl g).le
      · rcases is with _ | ⟨i', is⟩
        · have := g.length_le; simp at this
        · rw [baBlocks, baBlocks, baBlocks, cons_lt_cons] at h3
          rcases h3 with h3 | ⟨-, h3⟩
          · exact absurd h3 (lt_irrefl _)
          · exact absurd ((rep_lt g' (by decide)).1 h3) (by decide)
    · obtain ⟨j, rfl⟩ := Nat.exists_eq_add_of_le' g3
      rw [List.replicate_succ, List.cons_append, baBlocks, lcpLen, if_neg (by decide)]
      omega
  · rw [baBlocks, baBlocks, baBlocks, cons_lt_cons]
    exact .inr ⟨rfl, (rep_gt hnm (by decide)).2 (by decide)⟩

theorem baBlocks_drop (n : Nat) (ns : List Nat) : (baBlocks (n :: ns)).drop (n + 1) = baBlocks ns := by
  rw [baBlocks, List.drop_succ_cons, List.drop_left' (by simp)]

theorem baBlocks_part {t : List Nat} {n : Nat} (ht : t.Pairwise (· < ·)) : ∀ {ns : List Nat}, (ns ++ [n]) <:+ t →
    LexPart (baBlocks t) (fun _ _ => True) (baBlocks (ns ++ [n])) (baBlocks [n]) ns.length
  | [], _ => .refl
  | [i], h => .cons (baBlocks_lexLen ht h) (by omega) (by simp [baBlocks]) trivial (by rw [List.singleton_append, baBlocks_drop]; exact .refl)
  | i :: j :: ns, h => .cons (baBlocks_lexLen ht h) (by omega) (by simp [baBlocks]) trivial
      (by rw [List.cons_append, baBlocks_drop]; exact baBlocks_part ht ((List.suffix_cons _ _).trans h))

theorem baBlocks_end {t : List Nat} {n : Nat} (ht : t.Pairwise (· < ·)) (h : [n] <:+ t) (hn : 2 ≤ n) : LexPhrases (baBlocks t) (baBlocks [n]) 4 := by
  have hlast : ∀ {i : Nat} {is : List Nat}, (i :: is) <:+ t → (i = n ∧ is = []) ∨ (i < n ∧ is ≠ []) := by
    intro i is g
    rcases suffix_tri ht g h with g | ⟨g, -⟩ | ⟨g, g'⟩
    · exact .inl g
    · have := g.length_le; simp at this
    · right
      exact ⟨g', by rintro rfl; have := g.length_le; simp at this⟩
  have hs : List.replicate n 97 ++ [0] <:+ baBlocks t := (List.suffix_cons _ _).trans (suffix_baBlocks h)
  refine lexPhrases_one 0 1 (baBlocks_ne _) ⟨?_, .inl rfl⟩ rfl (lexPhrases_one (n - 1) (n - 1) ?_ ⟨?_, ?_⟩ (by omega)
    (lexPhrases_one 0 1 ?_ ⟨?_, .inl rfl⟩ rfl (lexPhrases_one 0 1 ?_ ⟨?_, .inl rfl⟩ rfl ?_)))
  · rintro u ⟨h1, h2, h3⟩
    rcases baBlocks_suffix h1 h2 with rfl | ⟨i, is, g1, rfl⟩ | ⟨i, is, j, g1, g2, g3, rfl⟩
    · simp [baBlocks, lcpLen]
    · rcases hlast g1 with ⟨rfl, rfl⟩ | ⟨g, g'⟩
      · exact absurd h3 (lt_irrefl _)
      · rcases is with _ | ⟨i', is⟩
        · exact absurd rfl g'
        · rw [baBlocks, baBlocks, baBlocks, cons_lt_cons] at h3
          rcases h3 with h3 | ⟨-, h3⟩
          · exact absurd h3 (lt_irrefl _)
          · exact absurd ((rep_lt g (by decide)).1 h3) (by decide)
    · obtain ⟨j, rfl⟩ := Nat.exists_eq_add_of_le' g3
      rw [List.replicate_succ, List.cons_append, baBlocks, lcpLen, if_neg (by decide)]
  · simp [baBlocks]
  · rintro u ⟨h1, h2, h3⟩
    simp only [baBlocks, List.drop_succ_cons, List.drop_zero] at h3 ⊢
    rcases baBlocks_suffix h1 h2 with rfl | ⟨i, is, g1, rfl⟩ | ⟨i, is, j, g1, g2, g3, rfl⟩
    · have := lcpLen_le_left [(0 : UInt8)] (List.replicate n 97 ++ [0])
      simp at this
      omega
    · obtain ⟨j, rfl⟩ := Nat.exists_eq_add_of_le' hn
      rw [baBlocks, List.replicate_succ, List.cons_append, lcpLen, if_neg (by decide)]
      omega
    · have hb : ∃ x xs, baBlocks is = x :: xs ∧ x ≠ 97 := by cases is <;> simp [baBlocks]
      obtain ⟨x, xs, e, hx⟩ := hb
      have hj : j < n := by
        rcases hlast g1 with ⟨rfl, rfl⟩ | ⟨g, -⟩
        · rcases Nat.lt_or_ge j i with g | g
          · exact g
          · rw [show j = i by omega] at h3
            exact absurd h3 (lt_irrefl _)
        · omega
      rw [e, lcp_rep_lt hj hx]
      omega
  · right
    simp only [baBlocks, List.drop_succ_cons, List.drop_zero]
    refine ⟨List.replicate (n - 1) 97 ++ [0], ⟨List.IsSuffix.trans ?_ hs, by simp, (rep_lt (by omega) (by decide)).2 (by decide)⟩,
      lcp_rep_lt (by omega) (by decide)⟩
    refine ⟨[97], ?_⟩
    rw [← List.append_assoc, List.singleton_append, ← List.replicate_succ, show n - 1 + 1 = n by omega]
  all_goals simp only [baBlocks, List.drop_succ_cons, List.drop_zero]
  all_goals rw [show List.replicate n (97 : UInt8) = List.replicate (n - 1) 97 ++ [97] by
    rw [← List.replicate_succ', show n - 1 + 1 = n by omega]]
  all_goals rw [List.append_assoc, List.drop_left' (by simp)]
  all_goals simp only [List.cons_append, List.nil_append, List.drop_succ_cons, List.drop_zero]
  · simp
  · rintro u ⟨h1, h2, h3⟩
    rcases baBlocks_suffix h1 h2 with rfl | ⟨i, is, g1, rfl⟩ | ⟨i, is, j, g1, g2, g3, rfl⟩
    · decide
    · simp [baBlocks, lcpLen]
    · obtain ⟨j, rfl⟩ := Nat.exists_eq_add_of_le' g3
      exfalso
      rw [List.replicate_succ, List.cons_append] at h3
      rcases j with _ | j
      · cases is <;> simp [baBlocks, List.cons_lt_cons_iff] at h3
      · simp [List.replicate_succ, List.cons_lt_cons_iff] at h3
  · simp
  · rintro u ⟨h1, h2, h3⟩
    rcases baBlocks_suffix h1 h2 with rfl | ⟨i, is, g1, rfl⟩ | ⟨i, is, j, g1, g2, g3, rfl⟩
    · exact absurd h3 (lt_irrefl _)
    · simp [baBlocks, lcpLen]
    · obtain ⟨j, rfl⟩ := Nat.exists_eq_add_of_le' g3
      simp [List.replicate_succ, lcpLen]
  · exact .nil

theorem baBlocks_lexFactors {ns : List Nat} {n : Nat} (ht : (ns ++ [n]).Pairwise (· < ·)) (hn : 2 ≤ n) :
    LexFactors (baBlocks (ns ++ [n])) (ns.length + 4) :=
  (baBlocks_part ht (List.suffix_refl _)).phrases (baBlocks_end ht (List.suffix_append _ _) hn)

theorem baBlocks_append (ns : List Nat) (n : Nat) (x : List UInt8) (h : baBlocks ns = x ++ [0]) :
    baBlocks (ns ++ [n]) = x ++ 98 :: (List.replicate n 97 ++ [0]) := by
  induction ns generalizing x with
  | nil =>
    simp only [baBlocks] at h
    have : x = [] := by cases x <;> simp_all
    subst this
    rfl
  | cons m ns ih =>
    simp only [List.cons_append, baBlocks] at h ⊢
    obtain ⟨y, hy⟩ : ∃ y, baBlocks ns = y ++ [0] := by
      have : ∀ ns : List Nat, ∃ y, baBlocks ns = y ++ [0] := by
        intro ns
        induction ns with
        | nil => exact ⟨[], rfl⟩
        | cons a as ih => obtain ⟨y, hy⟩ := ih; exact ⟨98 :: (List.replicate a 97 ++ y), by simp [baBlocks, hy]⟩
      exact this ns
    rw [hy, ← List.append_assoc, ← List.cons_append] at h
    rw [ih y hy, ← List.append_cancel_right h]
    simp

theorem pow2_baBlocks : ∀ k, baBlocks ((List.range k).map fun i => 2 ^ i - 1) = (List.range (2 ^ k - 1)).map pow2Letter ++ [0]
  | 0 => rfl
  | k + 1 => by
    rw [List.range_succ, List.map_append, List.map_singleton, baBlocks_append _ _ _ (pow2_baBlocks k)]
    have h : (List.range (2 ^ (k + 1) - 1)).map pow2Letter =
        (List.range (2 ^ k - 1)).map pow2Letter ++ 98 :: List.replicate (2 ^ k - 1) 97 := by
      have hp : 0 < 2 ^ k := Nat.two_pow_pos k
      rw [show 2 ^ (k + 1) - 1 = (2 ^ k - 1) + (1 + (2 ^ k - 1)) by rw [Nat.pow_succ]; omega, List.range_add, List.map_append,
        List.range_add]
      congr 1
      rw [List.map_append, List.map_append]
      simp only [List.range_one, List.map_singleton, List.map_map, Nat.add_zero, List.singleton_append, pow2_at]
      congr 1
      refine List.eq_replicate_iff.2 ⟨by simp, ?_⟩
      intro c hc
      obtain ⟨i, hi, rfl⟩ := List.mem_map.1 hc
      rw [List.mem_range] at hi
      exact pow2_between (k := k) (by simp; omega) (by simp [Nat.pow_succ]; omega)
    rw [h]
    simp

theorem pow2_lexFactors {k : Nat} (hk : 3 ≤ k) : LexFactors ((List.range (2 ^ k - 1)).map pow2Letter ++ [0]) (k + 3) := by
  obtain ⟨k, rfl⟩ := Nat.exists_eq_add_of_le' (show 1 ≤ k by omega)
  rw [← pow2_baBlocks, List.range_succ, List.map_append, List.map_singleton]
  have hb : 2 ^ 2 ≤ 2 ^ k := Nat.pow_le_pow_right (by decide) (by omega)
  have := baBlocks_lexFactors (ns := (List.range k).map fun i => 2 ^ i - 1) (n := 2 ^ k - 1) (by
    have : (List.range k).map (fun i => 2 ^ i - 1) ++ [2 ^ k - 1] = (List.range (k + 1)).map fun i => 2 ^ i - 1 := by
      rw [List.range_succ]; simp
    rw [this, List.pairwise_map]
    refine List.pairwise_lt_range.imp ?_
    intro i j hij
    have h1 := Nat.two_pow_pos i
    have h2 : 2 ^ i < 2 ^ j := Nat.pow_lt_pow_right (by decide) hij
    omega) (by omega)
  rw [List.length_map, List.length_range] at this
  rwa [show k + 1 + 3 = k + 4 by omega]

end Verif
