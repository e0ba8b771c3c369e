import Verif.Lemmas.LyndonWords
import Verif.Lemmas.LzPaper

/-! # The Lyndon factorization of the binary paperfolding words -/

namespace Verif

open Spec Model

/-- two folds of a word of even length -/
def fold2 : List UInt8 → List UInt8
  | x :: y :: r => 49 :: 49 :: 48 :: x :: 49 :: 48 :: 48 :: y :: fold2 r
  | _ => []

/-- two folds of what follows after an odd number of letters, for an odd number of letters, shifted by one letter -/
def thc : List UInt8 → List UInt8
  | x :: y :: r => 48 :: 48 :: x :: 49 :: 49 :: 48 :: y :: 49 :: thc r
  | [x] => [48, 48, x]
  | [] => []

theorem fold2_paper (n : Nat) : fold2 ((List.range (2 * n)).map paper) = (List.range (8 * n)).map paper := by
  have key : ∀ n a, fold2 ((List.range' (2 * a) (2 * n)).map paper) = (List.range' (8 * a) (8 * n)).map paper := by
    intro n
    induction n with
    | zero => intro a; rfl
    | succ n ih =>
      intro a
      have := ih (a + 1)
      rw [show 2 * (a + 1) = 2 * a + 1 + 1 by ring, show 8 * (a + 1) = 8 * a + 8 by ring] at this
      rw [show 2 * (n + 1) = 2 * n + 2 by ring, show 8 * (n + 1) = 8 * n + 8 by ring]
      simp only [List.range'_succ, List.map_cons, fold2]
      rw [this]
      have e0 : paper (8 * a) = 49 := by rw [show 8 * a = 2 * (4 * a) by ring, paper_even, if_pos (by omega)]
      have e1 : paper (8 * a + 1) = 49 := by
        rw [show 8 * a + 1 = 2 * (4 * a) + 1 by ring, paper_odd, show 4 * a = 2 * (2 * a) by ring, paper_even, if_pos (by omega)]
      have e2 : paper (8 * a + 1 + 1) = 48 := by
        rw [show 8 * a + 1 + 1 = 2 * (4 * a + 1) by ring, paper_even, if_neg (by omega)]
      have e3 : paper (8 * a + 1 + 1 + 1) = paper (2 * a) := by
        rw [show 8 * a + 1 + 1 + 1 = 2 * (2 * (2 * a) + 1) + 1 by ring, paper_odd, paper_odd]
      have e4 : paper (8 * a + 1 + 1 + 1 + 1) = 49 := by
        rw [show 8 * a + 1 + 1 + 1 + 1 = 2 * (4 * a + 2) by ring, paper_even, if_pos (by omega)]
      have e5 : paper (8 * a + 1 + 1 + 1 + 1 + 1) = 48 := by
        rw [show 8 * a + 1 + 1 + 1 + 1 + 1 = 2 * (2 * (2 * a + 1)) + 1 by ring, paper_odd, paper_even, if_neg (by omega)]
      have e6 : paper (8 * a + 1 + 1 + 1 + 1 + 1 + 1) = 48 := by
        rw [show 8 * a + 1 + 1 + 1 + 1 + 1 + 1 = 2 * (4 * a + 3) by ring, paper_even, if_neg (by omega)]
      have e7 : paper (8 * a + 1 + 1 + 1 + 1 + 1 + 1 + 1) = paper (2 * a + 1) := by
        rw [show 8 * a + 1 + 1 + 1 + 1 + 1 + 1 + 1 = 2 * (2 * (2 * a + 1) + 1) + 1 by ring, paper_odd, paper_odd]
      rw [e0, e1, e2, e3, e4, e5, e6, e7]
  have := key n 0
  rwa [Nat.mul_zero, ← List.range_eq_range', ← List.range_eq_range'] at this

theorem fold2_append (u v : List UInt8) (h : u.length % 2 = 0) : fold2 (u ++ v) = fold2 u ++ fold2 v := by
  match u with
  | [] => rfl
  | [_] => simp at h
  | x :: y :: r =>
    have := fold2_append r v (by simp at h; omega)
    simp [fold2, this]

theorem thc_append (u v : List UInt8) (h : u.length % 2 = 0) : thc (u ++ v) = thc u ++ thc v := by
  match u with
  | [] => rfl
  | [_] => simp at h
  | x :: y :: r =>
    have := thc_append r v (by simp at h; omega)
    simp [thc, this]

/-- an odd rest -/
theorem fold2_rest (x : UInt8) (v : List UInt8) (h : v.length % 2 = 1) : fold2 (x :: v) = [49, 49, 48, x, 49] ++ thc v := by
  match v with
  | [] => simp at h
  | [y] => rfl
  | y :: z :: r =>
    have := fold2_rest z r (by simp at h; omega)
    rw [fold2, this]; rfl

/-- mismatches are kept -/
theorem thc_mis {u v : List UInt8} (h : Mis u v) : Mis (thc u) (thc v) := by
  obtain ⟨p, x, y, s1, s2, rfl, rfl, hxy⟩ := h
  have key : ∀ q : List UInt8, (q = [] ∨ ∃ z, q = [z]) → Mis (thc (q ++ x :: s1)) (thc (q ++ y :: s2)) := by
    rintro q (rfl | ⟨z, rfl⟩)
    · have e : ∀ (c : UInt8) s, ∃ s', thc (c :: s) = 48 :: 48 :: c :: s' := by
        intro c s
        rcases s with _ | ⟨d, s⟩
        · exact ⟨[], rfl⟩
        · exact ⟨_, rfl⟩
      obtain ⟨a, ha⟩ := e x s1
      obtain ⟨b, hb⟩ := e y s2
      exact ⟨[48, 48], x, y, a, b, ha, hb, hxy⟩
    · exact ⟨[48, 48, z, 49, 49, 48], x, y, 49 :: thc s1, 49 :: thc s2, rfl, rfl, hxy⟩
  have hsplit : ∃ p1 q : List UInt8, p = p1 ++ q ∧ p1.length % 2 = 0 ∧ (q = [] ∨ ∃ z, q = [z]) := by
    rcases Nat.mod_two_eq_zero_or_one p.length with h | h
    · exact ⟨p, [], by simp, h, Or.inl rfl⟩
    · rcases List.eq_nil_or_concat p with rfl | ⟨p, z, rfl⟩
      · simp at h
      · refine ⟨p, [z], by simp, ?_, Or.inr ⟨z, rfl⟩⟩
        simp at h; omega
  obtain ⟨p1, q, rfl, h1, h2⟩ := hsplit
  rw [List.append_assoc, List.append_assoc, thc_append _ _ h1, thc_append _ _ h1]
  exact mis_append_left.2 (key q h2)

theorem thc_prefix (u x : List UInt8) : thc u <+: thc (u ++ x) := by
  match u with
  | [] => exact List.nil_prefix
  | [y] =>
    rcases x with _ | ⟨z, x⟩
    · exact List.prefix_refl _
    · exact ⟨49 :: 49 :: 48 :: z :: 49 :: thc x, rfl⟩
  | y :: z :: r =>
    obtain ⟨t, ht⟩ := thc_prefix r x
    exact ⟨t, by simp [thc, ht]⟩

theorem thc_le {u v : List UInt8} (h : u ≤ v) : thc u ≤ thc v := by
  rcases h.lt_or_eq with h | rfl
  · rcases lt_iff_mis.1 h with ⟨⟨x, rfl⟩, -⟩ | hm
    · exact le_of_prefix (thc_prefix u x)
    · exact (thc_mis hm).lt.le
  · exact le_refl _

/-- binary words -/
def Bin (w : List UInt8) : Prop := ∀ c ∈ w, c = 48 ∨ c = 49

/-- A suffix of the image is the image of a suffix, or it is larger than `000`. -/
theorem thc_suffix (w : List UInt8) (hb : Bin w) (hl : w.getLast? = some 49) (u v : List UInt8) (hv : v ≠ [])
    (e : thc w = u ++ v) :
    (∃ p q, w = p ++ q ∧ p.length % 2 = 0 ∧ u = thc p ∧ v = thc q ∧ q ≠ []) ∨ Mis [48, 48, 48] v := by
  match w with
  | [] => simp at hl
  | [x] =>
    simp at hl
    subst hl
    match u with
    | [] => exact Or.inl ⟨[], [49], rfl, rfl, rfl, e.symm, by simp⟩
    | [_] =>
      right
      simp [thc] at e
      obtain ⟨-, rfl⟩ := e
      exact ⟨[48], 48, 49, _, _, rfl, rfl, by decide⟩
    | [_, _] =>
      right
      simp [thc] at e
      obtain ⟨-, -, rfl⟩ := e
      exact ⟨[], 48, 49, _, _, rfl, rfl, by decide⟩
    | _ :: _ :: a :: u =>
      simp [thc] at e
      exact absurd e.2.2.2.2 hv
  | x :: y :: r =>
    have hx := hb x (by simp)
    have hy := hb y (by simp)
    have e0 := e
    rw [thc] at e
    match u with
    | [] => exact Or.inl ⟨[], x :: y :: r, rfl, rfl, rfl, e0.symm, by simp⟩
    | [_] =>
      right
      simp at e
      obtain ⟨-, rfl⟩ := e
      rcases hx with rfl | rfl
      · exact ⟨[48, 48], 48, 49, _, _, rfl, rfl, by decide⟩
      · exact ⟨[48], 48, 49, _, _, rfl, rfl, by decide⟩
    | [_, _] =>
      right
      simp at e
      obtain ⟨-, -, rfl⟩ := e
      rcases hx with rfl | rfl
      · exact ⟨[48], 48, 49, _, _, rfl, rfl, by decide⟩
      · exact ⟨[], 48, 49, _, _, rfl, rfl, by decide⟩
    | [_, _, _] =>
      right
      simp at e
      obtain ⟨-, -, -, rfl⟩ := e
      exact ⟨[], 48, 49, _, _, rfl, rfl, by decide⟩
    | [_, _, _, _] =>
      right
      simp at e
      obtain ⟨-, -, -, -, rfl⟩ := e
      exact ⟨[], 48, 49, _, _, rfl, rfl, by decide⟩
    | [_, _, _, _, _] =>
      right
      simp at e
      obtain ⟨-, -, -, -, -, rfl⟩ := e
      rcases hy with rfl | rfl
      · exact ⟨[48, 48], 48, 49, _, _, rfl, rfl, by decide⟩
      · exact ⟨[48], 48, 49, _, _, rfl, rfl, by decide⟩
    | [_, _, _, _, _, _] =>
      right
      simp at e
      obtain ⟨-, -, -, -, -, -, rfl⟩ := e
      rcases hy with rfl | rfl
      · exact ⟨[48], 48, 49, _, _, rfl, rfl, by decide⟩
      · exact ⟨[], 48, 49, _, _, rfl, rfl, by decide⟩
    | [_, _, _, _, _, _, _] =>
      right
      simp at e
      obtain ⟨-, -, -, -, -, -, -, rfl⟩ := e
      exact ⟨[], 48, 49, _, _, rfl, rfl, by decide⟩
    | a0 :: a1 :: a2 :: a3 :: a4 :: a5 :: a6 :: a7 :: u =>
      simp only [List.cons_append, List.cons.injEq] at e
      obtain ⟨rfl, rfl, rfl, rfl, rfl, rfl, rfl, rfl, e⟩ := e
      have hr : r ≠ [] := by
        rintro rfl
        simp [thc] at e
        exact hv e.2
      have hl' : r.getLast? = some 49 := by
        rcases r with _ | ⟨z, r⟩
        · exact absurd rfl hr
        · simpa [List.getLast?_cons_cons] using hl
      rcases thc_suffix r (fun c hc => hb c (by simp [hc])) hl' u v hv e with ⟨p, q, rfl, h2, h3, h4, h5⟩ | hm
      · exact Or.inl ⟨x :: y :: p, q, rfl, by simp; omega, by simp [thc, h3], h4, h5⟩
      · exact Or.inr hm

/-- binary Lyndon words with at least two letters -/
def BinLyn (w : List UInt8) : Prop := IsLyndon w ∧ Bin w ∧ ∃ r, w = 48 :: r ++ [49]

theorem thc_bin {w : List UInt8} (h : Bin w) : Bin (thc w) := by
  match w with
  | [] => exact h
  | [x] =>
    have := h x (by simp)
    intro c hc
    simp [thc] at hc
    rcases hc with rfl | rfl
    · exact Or.inl rfl
    · exact this
  | x :: y :: r =>
    have h1 := h x (by simp)
    have h2 := h y (by simp)
    have h3 := thc_bin (w := r) (fun c hc => h c (by simp [hc]))
    intro c hc
    simp [thc] at hc
    rcases hc with rfl | rfl | rfl | rfl | rfl | hc
    · exact Or.inl rfl
    · exact h1
    · exact Or.inr rfl
    · exact Or.inl rfl
    · exact h2
    · rcases hc with rfl | hc
      · exact Or.inr rfl
      · exact h3 c hc

theorem thc_start (r : List UInt8) : ∃ t, thc (48 :: r) = [48, 48, 48] ++ t := by
  rcases r with _ | ⟨y, r⟩
  · exact ⟨[], rfl⟩
  · exact ⟨_, rfl⟩

theorem thc_last {w : List UInt8} (h : w.getLast? = some 49) : (thc w).getLast? = some 49 := by
  match w with
  | [] => simp at h
  | [x] => simp at h; subst h; rfl
  | [x, y] => rfl
  | x :: y :: z :: r =>
    have := thc_last (w := z :: r) (by simpa [List.getLast?_cons_cons] using h)
    obtain ⟨a, t, ht⟩ : ∃ a t, thc (z :: r) = a :: t := by
      rcases r with _ | ⟨b, r⟩
      · exact ⟨_, _, rfl⟩
      · exact ⟨_, _, rfl⟩
    rw [ht] at this
    rw [thc, ht]
    simpa [List.getLast?_cons_cons] using this

theorem BinLyn.thc {w : List UInt8} (h : BinLyn w) : BinLyn (thc w) := by
  obtain ⟨h1, h2, r, rfl⟩ := h
  have hlast : (48 :: r ++ [49]).getLast? = some 49 := by rw [List.getLast?_append]; rfl
  obtain ⟨t, ht⟩ := thc_start (r ++ [49])
  rw [← List.cons_append] at ht
  refine ⟨⟨by rw [ht]; simp, ?_⟩, thc_bin h2, ?_⟩
  · intro u v hu hv e
    rcases thc_suffix _ h2 hlast u v hv e with ⟨p, q, g1, g2, g3, g4, g5⟩ | hm
    · have hp : p ≠ [] := by
        rintro rfl
        exact hu g3
      rw [g4]
      exact (thc_mis (h1.mis hp g5 g1)).lt
    · rw [ht]
      exact (by simpa using hm.append t [] : Mis ([48, 48, 48] ++ t) v).lt
  · have h3 := thc_last hlast
    rw [ht] at h3 ⊢
    rcases List.eq_nil_or_concat t with rfl | ⟨t, z, rfl⟩
    · simp at h3
    · rw [List.concat_eq_append, ← List.append_assoc, List.getLast?_concat] at h3
      simp only [Option.some.injEq] at h3
      subst h3
      exact ⟨[48, 48] ++ t, by simp⟩

theorem thc_even {w : List UInt8} (h : w.length % 2 = 0) : (thc w).length % 2 = 0 := by
  match w with
  | [] => rfl
  | [_] => simp at h
  | x :: y :: r =>
    have := thc_even (w := r) (by simp at h; omega)
    simp [thc]; omega

theorem thc_odd {w : List UInt8} (h : w.length % 2 = 1) : (thc w).length % 2 = 1 := by
  match w with
  | [] => simp at h
  | [_] => simp [thc]
  | x :: y :: r =>
    have := thc_odd (w := r) (by simp at h; omega)
    simp [thc]; omega

theorem thc_flatten {l : List (List UInt8)} (X : List UInt8) (h : ∀ f ∈ l, f.length % 2 = 0) :
    thc (l ++ [X]).flatten = (l.map thc ++ [thc X]).flatten := by
  induction l with
  | nil => simp
  | cons f l ih =>
    have := ih (fun g hg => h g (by simp [hg]))
    rw [List.cons_append, List.flatten_cons, thc_append _ _ (h f (by simp)), this]
    rfl

/-- the first factors -/
def pfFirst : List (List UInt8) :=
  [[49], [49], [48, 49, 49], [48, 48, 49, 49, 49], [48, 48, 49, 48, 48, 49, 49, 49, 48, 49, 49]]

/-- the factor after them -/
def pfZ : List UInt8 :=
  [48, 48, 48, 49, 49, 48, 48, 49, 48, 48, 49, 49, 49, 48, 49, 49, 48, 48, 49, 49, 49, 48, 48, 49, 48, 48, 48, 49, 49, 48, 49, 49,
    48, 48, 48, 49, 49, 48, 48, 49, 48, 48, 49, 49, 49, 48, 49, 49, 48, 48, 49, 49, 49, 48, 48, 49, 48, 48, 49, 49, 49, 48, 49, 49]

theorem pfZ_lyn : BinLyn pfZ := by
  refine ⟨isLyndon_iff_drop.2 (by decide +kernel), by unfold Bin; decide +kernel, pfZ.tail.dropLast, by decide +kernel⟩

theorem pfZ_le : thc pfZ ≤ pfZ := by decide +kernel

theorem paper_fact_step {k : Nat} {G : List (List UInt8)} {X : List UInt8}
    (hG : ∀ f ∈ G, BinLyn f ∧ f.length % 2 = 0 ∧ f ≤ pfZ) (hX : BinLyn X ∧ X.length % 2 = 1 ∧ X ≤ pfZ)
    (hp : (G ++ [X]).Pairwise (fun f g => g ≤ f))
    (hf : (pfFirst ++ (G ++ [X])).flatten = (List.range (2 ^ (k + 1))).map paper) :
    (∀ f ∈ pfZ :: G.map thc, BinLyn f ∧ f.length % 2 = 0 ∧ f ≤ pfZ) ∧ (BinLyn (thc X) ∧ (thc X).length % 2 = 1 ∧ thc X ≤ pfZ) ∧
      (pfZ :: G.map thc ++ [thc X]).Pairwise (fun f g => g ≤ f) ∧
      (pfFirst ++ (pfZ :: G.map thc ++ [thc X])).flatten = (List.range (2 ^ (k + 3))).map paper := by
  have hall : ∀ f ∈ pfZ :: G.map thc, BinLyn f ∧ f.length % 2 = 0 ∧ f ≤ pfZ := by
    intro f hf
    rcases List.mem_cons.1 hf with rfl | hf
    · exact ⟨pfZ_lyn, rfl, le_refl _⟩
    · obtain ⟨g, hg, rfl⟩ := List.mem_map.1 hf
      obtain ⟨g1, g2, g3⟩ := hG g hg
      exact ⟨g1.thc, thc_even g2, (thc_le g3).trans pfZ_le⟩
  have hX' : BinLyn (thc X) ∧ (thc X).length % 2 = 1 ∧ thc X ≤ pfZ :=
    ⟨hX.1.thc, thc_odd hX.2.1, (thc_le hX.2.2).trans pfZ_le⟩
  refine ⟨hall, hX', ?_, ?_⟩
  · rw [List.cons_append, List.pairwise_cons]
    refine ⟨?_, ?_⟩
    · intro f hf
      rcases List.mem_append.1 hf with hf | hf
      · exact (hall f (by simp [hf])).2.2
      · simp only [List.mem_singleton] at hf; subst hf; exact hX'.2.2
    · have : G.map thc ++ [thc X] = (G ++ [X]).map thc := by simp
      rw [this]
      exact pairwise_map_le hp fun x _ y _ h => thc_le h
  · have h2 : 2 ^ (k + 3) = 8 * 2 ^ k := by rw [Nat.pow_add]; ring
    have h3 : 2 ^ (k + 1) = 2 * 2 ^ k := by rw [Nat.pow_succ]; ring
    have hodd : (G ++ [X]).flatten.length % 2 = 1 := by
      have h4 := congrArg List.length hf
      rw [List.flatten_append, List.length_append, h3] at h4
      have h5 : (pfFirst.flatten).length = 21 := rfl
      simp only [List.length_map, List.length_range] at h4
      omega
    have e0 : pfFirst.flatten = pfFirst.flatten.dropLast ++ [49] := by decide +kernel
    rw [h2, ← fold2_paper, ← h3, ← hf, List.flatten_append, List.flatten_append (L₁ := pfFirst) (L₂ := G ++ [X]), e0,
      List.append_assoc, List.append_assoc, List.singleton_append, List.singleton_append,
      fold2_append _ _ (by decide +kernel), fold2_rest _ _ hodd, thc_flatten X (fun f hf => (hG f hf).2.1),
      List.cons_append, List.flatten_cons, ← List.append_assoc (as := fold2 _)]
    have e1 : fold2 pfFirst.flatten.dropLast ++ [49, 49, 48, 49, 49] = pfFirst.flatten.dropLast ++ 49 :: pfZ := by decide +kernel
    rw [e1]
    simp

theorem paper_factors_aux (k : Nat) : ∃ G X, G.length = (k + 1) / 2 ∧ (∀ f ∈ G, BinLyn f ∧ f.length % 2 = 0 ∧ f ≤ pfZ) ∧
    (BinLyn X ∧ X.length % 2 = 1 ∧ X ≤ pfZ) ∧ (G ++ [X]).Pairwise (fun f g => g ≤ f) ∧
    (pfFirst ++ (G ++ [X])).flatten = (List.range (2 ^ (k + 5))).map paper := by
  have hx : BinLyn [48, 48, 48, 49, 49, 48, 48, 49, 48, 48, 49] :=
    ⟨isLyndon_iff_drop.2 (by decide +kernel), by unfold Bin; decide +kernel, [48, 48, 49, 49, 48, 48, 49, 48, 48], rfl⟩
  have hX : BinLyn [48, 48, 48, 49, 49, 48, 48, 49, 48, 48, 49] ∧
      ([48, 48, 48, 49, 49, 48, 48, 49, 48, 48, 49] : List UInt8).length % 2 = 1 ∧
      [48, 48, 48, 49, 49, 48, 48, 49, 48, 48, 49] ≤ pfZ := ⟨hx, rfl, by decide +kernel⟩
  induction k using Nat.strong_induction_on with
  | _ k ih =>
    match k with
    | 0 => exact ⟨[], _, rfl, by simp, hX, by simp, by decide +kernel⟩
    | 1 =>
      refine ⟨[[48, 48, 48, 49, 49, 48, 48, 49, 48, 48, 49, 49, 49, 48, 49, 49, 48, 48, 49, 49, 49, 48, 48, 49, 48, 48, 48, 49, 49,
        48, 49, 49]], _, rfl, ?_, hX, ?_, by decide +kernel⟩
      · simp only [List.mem_singleton, forall_eq]
        exact ⟨⟨isLyndon_iff_drop.2 (by decide +kernel), by unfold Bin; decide +kernel, [48, 48, 49, 49, 48, 48, 49, 48, 48, 49, 49,
          49, 48, 49, 49, 48, 48, 49, 49, 49, 48, 48, 49, 48, 48, 48, 49, 49, 48, 49], rfl⟩, rfl, by decide +kernel⟩
      · decide +kernel
    | k + 2 =>
      obtain ⟨G, X, h1, h2, h3, h4, h5⟩ := ih k (by omega)
      obtain ⟨g1, g2, g3, g4⟩ := paper_fact_step (k := k + 4) h2 h3 h4 h5
      exact ⟨_, _, by simp [h1]; omega, g1, g2, g3, g4⟩

theorem paper_factors (k : Nat) : ∃ fs, fs.length = (k + 1) / 2 + 6 ∧
    IsLyndonFactorization fs ((List.range (2 ^ (k + 5))).map paper) := by
  obtain ⟨G, X, h1, h2, h3, h4, h5⟩ := paper_factors_aux k
  have hall : ∀ f ∈ G ++ [X], BinLyn f ∧ f ≤ pfZ := by
    intro f hf
    rcases List.mem_append.1 hf with hf | hf
    · exact ⟨(h2 f hf).1, (h2 f hf).2.2⟩
    · simp only [List.mem_singleton] at hf; subst hf; exact ⟨h3.1, h3.2.2⟩
  have hl0 : ∀ f ∈ pfFirst, IsLyndon f ∧ pfZ ≤ f := by
    intro f hf
    simp only [pfFirst, List.mem_cons, List.not_mem_nil, or_false] at hf
    rcases hf with rfl | rfl | rfl | rfl | rfl
    all_goals exact ⟨isLyndon_iff_drop.2 (by decide +kernel), by decide +kernel⟩
  refine ⟨pfFirst ++ (G ++ [X]), by simp [h1, pfFirst], h5, ?_, ?_⟩
  · intro f hf
    rcases List.mem_append.1 hf with hf | hf
    · exact (hl0 f hf).1
    · exact (hall f hf).1.1
  · rw [List.pairwise_append]
    refine ⟨by decide +kernel, h4, ?_⟩
    intro f hf g hg
    exact (hall g hg).2.trans (hl0 f hf).2

end Verif
