import Verif.Lemmas.BwtVtm

/-! # The transform of a word followed by the smallest letter

`W = w ++ [0]` with `w` free of 0.  Tools for describing the matrix of the image of such a word. -/

namespace Verif

open Spec Model

/-! ## Groups of rows with known beginnings -/

/-- Decidable form of `Mis` (the first difference, within both words). -/
def misB : List UInt8 → List UInt8 → Bool
  | x :: xs, y :: ys => if x = y then misB xs ys else decide (x < y)
  | _, _ => false

theorem misB_mis {p q : List UInt8} (h : misB p q = true) : Mis p q := by
  induction p generalizing q with
  | nil => simp [misB] at h
  | cons x p ih =>
    cases q with
    | nil => simp [misB] at h
    | cons y q =>
      rw [misB] at h
      split at h
      · rename_i e; subst e; exact (ih h).cons _
      · exact ⟨[], x, y, p, q, rfl, rfl, by simpa using h⟩

theorem misB_lt {p q r s : List UInt8} (h : misB p q = true) (hr : p <+: r) (hs : q <+: s) : r < s := by
  obtain ⟨x, rfl⟩ := hr
  obtain ⟨y, rfl⟩ := hs
  exact ((misB_mis h).append x y).lt

/-- Every beginning of the first list is smaller than every beginning of the second one. -/
def prefixesLt (P Q : List (List UInt8)) : Bool := P.all fun p => Q.all fun q => misB p q

/-- Groups of sorted rows, the groups in the order of the beginnings of their rows. -/
theorem groups_sorted {gs : List (List (List UInt8) × List (List UInt8))} (h1 : ∀ g ∈ gs, g.2.Pairwise (· ≤ ·))
    (h2 : ∀ g ∈ gs, ∀ r ∈ g.2, ∃ p ∈ g.1, p <+: r)
    (h3 : (gs.map Prod.fst).Pairwise fun P Q => prefixesLt P Q = true) : (gs.flatMap Prod.snd).Pairwise (· ≤ ·) := by
  rw [List.flatMap_def, List.pairwise_flatten]
  refine ⟨fun l hl => ?_, ?_⟩
  · obtain ⟨g, hg, rfl⟩ := List.mem_map.1 hl
    exact h1 g hg
  · rw [List.pairwise_map] at h3 ⊢
    refine h3.imp_of_mem fun {g g'} hg hg' h r hr s hs => ?_
    obtain ⟨p, hp, hpr⟩ := h2 g hg r hr
    obtain ⟨q, hq, hqs⟩ := h2 g' hg' s hs
    rw [prefixesLt, List.all_eq_true] at h
    have := h p hp
    rw [List.all_eq_true] at this
    exact le_of_lt (misB_lt (this q hq) hpr hqs)

/-- The rows that begin with `p`. -/
def rowsP (W p : List UInt8) : List (List UInt8) := (matrix W).filter fun v => p.isPrefixOf v

theorem mem_rowsP {W p v : List UInt8} : v ∈ rowsP W p ↔ v ∈ matrix W ∧ p <+: v := by
  rw [rowsP, List.mem_filter, List.isPrefixOf_iff_prefix]

theorem rowsP_sorted (W p : List UInt8) : (rowsP W p).Pairwise (· ≤ ·) := (matrix_sorted W).filter _

/-- The matrix, cut at given beginnings. -/
theorem matrix_eq_rowsP {W : List UInt8} {ps : List (List UInt8)} (h1 : ps.Pairwise fun p q => misB p q = true)
    (h2 : ∀ v ∈ matrix W, ∃ p ∈ ps, p <+: v) : matrix W = ps.flatMap (rowsP W) := by
  have hs : (ps.flatMap (rowsP W)).Pairwise (· ≤ ·) := by
    rw [List.flatMap_def, List.pairwise_flatten]
    refine ⟨fun l hl => ?_, ?_⟩
    · obtain ⟨p, -, rfl⟩ := List.mem_map.1 hl
      exact rowsP_sorted W p
    · rw [List.pairwise_map]
      refine h1.imp fun {p q} h r hr s hs => ?_
      exact le_of_lt (misB_lt h (mem_rowsP.1 hr).2 (mem_rowsP.1 hs).2)
  refine List.Perm.eq_of_pairwise (le := (· ≤ ·)) (fun a b _ _ h1 h2 => le_antisymm h1 h2) (matrix_sorted W) hs ?_
  -- every row is in exactly one group
  clear hs
  unfold rowsP
  generalize matrix W = L at *
  induction L with
  | nil => simp
  | cons v L ih =>
    obtain ⟨p, hp, hpv⟩ := h2 v (by simp)
    refine ((ih fun u hu => h2 u (by simp [hu])).cons v).trans ?_
    clear ih h2
    induction ps with
    | nil => simp at hp
    | cons q ps ihp =>
      rw [List.pairwise_cons] at h1
      rw [List.flatMap_cons, List.flatMap_cons, List.filter_cons]
      by_cases hq : q.isPrefixOf v = true
      · rw [if_pos hq]
        have : ∀ q' ∈ ps, q'.isPrefixOf v = false := by
          intro q' hq'
          rw [Bool.eq_false_iff]
          intro h
          exact absurd (misB_lt (h1.1 q' hq') (List.isPrefixOf_iff_prefix.1 hq) (List.isPrefixOf_iff_prefix.1 h)) (lt_irrefl v)
        have e : ps.flatMap (fun p => (v :: L).filter fun u => p.isPrefixOf u) =
            ps.flatMap (fun p => L.filter fun u => p.isPrefixOf u) := by
          rw [List.flatMap_def, List.flatMap_def]
          congr 1
          apply List.map_congr_left
          intro q' hq'
          rw [List.filter_cons, if_neg (by rw [this q' hq']; simp)]
        rw [e]
        exact List.Perm.refl _
      · rw [if_neg hq]
        have hp' : p ∈ ps := by
          rcases List.mem_cons.1 hp with rfl | h
          · exact absurd (List.isPrefixOf_iff_prefix.2 hpv) hq
          · exact h
        have := ihp h1.2 hp'
        refine List.perm_middle.symm.trans ?_
        exact this.append_left _

/-! ## Words with the sentinel -/

/-- The rows of `w ++ [0]`. -/
theorem row_dollar {w v : List UInt8} : v ∈ matrix (w ++ [0]) ↔ ∃ p s, w = p ++ s ∧ v = s ++ 0 :: p := by
  rw [mem_matrix]
  constructor
  · rintro ⟨i, hi, rfl⟩
    have hi : i ≤ w.length := by simp at hi; omega
    refine ⟨w.take i, w.drop i, (List.take_append_drop i w).symm, ?_⟩
    rw [rot, List.drop_append_of_le_length hi, List.take_append_of_le_length hi]
    simp
  · rintro ⟨p, s, rfl, rfl⟩
    refine ⟨p.length, by simp, ?_⟩
    rw [rot, List.append_assoc, List.drop_left, List.take_left]
    simp

theorem dollar_unique {s s' p p' : List UInt8} (h1 : 0 ∉ s) (h2 : 0 ∉ s') (h : s ++ 0 :: p = s' ++ 0 :: p') : s = s' ∧ p = p' := by
  induction s generalizing s' with
  | nil =>
    cases s' with
    | nil => simpa using h
    | cons x s' =>
      simp only [List.nil_append, List.cons_append, List.cons.injEq] at h
      exact absurd (by simp [h.1]) h2
  | cons y s ih =>
    cases s' with
    | nil =>
      simp only [List.nil_append, List.cons_append, List.cons.injEq] at h
      exact absurd (by simp [← h.1]) h1
    | cons x s' =>
      simp only [List.cons_append, List.cons.injEq] at h
      obtain ⟨e1, e2⟩ := ih (fun hh => h1 (by simp [hh])) (fun hh => h2 (by simp [hh])) h.2
      exact ⟨by rw [h.1, e1], e2⟩

theorem matrix_dollar_nodup {w : List UInt8} (h0 : 0 ∉ w) : (matrix (w ++ [0])).Nodup := by
  rw [(matrix_spec (w ++ [0])).1.nodup_iff]
  rw [List.nodup_map_iff_inj_on List.nodup_range]
  have key : ∀ i, i ≤ w.length → rot i (w ++ [0]) = w.drop i ++ 0 :: w.take i := by
    intro i hi
    rw [rot, List.drop_append_of_le_length hi, List.take_append_of_le_length hi]; simp
  intro i hi j hj h
  simp only [List.mem_range, List.length_append, List.length_singleton] at hi hj
  rw [key i (by omega), key j (by omega)] at h
  obtain ⟨e1, e2⟩ := dollar_unique (fun hh => h0 (List.mem_of_mem_drop hh)) (fun hh => h0 (List.mem_of_mem_drop hh)) h
  have := congrArg List.length e2
  simp only [List.length_take] at this
  omega

theorem filter_eq_singleton {α : Type} {L : List α} (hn : L.Nodup) {r : α} (hr : r ∈ L) {P : α → Bool}
    (hP : ∀ v ∈ L, P v = true ↔ v = r) : L.filter P = [r] := by
  induction L with
  | nil => simp at hr
  | cons x L ih =>
    rw [List.nodup_cons] at hn
    by_cases hx : x = r
    · subst hx
      rw [List.filter_cons, if_pos ((hP x (by simp)).2 rfl)]
      congr 1
      rw [List.filter_eq_nil_iff]
      intro v hv h
      have := (hP v (by simp [hv])).1 h
      subst this
      exact hn.1 hv
    · have : r ∈ L := by
        rcases List.mem_cons.1 hr with h | h
        · exact absurd h.symm hx
        · exact h
      rw [List.filter_cons, if_neg (fun h => hx ((hP x (by simp)).1 h))]
      exact ih hn.2 this fun v hv => hP v (by simp [hv])

/-- The only row that begins with `s 0`, `s` a final part of the word. -/
theorem rowsP_dollar {w p s : List UInt8} (h0 : 0 ∉ w) (hw : w = p ++ s) : rowsP (w ++ [0]) (s ++ [0]) = [s ++ 0 :: p] := by
  refine filter_eq_singleton (matrix_dollar_nodup h0) (row_dollar.2 ⟨p, s, hw, rfl⟩) fun v hv => ?_
  rw [List.isPrefixOf_iff_prefix]
  constructor
  · rintro ⟨t, rfl⟩
    obtain ⟨p', s', hw', he⟩ := row_dollar.1 hv
    rw [List.append_assoc] at he
    obtain ⟨e1, e2⟩ := dollar_unique (s := s) (s' := s') (fun h => h0 (by simp [hw, h])) (fun h => h0 (by simp [hw', h])) he
    subst e1
    have := hw.symm.trans hw'
    rw [List.append_cancel_right this, ← e2]; simp
  · rintro rfl; exact ⟨p, by simp⟩

/-- No row begins with `s 0` if the word does not end with `s`. -/
theorem rowsP_dollar_nil {w s : List UInt8} (h0 : 0 ∉ w) (hs : 0 ∉ s) (hw : ¬ s <:+ w) : rowsP (w ++ [0]) (s ++ [0]) = [] := by
  rw [List.eq_nil_iff_forall_not_mem]
  intro v hv
  obtain ⟨hv, t, rfl⟩ := mem_rowsP.1 hv
  obtain ⟨p', s', hw', he⟩ := row_dollar.1 hv
  rw [List.append_assoc] at he
  obtain ⟨e1, -⟩ := dollar_unique hs (fun h => h0 (by simp [hw', h])) he
  subst e1
  exact hw ⟨p', hw'.symm⟩

/-- The last letters of the rows that begin with `p`. -/
def seg (W p : List UInt8) : List UInt8 := (rowsP W p).map fun v => v.getLastD 0

theorem bw_eq_seg {W : List UInt8} {ps : List (List UInt8)} (h1 : ps.Pairwise fun p q => misB p q = true)
    (h2 : ∀ v ∈ matrix W, ∃ p ∈ ps, p <+: v) : bw W = ps.flatMap (seg W) := by
  rw [bw]
  conv_lhs => rw [matrix_eq_rowsP h1 h2]
  rw [List.map_flatMap]; rfl

/-- The rows of a matrix given by groups that begin with `p`. -/
theorem rowsP_of_groups {W p : List UInt8} {m : List (List UInt8)} (h : matrix W = m) :
    rowsP W p = m.filter fun v => p.isPrefixOf v := by rw [rowsP, h]

theorem filter_prefix_all {p : List UInt8} {g : List (List UInt8)} (h : ∀ r ∈ g, p <+: r) : (g.filter fun v => p.isPrefixOf v) = g := by
  rw [List.filter_eq_self]
  intro r hr
  exact List.isPrefixOf_iff_prefix.2 (h r hr)

theorem filter_prefix_none {p : List UInt8} {g : List (List UInt8)} (h : ∀ r ∈ g, ∃ q, q <+: r ∧ (misB p q = true ∨ misB q p = true)) :
    (g.filter fun v => p.isPrefixOf v) = [] := by
  rw [List.filter_eq_nil_iff]
  intro r hr hp
  obtain ⟨q, hq, h⟩ := h r hr
  rw [List.isPrefixOf_iff_prefix] at hp
  rcases h with h | h
  · exact absurd (misB_lt h hp hq) (lt_irrefl r)
  · exact absurd (misB_lt h hq hp) (lt_irrefl r)

/-- The rows with a given beginning of a matrix that is given by groups. -/
theorem rowsP_groups {W p : List UInt8} {gs : List (List (List UInt8) × List (List UInt8))} (hm : matrix W = gs.flatMap Prod.snd)
    (h2 : ∀ g ∈ gs, ∀ r ∈ g.2, ∃ q ∈ g.1, q <+: r)
    (h3 : ∀ P ∈ gs.map Prod.fst, (P.all fun q => p.isPrefixOf q) = true ∨ (P.all fun q => misB p q || misB q p) = true) :
    rowsP W p = (gs.filter fun g => g.1.all fun q => p.isPrefixOf q).flatMap Prod.snd := by
  rw [rowsP, hm]
  clear hm
  induction gs with
  | nil => rfl
  | cons g gs ih =>
    have ih := ih (fun g' hg' => h2 g' (by simp [hg'])) (fun P hP => h3 P (by rw [List.map_cons]; exact List.mem_cons_of_mem _ hP))
    rw [List.flatMap_cons, List.filter_append, ih, List.filter_cons]
    rcases h3 g.1 (by simp) with h | h
    · rw [if_pos h, List.flatMap_cons]
      congr 1
      apply filter_prefix_all
      intro r hr
      obtain ⟨q, hq, hqr⟩ := h2 g (by simp) r hr
      rw [List.all_eq_true] at h
      exact (List.isPrefixOf_iff_prefix.1 (h q hq)).trans hqr
    · have hnone : (g.2.filter fun v => p.isPrefixOf v) = [] := by
        apply filter_prefix_none
        intro r hr
        obtain ⟨q, hq, hqr⟩ := h2 g (by simp) r hr
        rw [List.all_eq_true] at h
        exact ⟨q, hqr, by simpa using h q hq⟩
      rw [hnone, List.nil_append]
      split
      · rename_i h'
        rw [List.flatMap_cons]
        have : g.2 = [] := by
          rw [List.eq_nil_iff_forall_not_mem]
          intro r hr
          obtain ⟨q, hq, hqr⟩ := h2 g (by simp) r hr
          rw [List.all_eq_true] at h h'
          have a := h q hq
          obtain ⟨t, ht⟩ := List.isPrefixOf_iff_prefix.1 (h' q hq)
          subst ht
          simp only [Bool.or_eq_true] at a
          rcases a with a | a
          · exact absurd (misB_lt a (List.prefix_append p t) (List.prefix_refl _)) (lt_irrefl _)
          · exact absurd (misB_lt a (List.prefix_refl _) (List.prefix_append p t)) (lt_irrefl _)
        rw [this, List.nil_append]
      · rfl

end Verif
