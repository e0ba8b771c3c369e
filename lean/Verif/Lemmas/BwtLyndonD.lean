import Verif.Lemmas.BwtDollar
import Verif.Lemmas.LyndonMore
import Verif.Lemmas.Conjugates

/-! # The transform of a Lyndon word followed by the sentinel -/

namespace Verif

open Spec Model

theorem rot_dollar {w : List UInt8} {i : Nat} (hi : i ≤ w.length) : rot i (w ++ [0]) = w.drop i ++ 0 :: w.take i := by
  rw [rot, List.drop_append_of_le_length hi, List.take_append_of_le_length hi]; simp

theorem mis_or_prefix (u v : List UInt8) : Mis u v ∨ Mis v u ∨ u <+: v ∨ v <+: u := by
  induction u generalizing v with
  | nil => exact Or.inr (Or.inr (Or.inl List.nil_prefix))
  | cons x u ih =>
    cases v with
    | nil => exact Or.inr (Or.inr (Or.inr List.nil_prefix))
    | cons y v =>
      rcases lt_trichotomy x y with h | rfl | h
      · exact Or.inl ⟨[], x, y, u, v, rfl, rfl, h⟩
      · rcases ih v with h | h | h | h
        · exact Or.inl (h.cons x)
        · exact Or.inr (Or.inl (h.cons x))
        · exact Or.inr (Or.inr (Or.inl (List.cons_prefix_cons.2 ⟨rfl, h⟩)))
        · exact Or.inr (Or.inr (Or.inr (List.cons_prefix_cons.2 ⟨rfl, h⟩)))
      · exact Or.inr (Or.inl ⟨[], y, x, v, u, rfl, rfl, h⟩)

/-- If a later suffix of a Lyndon word begins an earlier one, its rotation is the smaller one. -/
theorem lyndon_rot_of_prefix {w : List UInt8} (hw : IsLyndon w) {i j : Nat} (hij : j < i) (hi : i < w.length)
    (h : w.drop i <+: w.drop j) : rot i w < rot j w := by
  obtain ⟨x, hx⟩ := h
  have hl := congrArg List.length hx
  simp only [List.length_append, List.length_drop] at hl
  -- `x` is a suffix of `w`
  have hxs : x = w.drop (j + (w.length - i)) := by
    have := congrArg (List.drop (w.length - i)) hx
    rw [List.drop_left' (by simp), List.drop_drop] at this
    exact this
  have hlt := (isLyndon_iff_drop.1 hw).2 (j + (w.length - i)) (by omega) (by omega)
  rw [← hxs] at hlt
  have hm := mis_of_lt_of_length_le hlt (by omega)
  -- the mismatch is within the first `i` letters
  obtain ⟨p, a, b, w', x', h1, h2, hab⟩ := hm
  have hpl : p.length + 1 ≤ i := by
    rw [h2] at hl
    simp only [List.length_append, List.length_cons] at hl
    omega
  have ht : w.take i = p ++ a :: w'.take (i - p.length - 1) := by
    conv_lhs => rw [h1]
    rw [List.take_append, List.take_of_length_le (by omega)]
    obtain ⟨m, hm⟩ : ∃ m, i - p.length = m + 1 := ⟨i - p.length - 1, by omega⟩
    rw [hm, List.take_succ_cons]
    congr 2
  rw [rot, rot, ← hx, List.append_assoc]
  have : Mis (w.take i) (x ++ w.take j) := ⟨p, a, b, _, x' ++ w.take j, ht, by rw [h2]; simp, hab⟩
  exact (mis_append_left.2 this).lt

theorem lyndon_rot_dollar {w : List UInt8} (hw : IsLyndon w) (h0 : 0 ∉ w) {i j : Nat} (hi : i < w.length) (hj : j < w.length)
    (h : rot i w < rot j w) : rot i (w ++ [0]) < rot j (w ++ [0]) := by
  have hne : i ≠ j := by rintro rfl; exact lt_irrefl _ h
  rw [rot_dollar hi.le, rot_dollar hj.le]
  have pre : ∀ i j, i < w.length → j < w.length → i ≠ j → w.drop i <+: w.drop j → j < i := by
    intro i j hi hj hne hp
    have := hp.length_le
    simp only [List.length_drop] at this
    omega
  rcases mis_or_prefix (w.drop i) (w.drop j) with hm | hm | hm | hm
  · exact (hm.append _ _).lt
  · exact absurd ((hm.append (w.take j) (w.take i)).lt) (lt_asymm h)
  · have hij := pre i j hi hj hne hm
    obtain ⟨x, hx⟩ := hm
    have : x ≠ [] := by
      rintro rfl
      have := congrArg List.length hx
      simp at this; omega
    obtain ⟨y, x, rfl⟩ := List.exists_cons_of_ne_nil this
    rw [← hx, List.append_assoc]
    have hy : y ≠ 0 := by
      rintro rfl
      exact h0 (List.mem_of_mem_drop (i := j) (by rw [← hx]; simp))
    refine (mis_append_left.2 ⟨[], 0, y, _, _, rfl, rfl, ?_⟩).lt
    exact UInt8.pos_iff_ne_zero.2 hy
  · have hij := pre j i hj hi hne.symm hm
    exact absurd (lyndon_rot_of_prefix hw hij hj hm) (lt_asymm h)

/-- The transform of a Lyndon word with the sentinel, from the transform without it. -/
theorem lyndon_bw_dollar {w : List UInt8} (hw : IsLyndon w) (h0 : 0 ∉ w) :
    ∃ x t, bw w = x :: t ∧ bw (w ++ [0]) = x :: 0 :: t := by
  have hpos : 0 < w.length := List.length_pos_iff.2 hw.1
  let I := (List.range w.length).mergeSort fun i j => decide (rot i w ≤ rot j w)
  have hIp : I.Perm (List.range w.length) := List.mergeSort_perm _ _
  have hIs : I.Pairwise fun i j => rot i w ≤ rot j w := by
    have := List.pairwise_mergeSort (le := fun i j => decide (rot i w ≤ rot j w))
      (by intro a b c h1 h2; simp only [decide_eq_true_eq] at *; exact h1.trans h2)
      (by intro a b; simp only [Bool.or_eq_true, decide_eq_true_eq]; exact le_total _ _) (List.range w.length)
    exact this.imp fun h => by simpa using h
  clear_value I
  have hIm : ∀ i ∈ I, i < w.length := fun i hi => List.mem_range.1 (hIp.mem_iff.1 hi)
  have hIn : I.Nodup := hIp.nodup_iff.2 List.nodup_range
  have inj : ∀ i ∈ I, ∀ j ∈ I, rot i w = rot j w → i = j := fun i hi j hj h =>
    (rot_lyndon_inj hw hw (hIm i hi) (hIm j hj) h).2
  have hIs' : I.Pairwise fun i j => rot i w < rot j w := by
    refine (hIs.and hIn).imp_of_mem fun {i j} hi hj h => lt_of_le_of_ne h.1 fun e => h.2 (inj i hi j hj e)
  have hm : matrix w = I.map fun i => rot i w := by
    refine matrix_unique ⟨?_, ?_⟩
    · exact hIp.map _
    · rw [List.pairwise_map]; exact hIs
  have hm' : matrix (w ++ [0]) = (0 :: w) :: I.map fun i => rot i (w ++ [0]) := by
    refine matrix_unique ⟨?_, ?_⟩
    · have e : rots (w ++ [0]) = (List.range w.length).map (fun i => rot i (w ++ [0])) ++ [0 :: w] := by
        rw [rots, List.length_append, List.length_singleton, List.range_succ, List.map_append, List.map_singleton,
          rot_dollar (le_refl _)]
        simp
      change List.Perm _ (rots (w ++ [0]))
      rw [e]
      refine List.Perm.trans ?_ List.perm_append_comm
      exact List.Perm.cons _ (hIp.map _)
    · rw [List.pairwise_cons]
      refine ⟨fun r hr => ?_, ?_⟩
      · obtain ⟨i, hi, rfl⟩ := List.mem_map.1 hr
        rw [rot_dollar (hIm i hi).le]
        obtain ⟨y, t, hy⟩ := List.exists_cons_of_ne_nil (show w.drop i ≠ [] by
          rw [← List.length_pos_iff, List.length_drop]; have := hIm i hi; omega)
        rw [hy]
        have hy0 : y ≠ 0 := by
          rintro rfl
          exact h0 (List.mem_of_mem_drop (i := i) (by rw [hy]; simp))
        exact le_of_lt (Mis.lt ⟨[], 0, y, _, _, rfl, rfl, UInt8.pos_iff_ne_zero.2 hy0⟩)
      · rw [List.pairwise_map]
        exact hIs'.imp_of_mem fun {i j} hi hj h => (lyndon_rot_dollar hw h0 (hIm i hi) (hIm j hj) h).le
  -- the first row is the word itself
  obtain ⟨I', hI'⟩ : ∃ I', I = 0 :: I' := by
    have h0I : 0 ∈ I := hIp.mem_iff.2 (List.mem_range.2 hpos)
    cases hI : I with
    | nil => rw [hI] at h0I; simp at h0I
    | cons z I' =>
      rw [hI] at h0I hIs'
      rcases List.mem_cons.1 h0I with rfl | h
      · exact ⟨I', rfl⟩
      · exfalso
        have := (List.pairwise_cons.1 hIs').1 0 h
        rw [rot_zero] at this
        exact absurd (lyndon_le_rot hw (hIm z (by rw [hI]; simp))) (not_le.2 this)
  have hnz : ∀ i ∈ I', i ≠ 0 := by
    rintro i hi rfl
    rw [hI'] at hIn
    exact (List.nodup_cons.1 hIn).1 hi
  refine ⟨w.getLastD 0, I'.map fun i => (rot i w).getLastD 0, ?_, ?_⟩
  · rw [bw, hm, hI']; simp [rot_zero]
  · rw [bw, hm', hI', List.map_cons, List.map_cons, List.map_cons, rot_zero, lastD_concat]
    congr 1
    · obtain ⟨w', x, rfl⟩ := (List.eq_nil_or_concat' w).resolve_left hw.1
      rw [lastD_cons_concat, lastD_concat]
    · congr 1
      rw [List.map_map]
      apply List.map_congr_left
      intro i hi
      have hil := hIm i (by rw [hI']; simp [hi])
      simp only [Function.comp]
      rw [rot_dollar hil.le, rot]
      have ht : w.take i ≠ [] := by
        rw [← List.length_pos_iff, List.length_take]
        have := hnz i hi
        omega
      rw [lastD_append ht, show w.drop i ++ 0 :: w.take i = (w.drop i ++ [0]) ++ w.take i by simp, lastD_append ht]

end Verif
