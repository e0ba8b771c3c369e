import Verif.Lemmas.BwtTm

/-! # The transform of the period-doubling words -/

namespace Verif

open Spec Model

theorem pdMor_ab {c : UInt8} (h : IsAb c) : pdMor c = [97, compl c] := by
  rcases h with rfl | rfl <;> rfl

/-- The row of the image that begins in the middle of the last block. -/
def pdOdd (v : List UInt8) : List UInt8 := compl (v.getLastD 0) :: (v.dropLast.flatMap pdMor ++ [97])

theorem pdOdd_concat (v' : List UInt8) (x : UInt8) : pdOdd (v' ++ [x]) = compl x :: (v'.flatMap pdMor ++ [97]) := by
  simp [pdOdd]

theorem pd_lastRots {v' : List UInt8} {x : UInt8} (hx : IsAb x) : lastRots pdMor (v' ++ [x]) = [pdOdd (v' ++ [x])] := by
  simp [lastRots, pdOdd, pdMor_ab hx]

/-- No `b` follows a `b`, cyclically. -/
def Isolated (w : List UInt8) : Prop := ∀ v ∈ matrix w, (∀ s, v ≠ 98 :: 98 :: s) ∧ ∀ s, v ≠ 98 :: (s ++ [98])

theorem pd_mis {v u : List UInt8} (hv : ∀ c ∈ v, IsAb c) (hu : ∀ c ∈ u, IsAb c) (h : Mis v u) (s t : List UInt8) :
    Mis (u.flatMap pdMor ++ s) (v.flatMap pdMor ++ t) := by
  refine mis_flatMap_anti (A := IsAb) ?_ hv hu h s t
  intro x y hx hy hxy
  rcases hx with rfl | rfl <;> rcases hy with rfl | rfl
  · exact absurd hxy (by decide)
  · exact ⟨[97], 97, 98, [], [], rfl, rfl, by decide⟩
  · exact absurd hxy (by decide)
  · exact absurd hxy (by decide)

theorem pd_matrix {w : List UInt8} (hw : 2 ≤ w.length) (hab : ∀ c ∈ w, IsAb c) (hi : Isolated w) :
    matrix (w.flatMap pdMor) =
      (((matrix w).filter fun v => v.headD 0 = 98).map fun v => v.flatMap pdMor).reverse ++
      ((((matrix w).filter fun v => v.getLastD 0 = 98).map pdOdd).reverse ++
      ((((matrix w).filter fun v => v.headD 0 = 97).map fun v => v.flatMap pdMor).reverse ++
      (((matrix w).filter fun v => v.getLastD 0 = 97).map pdOdd).reverse)) := by
  have habr : ∀ v ∈ matrix w, ∀ c ∈ v, IsAb c := fun v hv c hc => hab c ((row_perm hv).mem_iff.1 hc)
  have hlast : ∀ v ∈ matrix w, IsAb (v.getLastD 0) := by
    intro v hv
    obtain ⟨v', x, rfl, h⟩ := row_concat hw hv
    simpa using habr _ hv x (by simp)
  have hhead : ∀ v ∈ matrix w, IsAb (v.headD 0) := by
    intro v hv
    obtain ⟨v', x, rfl, h⟩ := row_concat hw hv
    obtain ⟨z, v1, rfl⟩ := List.exists_cons_of_ne_nil h
    simpa using habr _ hv z (by simp)
  have hodd : ∀ v ∈ matrix w, ∀ u ∈ matrix w, v.getLastD 0 = u.getLastD 0 → v < u → pdOdd u < pdOdd v := by
    intro v hv u hu he hlt
    have h1 := rows_dropLast hv hu hlt
    have h2 := pd_mis (fun c hc => habr v hv c (List.mem_of_mem_dropLast hc))
      (fun c hc => habr u hu c (List.mem_of_mem_dropLast hc)) h1 [97] [97]
    unfold pdOdd
    rw [he]
    exact (h2.cons _).lt
  have hmap : ∀ v ∈ matrix w, ∀ u ∈ matrix w, v < u → u.flatMap pdMor < v.flatMap pdMor := by
    intro v hv u hu h
    have := pd_mis (habr v hv) (habr u hu) (rows_mis hv hu h) [] []
    simpa using this.lt
  have hL := matrix_sorted w
  -- the beginnings of the four groups of rows
  have f1 : ∀ v ∈ matrix w, v.headD 0 = 98 → ∃ s, v.flatMap pdMor = 97 :: 97 :: 97 :: 98 :: s := by
    intro v hv h
    have hi' := hi v hv
    obtain ⟨v', x, rfl, h'⟩ := row_concat hw hv
    obtain ⟨z, v1, rfl⟩ := List.exists_cons_of_ne_nil h'
    obtain rfl : z = 98 := by simpa using h
    obtain ⟨y, v2, hq⟩ := List.exists_cons_of_ne_nil (show v1 ++ [x] ≠ [] by simp)
    have hy := habr _ hv y (by rw [List.cons_append, hq]; simp)
    rw [List.cons_append, hq] at hi' ⊢
    rcases hy with rfl | rfl
    · exact ⟨v2.flatMap pdMor, by simp [pdMor]⟩
    · exact absurd rfl (hi'.1 v2)
  have f2 : ∀ v ∈ matrix w, v.getLastD 0 = 98 → ∃ s, pdOdd v = 97 :: 97 :: 98 :: s := by
    intro v hv h
    have hi' := hi v hv
    obtain ⟨v', x, rfl, h'⟩ := row_concat hw hv
    obtain rfl : x = 98 := by simpa using h
    obtain ⟨z, v1, rfl⟩ := List.exists_cons_of_ne_nil h'
    rcases habr _ hv z (by simp) with rfl | rfl
    · exact ⟨v1.flatMap pdMor ++ [97], by rw [pdOdd_concat]; simp [pdMor, compl]⟩
    · exact absurd rfl (hi'.2 v1)
  have f3 : ∀ v ∈ matrix w, v.headD 0 = 97 → ∃ s, v.flatMap pdMor = 97 :: 98 :: s := by
    intro v hv h
    obtain ⟨v', x, rfl, h'⟩ := row_concat hw hv
    obtain ⟨z, v1, rfl⟩ := List.exists_cons_of_ne_nil h'
    obtain rfl : z = 97 := by simpa using h
    exact ⟨_, rfl⟩
  have f4 : ∀ v : List UInt8, v.getLastD 0 = 97 → ∃ s, pdOdd v = 98 :: s := by
    intro v h
    unfold pdOdd
    rw [h]
    exact ⟨_, rfl⟩
  refine matrix_flatMap (fun x hx => ?_) ?_ ?_
  · rw [pdMor_ab (hab x hx)]; simp
  · have e1 : (matrix w).flatMap (lastRots pdMor) = (matrix w).map pdOdd := by
      rw [List.map_eq_flatMap, List.flatMap_def, List.flatMap_def]
      congr 1
      apply List.map_congr_left
      intro v hv
      obtain ⟨v', x, rfl, h⟩ := row_concat hw hv
      exact pd_lastRots (habr _ hv x (by simp))
    have e2 : ((matrix w).filter fun v => v.getLastD 0 = 97) = (matrix w).filter fun v => !decide (v.getLastD 0 = 98) := by
      apply List.filter_congr
      intro v hv
      rcases hlast v hv with h | h <;> rw [h] <;> decide
    have e3 : ((matrix w).filter fun v => v.headD 0 = 97) = (matrix w).filter fun v => !decide (v.headD 0 = 98) := by
      apply List.filter_congr
      intro v hv
      rcases hhead v hv with h | h <;> rw [h] <;> decide
    rw [e1, e2, e3]
    have h3 := (List.filter_append_perm (fun v : List UInt8 => decide (v.getLastD 0 = 98)) (matrix w)).map pdOdd
    have h4 := (List.filter_append_perm (fun v : List UInt8 => decide (v.headD 0 = 98)) (matrix w)).map
      fun v => v.flatMap pdMor
    rw [List.map_append] at h3 h4
    refine List.Perm.trans ?_ (h4.append h3)
    have r := fun l : List (List UInt8) => List.reverse_perm l
    refine ((r _).append ((r _).append ((r _).append (r _)))).trans ?_
    rw [List.append_assoc]
    refine List.Perm.append_left _ ?_
    rw [← List.append_assoc, ← List.append_assoc]
    exact List.Perm.append_right _ List.perm_append_comm
  · have lt3 : ∀ s t : List UInt8, (97 :: 97 :: 97 :: 98 :: s) ≤ (97 :: 97 :: 98 :: t) := fun s t =>
      le_of_lt (by simp [cons_lt_cons])
    have lt2 : ∀ s t : List UInt8, (97 :: 97 :: s) ≤ (97 :: 98 :: t) := fun s t => le_of_lt (by simp [cons_lt_cons])
    have lt1 : ∀ s t : List UInt8, (97 :: s) ≤ (98 :: t) := fun s t => le_of_lt (by simp [cons_lt_cons])
    have m1 : ∀ r ∈ (((matrix w).filter fun v => v.headD 0 = 98).map fun v => v.flatMap pdMor).reverse,
        ∃ s, r = 97 :: 97 :: 97 :: 98 :: s := by
      intro r hr
      obtain ⟨v, hv, rfl⟩ := List.mem_map.1 (List.mem_reverse.1 hr)
      simp only [List.mem_filter, decide_eq_true_eq] at hv
      exact f1 v hv.1 hv.2
    have m2 : ∀ r ∈ (((matrix w).filter fun v => v.getLastD 0 = 98).map pdOdd).reverse, ∃ s, r = 97 :: 97 :: 98 :: s := by
      intro r hr
      obtain ⟨v, hv, rfl⟩ := List.mem_map.1 (List.mem_reverse.1 hr)
      simp only [List.mem_filter, decide_eq_true_eq] at hv
      exact f2 v hv.1 hv.2
    have m3 : ∀ r ∈ (((matrix w).filter fun v => v.headD 0 = 97).map fun v => v.flatMap pdMor).reverse,
        ∃ s, r = 97 :: 98 :: s := by
      intro r hr
      obtain ⟨v, hv, rfl⟩ := List.mem_map.1 (List.mem_reverse.1 hr)
      simp only [List.mem_filter, decide_eq_true_eq] at hv
      exact f3 v hv.1 hv.2
    have m4 : ∀ r ∈ (((matrix w).filter fun v => v.getLastD 0 = 97).map pdOdd).reverse, ∃ s, r = 98 :: s := by
      intro r hr
      obtain ⟨v, hv, rfl⟩ := List.mem_map.1 (List.mem_reverse.1 hr)
      simp only [List.mem_filter, decide_eq_true_eq] at hv
      exact f4 v hv.2
    have so : ∀ c : UInt8, (((matrix w).filter fun v => v.getLastD 0 = c).map pdOdd).reverse.Pairwise (· ≤ ·) := by
      intro c
      refine sorted_map_reverse (hL.filter _) fun v hv u hu => ?_
      simp only [List.mem_filter, decide_eq_true_eq] at hv hu
      exact hodd v hv.1 u hu.1 (hv.2.trans hu.2.symm)
    have sm : ∀ c : UInt8,
        (((matrix w).filter fun v => v.headD 0 = c).map fun v => v.flatMap pdMor).reverse.Pairwise (· ≤ ·) := by
      intro c
      refine sorted_map_reverse (hL.filter _) fun v hv u hu => ?_
      exact hmap v (List.mem_of_mem_filter hv) u (List.mem_of_mem_filter hu)
    rw [List.pairwise_append, List.pairwise_append, List.pairwise_append]
    refine ⟨sm 98, ⟨so 98, ⟨sm 97, so 97, ?_⟩, ?_⟩, ?_⟩
    · intro r hr q hq
      obtain ⟨s, rfl⟩ := m3 r hr
      obtain ⟨t, rfl⟩ := m4 q hq
      exact lt1 _ _
    · intro r hr q hq
      obtain ⟨s, rfl⟩ := m2 r hr
      rcases List.mem_append.1 hq with hq | hq
      · obtain ⟨t, rfl⟩ := m3 q hq
        exact lt2 _ _
      · obtain ⟨t, rfl⟩ := m4 q hq
        exact lt1 _ _
    · intro r hr q hq
      obtain ⟨s, rfl⟩ := m1 r hr
      rcases List.mem_append.1 hq with hq | hq
      · obtain ⟨t, rfl⟩ := m2 q hq
        exact lt3 _ _
      rcases List.mem_append.1 hq with hq | hq
      · obtain ⟨t, rfl⟩ := m3 q hq
        exact lt2 _ _
      · obtain ⟨t, rfl⟩ := m4 q hq
        exact lt1 _ _

/-- The part of the transform that belongs to the rows beginning with `c`. -/
def bwAt (c : UInt8) (w : List UInt8) : List UInt8 := ((matrix w).filter fun v => v.headD 0 = c).map fun v => v.getLastD 0

theorem pd_last {w v : List UInt8} (hw : 2 ≤ w.length) (hab : ∀ c ∈ w, IsAb c) (hv : v ∈ matrix w) :
    (v.flatMap pdMor).getLastD 0 = compl (v.getLastD 0) := by
  obtain ⟨v', x, rfl, h⟩ := row_concat hw hv
  have hx : IsAb x := hab x ((row_perm hv).mem_iff.1 (by simp))
  rw [List.flatMap_append, List.flatMap_singleton, pdMor_ab hx]
  rw [lastD_append (by simp), lastD_concat]
  rfl

theorem pd_group_last {w : List UInt8} (c : UInt8) :
    (((matrix w).filter fun v => v.getLastD 0 = c).map pdOdd).reverse.map (fun v => v.getLastD 0) =
      List.replicate ((bw w).count c) 97 := by
  rw [bw, ← filter_last_length, List.map_reverse, List.map_map, ← List.reverse_replicate, ← List.map_const]
  congr 1
  apply List.map_congr_left
  intro v hv
  simp only [Function.comp, pdOdd]
  rw [lastD_cons_concat]
  rfl

/-- The transform of the image of a word under the period-doubling morphism. -/
theorem pd_bw {w : List UInt8} (hw : 2 ≤ w.length) (hab : ∀ c ∈ w, IsAb c) (hi : Isolated w) :
    bwAt 97 (w.flatMap pdMor) = List.replicate (bwAt 98 w).length 98 ++
      (List.replicate ((bw w).count 98) 97 ++ ((bwAt 97 w).map compl).reverse) ∧
    bwAt 98 (w.flatMap pdMor) = List.replicate ((bw w).count 97) 97 ∧
    bw (w.flatMap pdMor) = bwAt 97 (w.flatMap pdMor) ++ bwAt 98 (w.flatMap pdMor) := by
  have habr : ∀ v ∈ matrix w, ∀ c ∈ v, IsAb c := fun v hv c hc => hab c ((row_perm hv).mem_iff.1 hc)
  have hm := pd_matrix hw hab hi
  have g1 : ((((matrix w).filter fun v => v.headD 0 = 98).map fun v => v.flatMap pdMor).reverse).map (fun v => v.getLastD 0) =
      List.replicate (bwAt 98 w).length 98 := by
    rw [bwAt, List.length_map, List.map_reverse, List.map_map, ← List.reverse_replicate, ← List.map_const]
    congr 1
    apply List.map_congr_left
    intro v hv
    simp only [List.mem_filter, decide_eq_true_eq] at hv
    simp only [Function.comp]
    rw [pd_last hw hab hv.1]
    have hi' := (hi v hv.1).2
    obtain ⟨v', x, rfl, h'⟩ := row_concat hw hv.1
    obtain ⟨z, v1, rfl⟩ := List.exists_cons_of_ne_nil h'
    obtain rfl : z = 98 := by simpa using hv.2
    rw [lastD_concat]
    rcases habr _ hv.1 x (by simp) with rfl | rfl
    · rfl
    · exact absurd rfl (hi' v1)
  have g3 : ((((matrix w).filter fun v => v.headD 0 = 97).map fun v => v.flatMap pdMor).reverse).map (fun v => v.getLastD 0) =
      ((bwAt 97 w).map compl).reverse := by
    rw [bwAt, List.map_reverse, List.map_map, List.map_map]
    congr 1
    apply List.map_congr_left
    intro v hv
    exact pd_last hw hab (List.mem_of_mem_filter hv)
  -- which rows begin with which letter
  have hd : ∀ v ∈ matrix w, (v.flatMap pdMor).headD 0 = 97 := by
    intro v hv
    obtain ⟨v', x, rfl, h'⟩ := row_concat hw hv
    obtain ⟨z, v1, rfl⟩ := List.exists_cons_of_ne_nil h'
    rw [List.cons_append, List.flatMap_cons, pdMor_ab (habr _ hv z (by simp))]
    rfl
  have ho : ∀ v, (pdOdd v).headD 0 = compl (v.getLastD 0) := fun v => rfl
  have fa : ∀ (P : List UInt8 → Bool) (l : List (List UInt8)), (∀ r ∈ l, P r = true) → l.filter P = l := fun P l h =>
    List.filter_eq_self.2 h
  have fn : ∀ (P : List UInt8 → Bool) (l : List (List UInt8)), (∀ r ∈ l, P r = false) → l.filter P = [] := fun P l h =>
    List.filter_eq_nil_iff.2 (by intro r hr; simp [h r hr])
  have k1 : ∀ d : UInt8, ∀ r ∈ (((matrix w).filter fun v => v.headD 0 = d).map fun v => v.flatMap pdMor).reverse,
      r.headD 0 = 97 := by
    intro d r hr
    obtain ⟨v, hv, rfl⟩ := List.mem_map.1 (List.mem_reverse.1 hr)
    exact hd v (List.mem_of_mem_filter hv)
  have k2 : ∀ d : UInt8, ∀ r ∈ (((matrix w).filter fun v => v.getLastD 0 = d).map pdOdd).reverse, r.headD 0 = compl d := by
    intro d r hr
    obtain ⟨v, hv, rfl⟩ := List.mem_map.1 (List.mem_reverse.1 hr)
    simp only [List.mem_filter, decide_eq_true_eq] at hv
    rw [ho, hv.2]
  have q1 := k1 98
  have q2 := k2 98
  have q3 := k1 97
  have q4 := k2 97
  have g2 := pd_group_last (w := w) 98
  have g4 := pd_group_last (w := w) 97
  clear k1 k2
  generalize (((matrix w).filter fun v => v.headD 0 = 98).map fun v => v.flatMap pdMor).reverse = A at hm g1 q1
  generalize (((matrix w).filter fun v => v.getLastD 0 = 98).map pdOdd).reverse = B at hm g2 q2
  generalize (((matrix w).filter fun v => v.headD 0 = 97).map fun v => v.flatMap pdMor).reverse = C at hm g3 q3
  generalize (((matrix w).filter fun v => v.getLastD 0 = 97).map pdOdd).reverse = D at hm g4 q4
  have ne : compl 97 = 98 := rfl
  have ne' : compl 98 = 97 := rfl
  rw [ne] at q4
  rw [ne'] at q2
  have hA : bwAt 97 (w.flatMap pdMor) = List.replicate (bwAt 98 w).length 98 ++
      (List.replicate ((bw w).count 98) 97 ++ ((bwAt 97 w).map compl).reverse) := by
    rw [← g1, ← g2, ← g3, ← List.map_append, ← List.map_append, bwAt, hm, List.filter_append, List.filter_append,
      List.filter_append, fa _ A fun r hr => by rw [q1 r hr]; decide, fa _ B fun r hr => by rw [q2 r hr]; decide,
      fa _ C fun r hr => by rw [q3 r hr]; decide, fn _ D fun r hr => by rw [q4 r hr]; decide, List.append_nil]
  have hB : bwAt 98 (w.flatMap pdMor) = List.replicate ((bw w).count 97) 97 := by
    rw [← g4, bwAt, hm, List.filter_append, List.filter_append,
      List.filter_append, fn _ A fun r hr => by rw [q1 r hr]; decide, fn _ B fun r hr => by rw [q2 r hr]; decide,
      fn _ C fun r hr => by rw [q3 r hr]; decide, fa _ D fun r hr => by rw [q4 r hr]; decide, List.nil_append,
      List.nil_append, List.nil_append]
  refine ⟨hA, hB, ?_⟩
  rw [hA, hB, bw, hm, List.map_append, List.map_append, List.map_append, g1, g2, g3, g4]
  simp

theorem mem_matrix_flatMap {φ : UInt8 → List UInt8} {w : List UInt8} (hφ : ∀ x ∈ w, φ x ≠ []) {r : List UInt8}
    (hr : r ∈ matrix (w.flatMap φ)) : ∃ v ∈ matrix w, r = v.flatMap φ ∨ r ∈ lastRots φ v := by
  obtain ⟨i, hi, rfl⟩ := mem_matrix.1 hr
  have hr' : rot i (w.flatMap φ) ∈ rots (w.flatMap φ) := List.mem_map.2 ⟨i, List.mem_range.2 hi, rfl⟩
  rw [(rots_flatMap_perm hφ).mem_iff] at hr'
  have hm : ∀ v ∈ rots w, v ∈ matrix w := by
    intro v hv
    exact (matrix_spec w).1.mem_iff.2 hv
  rcases List.mem_append.1 hr' with h | h
  · obtain ⟨v, hv, h⟩ := List.mem_map.1 h
    exact ⟨v, hm v hv, Or.inl h.symm⟩
  · obtain ⟨v, hv, h⟩ := List.mem_flatMap.1 h
    exact ⟨v, hm v hv, Or.inr h⟩

theorem pd_isolated {w : List UInt8} (hab : ∀ c ∈ w, IsAb c) : Isolated (w.flatMap pdMor) := by
  intro r hr
  obtain ⟨v, hv, h⟩ := mem_matrix_flatMap (fun x hx => by rw [pdMor_ab (hab x hx)]; simp) hr
  have habr : ∀ c ∈ v, IsAb c := fun c hc => hab c ((row_perm hv).mem_iff.1 hc)
  rcases h with rfl | h
  · cases v with
    | nil => simp
    | cons z v => rw [List.flatMap_cons, pdMor_ab (habr z (by simp))]; simp
  · rcases List.eq_nil_or_concat' v with rfl | ⟨v', z, rfl⟩
    · simp [lastRots] at h
    · rw [pd_lastRots (habr z (by simp)), List.mem_singleton, pdOdd_concat] at h
      subst h
      constructor
      · intro s h
        cases v' with
        | nil => simp at h
        | cons y v' =>
          rw [List.flatMap_cons, pdMor_ab (habr y (by simp))] at h
          simp at h
      · intro s h
        simp only [List.cons.injEq] at h
        have := (List.append_inj' h.2 rfl).2
        simp at this

theorem pd_iter_ab (k : Nat) : ∀ c ∈ iter pdMor k [97], IsAb c := by
  induction k with
  | zero => intro c hc; simp [iter] at hc; exact Or.inl hc
  | succ k ih =>
    intro c hc
    obtain ⟨x, hx, hc⟩ := List.mem_flatMap.1 hc
    rw [pdMor_ab (ih x hx)] at hc
    simp at hc
    rcases hc with rfl | rfl
    · exact Or.inl rfl
    · exact isAb_compl

theorem pd_length (w : List UInt8) : (w.flatMap pdMor).length = 2 * w.length := by
  induction w with
  | nil => rfl
  | cons x w ih =>
    have : (pdMor x).length = 2 := by unfold pdMor; split <;> rfl
    rw [List.flatMap_cons, List.length_append, ih, this, List.length_cons]; omega

/-- The transform of the period-doubling word of order `k + 2`. -/
theorem pd_runs (k : Nat) : ∃ A n, 0 < n ∧ bwAt 97 (iter pdMor (k + 2) [97]) = A ∧
    bwAt 98 (iter pdMor (k + 2) [97]) = List.replicate n 97 ∧ bw (iter pdMor (k + 2) [97]) = A ++ List.replicate n 97 ∧
    A.head? = some 98 ∧ A.getLast? = some 97 ∧ nr A = 2 * (k + 1) ∧ (∀ c ∈ A, IsAb c) ∧
    4 ≤ (iter pdMor (k + 2) [97]).length ∧ Isolated (iter pdMor (k + 2) [97]) := by
  induction k with
  | zero =>
    have hm : matrix (iter pdMor (0 + 2) [97]) = [[97, 97, 97, 98], [97, 97, 98, 97], [97, 98, 97, 97], [98, 97, 97, 97]] :=
      matrix_unique ⟨by decide +kernel, by decide +kernel⟩
    refine ⟨[98, 97, 97], 1, by omega, ?_, ?_, ?_, rfl, rfl, rfl, by simp [IsAb], by decide, pd_isolated (pd_iter_ab 1)⟩
    · rw [bwAt, hm]; decide +kernel
    · rw [bwAt, hm]; decide +kernel
    · rw [bw, hm]; decide +kernel
  | succ k ih =>
    obtain ⟨A, n, hn, h1, h2, h3, h4, h5, h6, h7, h8, h9⟩ := ih
    have hab := pd_iter_ab (k + 2)
    obtain ⟨b1, b2, b3⟩ := pd_bw (by omega) hab h9
    have hl := pd_length (iter pdMor (k + 2) [97])
    rw [show iter pdMor (k + 1 + 2) [97] = (iter pdMor (k + 2) [97]).flatMap pdMor from rfl]
    have hi := pd_isolated hab
    generalize iter pdMor (k + 2) [97] = w at *
    have c7 : 0 < (bw w).count 97 := by
      rw [h3, List.count_append, List.count_replicate_self]; omega
    have c8 : 0 < (bw w).count 98 := by
      have := count_pos_of_head h4
      rw [h3, List.count_append]; omega
    have g1 : ((A.map compl).reverse).head? = some 98 := by rw [List.head?_reverse, List.getLast?_map, h5]; rfl
    have g2 : ((A.map compl).reverse).getLast? = some 97 := by rw [List.getLast?_reverse, List.head?_map, h4]; rfl
    have g3 : nr (A.map compl).reverse = 2 * (k + 1) := by
      rw [nr_reverse, nr_map, h6]
      intro x hx y hy he
      rw [← compl_compl (h7 x hx), he, compl_compl (h7 y hy)]
    rw [h1, h2, List.length_replicate] at b1
    refine ⟨_, _, c7, b1, b2, by rw [b3, b1, b2], ?_, ?_, ?_, ?_, by omega, hi⟩
    · exact head_append (head_replicate _ hn)
    · exact last_append (last_append g2)
    · rw [nr_append_ne, nr_append_ne, g3, nr_replicate _ hn, nr_replicate _ c8]
      · omega
      · exact ne_nil_of_head (head_replicate _ c8)
      · exact ne_nil_of_head g1
      · rw [last_replicate _ c8, g1]; decide
      · exact ne_nil_of_head (head_replicate _ hn)
      · exact ne_nil_of_head (head_append (head_replicate _ c8))
      · rw [last_replicate _ hn, head_append (head_replicate _ c8)]; decide
    · intro c hc
      simp only [List.mem_append, List.mem_replicate, List.mem_reverse, List.mem_map] at hc
      rcases hc with ⟨-, rfl⟩ | ⟨-, rfl⟩ | ⟨x, -, rfl⟩
      · exact Or.inr rfl
      · exact Or.inl rfl
      · exact isAb_compl

theorem pd_nr (k : Nat) : nr (bw (iter pdMor (k + 2) [97])) = 2 * (k + 1) := by
  obtain ⟨A, n, hn, h1, h2, h3, h4, h5, h6, -⟩ := pd_runs k
  rw [h3]
  have := nr_append_eq (p := A) (q := List.replicate n 97) (ne_nil_of_head h4) (ne_nil_of_head (head_replicate _ hn))
    (by rw [h5, head_replicate _ hn])
  rw [nr_replicate _ hn] at this
  omega

end Verif
