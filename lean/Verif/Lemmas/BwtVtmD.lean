import Verif.Lemmas.BwtDollar

/-! # The transform of the ternary Thue--Morse words followed by the sentinel -/

namespace Verif

open Spec Model

/-- The letters with the sentinel. -/
def IsAbcD (c : UInt8) : Prop := c = 0 ∨ IsAbc c

/-- The morphism that keeps the sentinel. -/
def vtmD (c : UInt8) : List UInt8 := if c = 0 then [0] else vtmMor c

theorem vtmD_nonempty (x : UInt8) : vtmD x ≠ [] := by
  unfold vtmD; split
  · simp
  · exact vtm_nonempty x

theorem vtmD_mis {v u : List UInt8} (hv : ∀ c ∈ v, IsAbcD c) (hu : ∀ c ∈ u, IsAbcD c) (h : Mis v u) (s t : List UInt8) :
    Mis (v.flatMap vtmD ++ s) (u.flatMap vtmD ++ t) := by
  refine mis_flatMap (A := IsAbcD) ?_ hv hu h s t
  intro x y hx hy hxy
  refine misB_mis ?_
  rcases hx with rfl | rfl | rfl | rfl <;> rcases hy with rfl | rfl | rfl | rfl <;> first | rfl | exact absurd hxy (by decide)

theorem vtmD_flatMap {w : List UInt8} (h0 : 0 ∉ w) : (w ++ [0]).flatMap vtmD = w.flatMap vtmMor ++ [0] := by
  rw [List.flatMap_append]
  congr 1
  rw [List.flatMap_def, List.flatMap_def]
  congr 1
  apply List.map_congr_left
  intro c hc
  rw [vtmD, if_neg]
  rintro rfl
  exact h0 hc

/-- The row of the image that begins at the second letter of the image of the last letter `a`. -/
def vtmDRow1 (v : List UInt8) : List UInt8 := 98 :: 99 :: (v.dropLast.flatMap vtmD ++ [97])

/-- The row of the image that begins at the last letter of the image of the last letter. -/
def vtmDRow2 (v : List UInt8) : List UInt8 := 99 :: (v.dropLast.flatMap vtmD ++ (vtmMor (v.getLastD 0)).dropLast)

theorem vtmD_lastRots {v' : List UInt8} {x : UInt8} (hx : IsAbcD x) :
    lastRots vtmD (v' ++ [x]) = (if (v' ++ [x]).getLastD 0 = 97 then [vtmDRow1 (v' ++ [x])] else []) ++
      if (v' ++ [x]).getLastD 0 = 97 ∨ (v' ++ [x]).getLastD 0 = 98 then [vtmDRow2 (v' ++ [x])] else [] := by
  rcases hx with rfl | rfl | rfl | rfl <;> simp [lastRots, vtmDRow1, vtmDRow2, vtmD, vtmMor, List.range_succ]

section
variable {w : List UInt8} (hw : 2 ≤ w.length) (hab : ∀ c ∈ w, IsAbcD c) (hi : NoCC w)
include hab

include hi hw in
theorem vtmD_matrix :
    matrix (w.flatMap vtmD) =
      (matrix w).map (fun v => v.flatMap vtmD) ++
      (((matrix w).filter fun v => v.getLastD 0 = 97).map vtmDRow1 ++
      ((matrix w).filter fun v => v.getLastD 0 = 97 ∨ v.getLastD 0 = 98).map vtmDRow2) := by
  have habr : ∀ v ∈ matrix w, ∀ c ∈ v, IsAbcD c := fun v hv c hc => hab c ((row_perm hv).mem_iff.1 hc)
  have hdl : ∀ v ∈ matrix w, ∀ u ∈ matrix w, v < u → ∀ s t, Mis (v.dropLast.flatMap vtmD ++ s) (u.dropLast.flatMap vtmD ++ t) := by
    intro v hv u hu hlt s t
    exact vtmD_mis (fun c hc => habr v hv c (List.mem_of_mem_dropLast hc))
      (fun c hc => habr u hu c (List.mem_of_mem_dropLast hc)) (rows_dropLast hv hu hlt) s t
  have hL := matrix_sorted w
  refine matrix_flatMap (fun x _ => vtmD_nonempty x) ?_ ?_
  · refine List.Perm.append_left _ ?_
    rw [← flatMap_ite (fun v : List UInt8 => v.getLastD 0 = 97),
      ← flatMap_ite (fun v : List UInt8 => v.getLastD 0 = 97 ∨ v.getLastD 0 = 98)]
    refine (List.flatMap_append_perm _ _ _).trans (List.Perm.of_eq ?_)
    rw [List.flatMap_def, List.flatMap_def]
    congr 1
    apply List.map_congr_left
    intro v hv
    obtain ⟨v', x, rfl, h⟩ := row_concat hw hv
    exact (vtmD_lastRots (habr _ hv x (by simp))).symm
  · have m1 : ∀ v ∈ matrix w, (∃ s, v.flatMap vtmD = 0 :: s) ∨ (∃ s, v.flatMap vtmD = 97 :: s) ∨
        (∃ s, v.flatMap vtmD = 98 :: 0 :: s) ∨ ∃ s, v.flatMap vtmD = 98 :: 97 :: s := by
      intro v hv
      have hi' := hi v hv
      obtain ⟨v', x, rfl, h'⟩ := row_concat hw hv
      obtain ⟨z, v1, rfl⟩ := List.exists_cons_of_ne_nil h'
      rcases habr _ hv z (by simp) with rfl | rfl | rfl | rfl
      · exact Or.inl ⟨_, rfl⟩
      · exact Or.inr (Or.inl ⟨_, rfl⟩)
      · exact Or.inr (Or.inl ⟨_, rfl⟩)
      · obtain ⟨y, v2, hq⟩ := List.exists_cons_of_ne_nil (show v1 ++ [x] ≠ [] by simp)
        have hy := habr _ hv y (by rw [List.cons_append, hq]; simp)
        rw [List.cons_append, hq] at hi' ⊢
        rcases hy with rfl | rfl | rfl | rfl
        · exact Or.inr (Or.inr (Or.inl ⟨_, rfl⟩))
        · exact Or.inr (Or.inr (Or.inr ⟨_, rfl⟩))
        · exact Or.inr (Or.inr (Or.inr ⟨_, rfl⟩))
        · exact absurd rfl (hi' v2)
    rw [List.pairwise_append, List.pairwise_append]
    refine ⟨?_, ⟨?_, ?_, ?_⟩, ?_⟩
    · refine sorted_map hL fun v hv u hu h => ?_
      simpa using (vtmD_mis (habr v hv) (habr u hu) (rows_mis hv hu h) [] []).lt
    · refine sorted_map (hL.filter _) fun v hv u hu h => ?_
      exact (((hdl v (List.mem_of_mem_filter hv) u (List.mem_of_mem_filter hu) h _ _).cons _).cons _).lt
    · refine sorted_map (hL.filter _) fun v hv u hu h => ?_
      exact ((hdl v (List.mem_of_mem_filter hv) u (List.mem_of_mem_filter hu) h _ _).cons _).lt
    · intro r hr q hq
      obtain ⟨v, hv, rfl⟩ := List.mem_map.1 hr
      obtain ⟨u, hu, rfl⟩ := List.mem_map.1 hq
      exact le_of_lt (by simp [vtmDRow1, vtmDRow2, cons_lt_cons])
    · intro r hr q hq
      obtain ⟨v, hv, rfl⟩ := List.mem_map.1 hr
      rcases List.mem_append.1 hq with hq | hq
      · obtain ⟨u, hu, rfl⟩ := List.mem_map.1 hq
        rcases m1 v hv with ⟨s, hs⟩ | ⟨s, hs⟩ | ⟨s, hs⟩ | ⟨s, hs⟩ <;> rw [hs] <;>
          exact le_of_lt (by simp [vtmDRow1, cons_lt_cons])
      · obtain ⟨u, hu, rfl⟩ := List.mem_map.1 hq
        rcases m1 v hv with ⟨s, hs⟩ | ⟨s, hs⟩ | ⟨s, hs⟩ | ⟨s, hs⟩ <;> rw [hs] <;>
          exact le_of_lt (by simp [vtmDRow2, cons_lt_cons])

/-- The last letter of the image of a letter. -/
def vtmDEnd (c : UInt8) : UInt8 := if c = 0 then 0 else vtmEnd c

include hi hw in
/-- The transform of the image of a word under the morphism. -/
theorem vtmD_bw :
    bw (w.flatMap vtmD) = (bw w).map vtmDEnd ++ (List.replicate ((bw w).count 97) 97 ++
      ((bw w).filter fun c => c = 97 ∨ c = 98).map compl) := by
  have habr : ∀ v ∈ matrix w, ∀ c ∈ v, IsAbcD c := fun v hv c hc => hab c ((row_perm hv).mem_iff.1 hc)
  rw [bw, vtmD_matrix hw hab hi, List.map_append, List.map_append]
  congr 1
  · rw [bw, List.map_map, List.map_map]
    apply List.map_congr_left
    intro v hv
    obtain ⟨v', x, rfl, h⟩ := row_concat hw hv
    have hx := habr _ hv x (by simp)
    simp only [Function.comp]
    rw [List.flatMap_append, List.flatMap_singleton, lastD_concat]
    rw [lastD_append (vtmD_nonempty x)]
    rcases hx with rfl | rfl | rfl | rfl <;> rfl
  congr 1
  · rw [List.map_map, bw, ← filter_last_length, ← List.map_const]
    apply List.map_congr_left
    intro v hv
    simp only [Function.comp, vtmDRow1]
    rw [← List.cons_append, lastD_cons_concat]
    rfl
  · rw [bw, List.filter_map, List.map_map, List.map_map]
    apply List.map_congr_left
    intro v hv
    simp only [List.mem_filter, decide_eq_true_eq] at hv
    obtain ⟨v', x, rfl, h⟩ := row_concat hw hv.1
    have hv2 := hv.2
    simp only [Function.comp, vtmDRow2]
    rw [lastD_concat] at hv2 ⊢
    rw [← List.cons_append]
    rcases hv2 with rfl | rfl
    · rw [lastD_append (by simp [vtmMor])]; rfl
    · rw [lastD_append (by simp [vtmMor])]; rfl

theorem vtmD_noCC : NoCC (w.flatMap vtmD) := by
  intro r hr s hs
  obtain ⟨v, hv, h⟩ := mem_matrix_flatMap (fun x _ => vtmD_nonempty x) hr
  have habr : ∀ c ∈ v, IsAbcD c := fun c hc => hab c ((row_perm hv).mem_iff.1 hc)
  rw [hs] at h
  rcases h with h | h
  · cases v with
    | nil => simp at h
    | cons z v => rcases habr z (by simp) with rfl | rfl | rfl | rfl <;> simp [vtmD, vtmMor] at h
  · rcases List.eq_nil_or_concat' v with rfl | ⟨v', z, rfl⟩
    · simp [lastRots] at h
    · rw [vtmD_lastRots (habr z (by simp)), List.mem_append, lastD_concat] at h
      rcases h with h | h
      · split at h
        · simp [vtmDRow1] at h
        · simp at h
      · split at h
        · rename_i hz
          simp only [List.mem_singleton, vtmDRow2, List.dropLast_concat, List.cons.injEq, true_and] at h
          rw [lastD_concat] at h
          cases v' with
          | nil => rcases hz with rfl | rfl <;> simp [vtmMor] at h
          | cons y v' => rcases habr y (by simp) with rfl | rfl | rfl | rfl <;> simp [vtmD, vtmMor] at h
        · simp at h

end

theorem vtm_zero (k : Nat) : 0 ∉ iter vtmMor k [97] := by
  intro h
  rcases vtm_iter_abc k 0 h with h | h | h <;> exact absurd h (by decide)

theorem vtmD_letters (k : Nat) : ∀ c ∈ iter vtmMor k [97] ++ [0], IsAbcD c := by
  intro c hc
  rcases List.mem_append.1 hc with h | h
  · exact Or.inr (vtm_iter_abc k c h)
  · exact Or.inl (by simpa using h)

/-- The transform of the ternary Thue--Morse word of order `k + 2` with the sentinel. -/
theorem vtmD_runs (k : Nat) : let w := iter vtmMor (k + 2) [97] ++ [0]
    2 ≤ w.length ∧ NoCC w ∧ nr (bw w) = 2 * k + 6 ∧ nr ((bw w).map vtmDEnd) = k + 4 ∧
    nr ((bw w).filter fun c => c = 97 ∨ c = 98) = k + 4 ∧ ((bw w).filter fun c => c = 97 ∨ c = 98).head? = some 98 ∧
    (∃ c, (bw w).getLast? = some c ∧ IsAb c) ∧ 99 ∈ bw w ∧ 97 ∈ bw w ∧ (∀ c ∈ bw w, IsAbcD c) := by
  induction k with
  | zero =>
    have e : bw (iter vtmMor (0 + 2) [97] ++ [0]) = [98, 0, 99, 99, 97, 98, 97] :=
      bw_of_matrix (m := [[0, 97, 98, 99, 97, 99, 98], [97, 98, 99, 97, 99, 98, 0], [97, 99, 98, 0, 97, 98, 99],
        [98, 0, 97, 98, 99, 97, 99], [98, 99, 97, 99, 98, 0, 97],
        [99, 97, 99, 98, 0, 97, 98], [99, 98, 0, 97, 98, 99, 97]]) (by decide +kernel) (by decide +kernel)
    simp only [e]
    refine ⟨by decide, ?_, rfl, rfl, rfl, rfl, ⟨97, rfl, Or.inl rfl⟩, by simp, by simp, by simp [IsAbcD, IsAbc]⟩
    have e3 : (iter vtmMor 1 [97] ++ [0]).flatMap vtmD = iter vtmMor (0 + 2) [97] ++ [0] := vtmD_flatMap (vtm_zero 1)
    rw [← e3]
    exact vtmD_noCC (vtmD_letters 1)
  | succ k ih =>
    obtain ⟨h1, h2, h3, h4, h5, h6, ⟨z, h7, hz⟩, h8, h9, h10⟩ := ih
    have hab := vtmD_letters (k + 2)
    have hb := vtmD_bw (by omega) hab h2
    intro w'
    have hw' : w' = (iter vtmMor (k + 2) [97] ++ [0]).flatMap vtmD := (vtmD_flatMap (vtm_zero (k + 2))).symm
    have hl : 2 ≤ w'.length := by
      have := vtm_length_le (iter vtmMor (k + 2) [97])
      have e : w' = (iter vtmMor (k + 2) [97]).flatMap vtmMor ++ [0] := rfl
      rw [e, List.length_append]
      simp only [List.length_append] at h1
      omega
    clear_value w'
    have hcc := vtmD_noCC hab
    generalize iter vtmMor (k + 2) [97] ++ [0] = w at *
    subst hw'
    have n7 : 0 < (bw w).count 97 := List.count_pos_iff.2 h9
    have pl : ((bw w).map vtmDEnd).getLast? = some 99 := by
      rw [List.getLast?_map, h7]
      rcases hz with rfl | rfl <;> rfl
    have rh : (((bw w).filter fun c => c = 97 ∨ c = 98).map compl).head? = some 97 := by
      rw [List.head?_map, h6]; rfl
    have rr : nr (((bw w).filter fun c => c = 97 ∨ c = 98).map compl) = k + 4 := by
      rw [nr_map, h5]
      intro x hx y hy he
      simp only [List.mem_filter, decide_eq_true_eq] at hx hy
      rcases hx.2 with rfl | rfl <;> rcases hy.2 with rfl | rfl <;> first | rfl | (simp [compl] at he)
    have hr := head_replicate 97 n7
    have lr := last_replicate 97 n7
    -- the second part
    have q := nr_append_eq (ne_nil_of_head hr) (ne_nil_of_head rh) (by rw [lr, rh])
    rw [nr_replicate _ n7, rr] at q
    have tab : ∀ c ∈ List.replicate ((bw w).count 97) 97 ++ ((bw w).filter fun c => c = 97 ∨ c = 98).map compl, IsAb c := by
      intro c hc
      rcases List.mem_append.1 hc with hc | hc
      · exact Or.inl (List.eq_of_mem_replicate hc)
      · obtain ⟨x, -, rfl⟩ := List.mem_map.1 hc
        exact isAb_compl
    have th : (List.replicate ((bw w).count 97) 97 ++ ((bw w).filter fun c => c = 97 ∨ c = 98).map compl).head? = some 97 :=
      head_append hr
    have pab : ∀ c ∈ (bw w).map vtmDEnd, c = 0 ∨ c = 98 ∨ c = 99 := by
      intro c hc
      obtain ⟨x, -, rfl⟩ := List.mem_map.1 hc
      unfold vtmDEnd vtmEnd; split
      · simp
      · split <;> simp
    have p8 : 98 ∈ (bw w).map vtmDEnd := List.mem_map.2 ⟨99, h8, rfl⟩
    generalize List.replicate ((bw w).count 97) 97 ++ ((bw w).filter fun c => c = 97 ∨ c = 98).map compl = T at *
    generalize (bw w).map vtmDEnd = P at *
    have tne := ne_nil_of_head th
    have pne := ne_nil_of_last pl
    have te : T.map vtmDEnd = List.replicate T.length 99 := by
      rw [← List.map_const]
      apply List.map_congr_left
      intro c hc
      rcases tab c hc with rfl | rfl <;> rfl
    have tf : (T.filter fun c => c = 97 ∨ c = 98) = T := by
      rw [List.filter_eq_self]
      intro c hc
      rcases tab c hc with rfl | rfl <;> rfl
    have pf : ∃ m, 0 < m ∧ (P.filter fun c => c = 97 ∨ c = 98) = List.replicate m 98 := by
      refine ⟨(P.filter fun c => c = 97 ∨ c = 98).length, ?_, ?_⟩
      · exact List.length_pos_of_mem (List.mem_filter.2 ⟨p8, by decide⟩)
      · rw [List.eq_replicate_iff]
        refine ⟨rfl, fun c hc => ?_⟩
        simp only [List.mem_filter, decide_eq_true_eq] at hc
        rcases pab c hc.1 with rfl | rfl | rfl
        · exact absurd hc.2 (by decide)
        · rfl
        · exact absurd hc.2 (by decide)
    obtain ⟨m, hm, pf⟩ := pf
    have tl : 0 < T.length := List.length_pos_iff.2 tne
    rw [hb]
    refine ⟨hl, hcc, ?_, ?_, ?_, ?_, ?_, ?_, ?_, ?_⟩
    · rw [nr_append_ne pne tne (by rw [pl, th]; decide)]; omega
    · rw [List.map_append, te, nr_append_ne, nr_map, h4, nr_replicate _ tl]
      · intro x hx y hy he
        rcases pab x hx with rfl | rfl | rfl <;> rcases pab y hy with rfl | rfl | rfl <;> first | rfl | exact absurd he (by decide)
      · simpa using pne
      · exact ne_nil_of_head (head_replicate _ tl)
      · rw [List.getLast?_map, pl, head_replicate _ tl]; decide
    · rw [List.filter_append, pf, tf, nr_append_ne (ne_nil_of_head (head_replicate _ hm)) tne, nr_replicate _ hm]
      · omega
      · rw [last_replicate _ hm, th]; decide
    · rw [List.filter_append, pf]
      exact head_append (head_replicate _ hm)
    · obtain ⟨T', c, rfl⟩ := (List.eq_nil_or_concat' T).resolve_left tne
      exact ⟨c, by simp, tab c (by simp)⟩
    · exact List.mem_append_left _ (List.mem_of_getLast? pl)
    · exact List.mem_append_right _ (List.mem_of_head? th)
    · intro c hc
      rcases List.mem_append.1 hc with hc | hc
      · rcases pab c hc with h | h
        · exact Or.inl h
        · exact Or.inr (Or.inr h)
      · rcases tab c hc with rfl | rfl
        · exact Or.inr (Or.inl rfl)
        · exact Or.inr (Or.inr (Or.inl rfl))

end Verif
