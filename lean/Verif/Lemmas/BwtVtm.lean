import Verif.Lemmas.BwtPd

/-! # The transform of the ternary Thue--Morse words -/

namespace Verif

open Spec Model

def IsAbc (c : UInt8) : Prop := c = 97 ∨ c = 98 ∨ c = 99

theorem vtm_nonempty (x : UInt8) : vtmMor x ≠ [] := by
  unfold vtmMor; split
  · simp
  · split <;> simp

theorem vtm_mis {v u : List UInt8} (hv : ∀ c ∈ v, IsAbc c) (hu : ∀ c ∈ u, IsAbc c) (h : Mis v u) (s t : List UInt8) :
    Mis (v.flatMap vtmMor ++ s) (u.flatMap vtmMor ++ t) := by
  refine mis_flatMap (A := IsAbc) ?_ hv hu h s t
  intro x y hx hy hxy
  rcases hx with rfl | rfl | rfl <;> rcases hy with rfl | rfl | rfl
  · exact absurd hxy (by decide)
  · exact ⟨[97], 98, 99, [99], [], rfl, rfl, by decide⟩
  · exact ⟨[], 97, 98, [98, 99], [], rfl, rfl, by decide⟩
  · exact absurd hxy (by decide)
  · exact absurd hxy (by decide)
  · exact ⟨[], 97, 98, [99], [], rfl, rfl, by decide⟩
  · exact absurd hxy (by decide)
  · exact absurd hxy (by decide)
  · exact absurd hxy (by decide)

/-- The row of the image that begins at the second letter of the image of the last letter `a`. -/
def vtmRow1 (v : List UInt8) : List UInt8 := 98 :: 99 :: (v.dropLast.flatMap vtmMor ++ [97])

/-- The row of the image that begins at the last letter of the image of the last letter. -/
def vtmRow2 (v : List UInt8) : List UInt8 := 99 :: (v.dropLast.flatMap vtmMor ++ (vtmMor (v.getLastD 0)).dropLast)

theorem vtm_lastRots {v' : List UInt8} {x : UInt8} (hx : IsAbc x) :
    lastRots vtmMor (v' ++ [x]) = (if (v' ++ [x]).getLastD 0 = 97 then [vtmRow1 (v' ++ [x])] else []) ++
      if (v' ++ [x]).getLastD 0 ≠ 99 then [vtmRow2 (v' ++ [x])] else [] := by
  rcases hx with rfl | rfl | rfl <;> simp [lastRots, vtmRow1, vtmRow2, vtmMor, List.range_succ]

theorem flatMap_ite {α β : Type} (P : α → Prop) [DecidablePred P] (f : α → β) (L : List α) :
    (L.flatMap fun v => if P v then [f v] else []) = (L.filter fun v => P v).map f := by
  induction L with
  | nil => rfl
  | cons v L ih =>
    rw [List.flatMap_cons, ih, List.filter_cons]
    by_cases h : P v <;> simp [h]

/-- No `c` follows a `c`. -/
def NoCC (w : List UInt8) : Prop := ∀ v ∈ matrix w, ∀ s, v ≠ 99 :: 99 :: s

theorem vtm_matrix {w : List UInt8} (hw : 2 ≤ w.length) (hab : ∀ c ∈ w, IsAbc c) (hi : NoCC w) :
    matrix (w.flatMap vtmMor) =
      (matrix w).map (fun v => v.flatMap vtmMor) ++
      (((matrix w).filter fun v => v.getLastD 0 = 97).map vtmRow1 ++
      ((matrix w).filter fun v => v.getLastD 0 ≠ 99).map vtmRow2) := by
  have habr : ∀ v ∈ matrix w, ∀ c ∈ v, IsAbc c := fun v hv c hc => hab c ((row_perm hv).mem_iff.1 hc)
  have hdl : ∀ v ∈ matrix w, ∀ u ∈ matrix w, v < u → ∀ s t, Mis (v.dropLast.flatMap vtmMor ++ s) (u.dropLast.flatMap vtmMor ++ t) := by
    intro v hv u hu hlt s t
    exact vtm_mis (fun c hc => habr v hv c (List.mem_of_mem_dropLast hc))
      (fun c hc => habr u hu c (List.mem_of_mem_dropLast hc)) (rows_dropLast hv hu hlt) s t
  have hL := matrix_sorted w
  refine matrix_flatMap (fun x _ => vtm_nonempty x) ?_ ?_
  · refine List.Perm.append_left _ ?_
    rw [← flatMap_ite (fun v : List UInt8 => v.getLastD 0 = 97), ← flatMap_ite (fun v : List UInt8 => v.getLastD 0 ≠ 99)]
    refine (List.flatMap_append_perm _ _ _).trans (List.Perm.of_eq ?_)
    rw [List.flatMap_def, List.flatMap_def]
    congr 1
    apply List.map_congr_left
    intro v hv
    obtain ⟨v', x, rfl, h⟩ := row_concat hw hv
    exact (vtm_lastRots (habr _ hv x (by simp))).symm
  · have m1 : ∀ v ∈ matrix w, (∃ s, v.flatMap vtmMor = 97 :: s) ∨ ∃ s, v.flatMap vtmMor = 98 :: 97 :: s := by
      intro v hv
      have hi' := hi v hv
      obtain ⟨v', x, rfl, h'⟩ := row_concat hw hv
      obtain ⟨z, v1, rfl⟩ := List.exists_cons_of_ne_nil h'
      rcases habr _ hv z (by simp) with rfl | rfl | rfl
      · exact Or.inl ⟨_, rfl⟩
      · exact Or.inl ⟨_, rfl⟩
      · obtain ⟨y, v2, hq⟩ := List.exists_cons_of_ne_nil (show v1 ++ [x] ≠ [] by simp)
        have hy := habr _ hv y (by rw [List.cons_append, hq]; simp)
        rw [List.cons_append, hq] at hi' ⊢
        rcases hy with rfl | rfl | rfl
        · exact Or.inr ⟨_, rfl⟩
        · exact Or.inr ⟨_, rfl⟩
        · exact absurd rfl (hi' v2)
    rw [List.pairwise_append, List.pairwise_append]
    refine ⟨?_, ⟨?_, ?_, ?_⟩, ?_⟩
    · refine sorted_map hL fun v hv u hu h => ?_
      simpa using (vtm_mis (habr v hv) (habr u hu) (rows_mis hv hu h) [] []).lt
    · refine sorted_map (hL.filter _) fun v hv u hu h => ?_
      exact (((hdl v (List.mem_of_mem_filter hv) u (List.mem_of_mem_filter hu) h _ _).cons _).cons _).lt
    · refine sorted_map (hL.filter _) fun v hv u hu h => ?_
      exact ((hdl v (List.mem_of_mem_filter hv) u (List.mem_of_mem_filter hu) h _ _).cons _).lt
    · intro r hr q hq
      obtain ⟨v, hv, rfl⟩ := List.mem_map.1 hr
      obtain ⟨u, hu, rfl⟩ := List.mem_map.1 hq
      exact le_of_lt (by simp [vtmRow1, vtmRow2, cons_lt_cons])
    · intro r hr q hq
      obtain ⟨v, hv, rfl⟩ := List.mem_map.1 hr
      rcases List.mem_append.1 hq with hq | hq
      · obtain ⟨u, hu, rfl⟩ := List.mem_map.1 hq
        rcases m1 v hv with ⟨s, hs⟩ | ⟨s, hs⟩ <;> rw [hs]
        · exact le_of_lt (by simp [vtmRow1, cons_lt_cons])
        · exact le_of_lt (by simp [vtmRow1, cons_lt_cons])
      · obtain ⟨u, hu, rfl⟩ := List.mem_map.1 hq
        rcases m1 v hv with ⟨s, hs⟩ | ⟨s, hs⟩ <;> rw [hs]
        · exact le_of_lt (by simp [vtmRow2, cons_lt_cons])
        · exact le_of_lt (by simp [vtmRow2, cons_lt_cons])

/-- The last letter of the image of a letter. -/
def vtmEnd (c : UInt8) : UInt8 := if c = 99 then 98 else 99

/-- The transform of the image of a word under the ternary Thue--Morse morphism. -/
theorem vtm_bw {w : List UInt8} (hw : 2 ≤ w.length) (hab : ∀ c ∈ w, IsAbc c) (hi : NoCC w) :
    bw (w.flatMap vtmMor) = (bw w).map vtmEnd ++ (List.replicate ((bw w).count 97) 97 ++
      ((bw w).filter fun c => c ≠ 99).map compl) := by
  have habr : ∀ v ∈ matrix w, ∀ c ∈ v, IsAbc c := fun v hv c hc => hab c ((row_perm hv).mem_iff.1 hc)
  rw [bw, vtm_matrix hw hab hi, List.map_append, List.map_append]
  congr 1
  · rw [bw, List.map_map, List.map_map]
    apply List.map_congr_left
    intro v hv
    obtain ⟨v', x, rfl, h⟩ := row_concat hw hv
    have hx := habr _ hv x (by simp)
    simp only [Function.comp]
    rw [List.flatMap_append, List.flatMap_singleton, lastD_concat]
    rw [lastD_append (vtm_nonempty x)]
    rcases hx with rfl | rfl | rfl <;> rfl
  congr 1
  · rw [List.map_map, bw, ← filter_last_length, ← List.map_const]
    apply List.map_congr_left
    intro v hv
    simp only [Function.comp, vtmRow1]
    rw [← List.cons_append, lastD_cons_concat]
    rfl
  · rw [bw, List.filter_map, List.map_map, List.map_map]
    apply List.map_congr_left
    intro v hv
    simp only [List.mem_filter, decide_eq_true_eq] at hv
    obtain ⟨v', x, rfl, h⟩ := row_concat hw hv.1
    have hx := habr _ hv.1 x (by simp)
    have hv2 := hv.2
    simp only [Function.comp, vtmRow2]
    rw [lastD_concat] at hv2 ⊢
    rw [← List.cons_append]
    rcases hx with rfl | rfl | rfl
    · rw [lastD_append (by simp [vtmMor])]; rfl
    · rw [lastD_append (by simp [vtmMor])]; rfl
    · exact absurd rfl hv2

theorem vtm_noCC {w : List UInt8} (hab : ∀ c ∈ w, IsAbc c) : NoCC (w.flatMap vtmMor) := by
  intro r hr s hs
  obtain ⟨v, hv, h⟩ := mem_matrix_flatMap (fun x _ => vtm_nonempty x) hr
  have habr : ∀ c ∈ v, IsAbc c := fun c hc => hab c ((row_perm hv).mem_iff.1 hc)
  rw [hs] at h
  rcases h with h | h
  · cases v with
    | nil => simp at h
    | cons z v => rcases habr z (by simp) with rfl | rfl | rfl <;> simp [vtmMor] at h
  · rcases List.eq_nil_or_concat' v with rfl | ⟨v', z, rfl⟩
    · simp [lastRots] at h
    · rw [vtm_lastRots (habr z (by simp)), List.mem_append, lastD_concat] at h
      rcases h with h | h
      · split at h
        · simp [vtmRow1] at h
        · simp at h
      · split at h
        · rename_i hz
          simp only [List.mem_singleton, vtmRow2, List.dropLast_concat, List.cons.injEq, true_and] at h
          rw [lastD_concat] at h
          cases v' with
          | nil => rcases habr z (by simp) with rfl | rfl | rfl <;> simp [vtmMor] at h hz
          | cons y v' => rcases habr y (by simp) with rfl | rfl | rfl <;> simp [vtmMor] at h
        · simp at h

theorem vtm_iter_abc (k : Nat) : ∀ c ∈ iter vtmMor k [97], IsAbc c := by
  induction k with
  | zero => intro c hc; simp [iter] at hc; exact Or.inl hc
  | succ k ih =>
    intro c hc
    obtain ⟨x, hx, hc⟩ := List.mem_flatMap.1 hc
    rcases ih x hx with rfl | rfl | rfl <;> simp [vtmMor] at hc <;> unfold IsAbc <;> tauto

theorem vtm_length_le (w : List UInt8) : w.length ≤ (w.flatMap vtmMor).length := by
  induction w with
  | nil => simp
  | cons x w ih =>
    have := List.length_pos_iff.2 (vtm_nonempty x)
    rw [List.flatMap_cons, List.length_append, List.length_cons]; omega

/-- The transform of the ternary Thue--Morse word of order `k + 2`. -/
theorem vtm_runs (k : Nat) : let w := iter vtmMor (k + 2) [97]
    6 ≤ w.length ∧ NoCC w ∧ nr (bw w) = 2 * k + 5 ∧ nr ((bw w).map vtmEnd) = k + 3 ∧
    nr ((bw w).filter fun c => c ≠ 99) = k + 4 ∧ ((bw w).filter fun c => c ≠ 99).head? = some 98 ∧
    (∃ c, (bw w).getLast? = some c ∧ c ≠ 99) ∧ 99 ∈ bw w ∧ 97 ∈ bw w ∧ (∀ c ∈ bw w, IsAbc c) := by
  induction k with
  | zero =>
    have e : bw (iter vtmMor (0 + 2) [97]) = [98, 99, 99, 97, 98, 97] :=
      bw_of_matrix (m := [[97, 98, 99, 97, 99, 98], [97, 99, 98, 97, 98, 99], [98, 97, 98, 99, 97, 99], [98, 99, 97, 99, 98, 97],
        [99, 97, 99, 98, 97, 98], [99, 98, 97, 98, 99, 97]]) (by decide +kernel) (by decide +kernel)
    simp only [e]
    refine ⟨by decide, vtm_noCC (vtm_iter_abc 1), rfl, rfl, rfl, rfl, ⟨97, rfl, by decide⟩, by simp, by simp, by simp [IsAbc]⟩
  | succ k ih =>
    obtain ⟨h1, h2, h3, h4, h5, h6, ⟨z, h7, hz⟩, h8, h9, h10⟩ := ih
    have hab := vtm_iter_abc (k + 2)
    have hb := vtm_bw (by omega) hab h2
    intro w'
    have hw' : w' = (iter vtmMor (k + 2) [97]).flatMap vtmMor := rfl
    have hl := vtm_length_le (iter vtmMor (k + 2) [97])
    clear_value w'
    have hcc := vtm_noCC hab
    generalize iter vtmMor (k + 2) [97] = w at *
    subst hw'
    have n7 : 0 < (bw w).count 97 := List.count_pos_iff.2 h9
    have pl : ((bw w).map vtmEnd).getLast? = some 99 := by
      rw [List.getLast?_map, h7]
      simp [vtmEnd, hz]
    have rh : (((bw w).filter fun c => c ≠ 99).map compl).head? = some 97 := by
      rw [List.head?_map, h6]; rfl
    have rr : nr (((bw w).filter fun c => c ≠ 99).map compl) = k + 4 := by
      rw [nr_map, h5]
      intro x hx y hy he
      simp only [List.mem_filter, decide_eq_true_eq] at hx hy
      rcases h10 x hx.1 with rfl | rfl | rfl <;> rcases h10 y hy.1 with rfl | rfl | rfl <;> 
        first | rfl | exact absurd rfl hx.2 | exact absurd rfl hy.2 | (simp [compl] at he)
    have hr := head_replicate 97 n7
    have lr := last_replicate 97 n7
    -- the second part
    have q := nr_append_eq (ne_nil_of_head hr) (ne_nil_of_head rh) (by rw [lr, rh])
    rw [nr_replicate _ n7, rr] at q
    have tab : ∀ c ∈ List.replicate ((bw w).count 97) 97 ++ ((bw w).filter fun c => c ≠ 99).map compl, IsAb c := by
      intro c hc
      rcases List.mem_append.1 hc with hc | hc
      · exact Or.inl (List.eq_of_mem_replicate hc)
      · obtain ⟨x, -, rfl⟩ := List.mem_map.1 hc
        exact isAb_compl
    have th : (List.replicate ((bw w).count 97) 97 ++ ((bw w).filter fun c => c ≠ 99).map compl).head? = some 97 :=
      head_append hr
    have pab : ∀ c ∈ (bw w).map vtmEnd, c = 98 ∨ c = 99 := by
      intro c hc
      obtain ⟨x, -, rfl⟩ := List.mem_map.1 hc
      unfold vtmEnd; split <;> simp
    have p8 : 98 ∈ (bw w).map vtmEnd := List.mem_map.2 ⟨99, h8, rfl⟩
    generalize List.replicate ((bw w).count 97) 97 ++ ((bw w).filter fun c => c ≠ 99).map compl = T at *
    generalize (bw w).map vtmEnd = P at *
    have tne := ne_nil_of_head th
    have pne := ne_nil_of_last pl
    have te : T.map vtmEnd = List.replicate T.length 99 := by
      rw [← List.map_const]
      apply List.map_congr_left
      intro c hc
      rcases tab c hc with rfl | rfl <;> rfl
    have tf : (T.filter fun c => c ≠ 99) = T := by
      rw [List.filter_eq_self]
      intro c hc
      rcases tab c hc with rfl | rfl <;> rfl
    have pf : ∃ m, 0 < m ∧ (P.filter fun c => c ≠ 99) = List.replicate m 98 := by
      refine ⟨(P.filter fun c => c ≠ 99).length, ?_, ?_⟩
      · exact List.length_pos_of_mem (List.mem_filter.2 ⟨p8, by decide⟩)
      · rw [List.eq_replicate_iff]
        refine ⟨rfl, fun c hc => ?_⟩
        simp only [List.mem_filter, decide_eq_true_eq] at hc
        exact (pab c hc.1).resolve_right hc.2
    obtain ⟨m, hm, pf⟩ := pf
    have tl : 0 < T.length := List.length_pos_iff.2 tne
    rw [hb]
    refine ⟨by omega, hcc, ?_, ?_, ?_, ?_, ?_, ?_, ?_, ?_⟩
    · rw [nr_append_ne pne tne (by rw [pl, th]; decide)]; omega
    · rw [List.map_append, te, nr_append_ne, nr_map, h4, nr_replicate _ tl]
      · intro x hx y hy he
        rcases pab x hx with rfl | rfl <;> rcases pab y hy with rfl | rfl <;> first | rfl | (simp [vtmEnd] at he)
      · simpa using pne
      · exact ne_nil_of_head (head_replicate _ tl)
      · rw [List.getLast?_map, pl, head_replicate _ tl]; decide
    · rw [List.filter_append, pf, tf, nr_append_ne (ne_nil_of_head (head_replicate _ hm)) tne, nr_replicate _ hm]
      · omega
      · rw [last_replicate _ hm, th]; decide
    · rw [List.filter_append, pf]
      exact head_append (head_replicate _ hm)
    · obtain ⟨T', c, rfl⟩ := (List.eq_nil_or_concat' T).resolve_left tne
      refine ⟨c, by simp, ?_⟩
      rcases tab c (by simp) with rfl | rfl <;> decide
    · exact List.mem_append_left _ (List.mem_of_getLast? pl)
    · exact List.mem_append_right _ (List.mem_of_head? th)
    · intro c hc
      rcases List.mem_append.1 hc with hc | hc
      · exact Or.inr (pab c hc)
      · rcases tab c hc with rfl | rfl
        · exact Or.inl rfl
        · exact Or.inr (Or.inl rfl)

end Verif
