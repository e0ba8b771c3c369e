import Verif.Lemmas.BwtMorph
import Verif.Lemmas.Morphism

namespace Verif

open Spec Model

/-! ## Thue--Morse -/

def IsAb (c : UInt8) : Prop := c = 97 ∨ c = 98

/-- Exchanging `a` and `b`. -/
def compl (c : UInt8) : UInt8 := if c = 97 then 98 else 97

theorem tmMor_ab {c : UInt8} (h : IsAb c) : tmMor c = [c, compl c] := by
  rcases h with rfl | rfl <;> rfl

theorem isAb_compl {c : UInt8} : IsAb (compl c) := by
  unfold compl IsAb; split <;> simp

theorem compl_compl {c : UInt8} (h : IsAb c) : compl (compl c) = c := by
  rcases h with rfl | rfl <;> rfl

theorem compl_ne {c : UInt8} (h : IsAb c) : compl c ≠ c := by
  rcases h with rfl | rfl <;> decide

/-- The row of the image that begins in the middle of the last block. -/
def tmOdd (v : List UInt8) : List UInt8 := compl (v.getLastD 0) :: (v.dropLast.flatMap tmMor ++ [v.getLastD 0])

theorem tmOdd_concat (v' : List UInt8) (x : UInt8) : tmOdd (v' ++ [x]) = compl x :: (v'.flatMap tmMor ++ [x]) := by
  simp [tmOdd]

theorem tm_lastRots {v' : List UInt8} {x : UInt8} (hx : IsAb x) : lastRots tmMor (v' ++ [x]) = [tmOdd (v' ++ [x])] := by
  simp [lastRots, tmOdd, tmMor_ab hx]

/-- No letter three times in a row, cyclically. -/
def NoCube (w : List UInt8) : Prop := ∀ v ∈ matrix w, ∀ x s, v = x :: (s ++ [x]) → ∃ y s', s = y :: s' ∧ y ≠ x

theorem tm_mis {v u : List UInt8} (hv : ∀ c ∈ v, IsAb c) (hu : ∀ c ∈ u, IsAb c) (h : Mis v u) (s t : List UInt8) :
    Mis (v.flatMap tmMor ++ s) (u.flatMap tmMor ++ t) := by
  refine mis_flatMap (A := IsAb) ?_ hv hu h s t
  intro x y hx hy hxy
  rw [tmMor_ab hx, tmMor_ab hy]
  exact ⟨[], x, y, [compl x], [compl y], rfl, rfl, hxy⟩

theorem tm_matrix {w : List UInt8} (hw : 2 ≤ w.length) (hab : ∀ c ∈ w, IsAb c) (hnc : NoCube w) :
    matrix (w.flatMap tmMor) =
      ((matrix w).filter fun v => v.getLastD 0 = 98).map tmOdd ++ (matrix w).map (fun v => v.flatMap tmMor) ++
        ((matrix w).filter fun v => v.getLastD 0 = 97).map tmOdd := by
  have habr : ∀ v ∈ matrix w, ∀ c ∈ v, IsAb c := fun v hv c hc => hab c ((row_perm hv).mem_iff.1 hc)
  have hlast : ∀ v ∈ matrix w, IsAb (v.getLastD 0) := by
    intro v hv
    obtain ⟨v', x, rfl, h⟩ := row_concat hw hv
    simpa using habr _ hv x (by simp)
  have hodd : ∀ v ∈ matrix w, ∀ u ∈ matrix w, v.getLastD 0 = u.getLastD 0 → v < u → tmOdd v < tmOdd u := by
    intro v hv u hu he hlt
    have h1 := rows_dropLast hv hu hlt
    have h2 := tm_mis (fun c hc => habr v hv c (List.mem_of_mem_dropLast hc))
      (fun c hc => habr u hu c (List.mem_of_mem_dropLast hc)) h1 [v.getLastD 0] [u.getLastD 0]
    unfold tmOdd
    rw [he] at h2 ⊢
    exact (h2.cons _).lt
  have hL := matrix_sorted w
  refine matrix_flatMap (fun x hx => ?_) ?_ ?_
  · rw [tmMor_ab (hab x hx)]; simp
  · have e1 : (matrix w).flatMap (lastRots tmMor) = (matrix w).map tmOdd := by
      rw [List.map_eq_flatMap, List.flatMap_def, List.flatMap_def]
      congr 1
      apply List.map_congr_left
      intro v hv
      obtain ⟨v', x, rfl, h⟩ := row_concat hw hv
      exact tm_lastRots (habr _ hv x (by simp))
    have e2 : ((matrix w).filter fun v => v.getLastD 0 = 97) = (matrix w).filter fun v => !decide (v.getLastD 0 = 98) := by
      apply List.filter_congr
      intro v hv
      rcases hlast v hv with h | h <;> rw [h] <;> decide
    rw [e1, e2]
    have h3 := (List.filter_append_perm (fun v : List UInt8 => decide (v.getLastD 0 = 98)) (matrix w)).map tmOdd
    rw [List.map_append] at h3
    refine List.Perm.trans ?_ (h3.append_left _)
    rw [← List.append_assoc]
    exact List.Perm.append_right _ List.perm_append_comm
  · have hbefore : ∀ v ∈ matrix w, ∀ u ∈ matrix w, v.getLastD 0 = 98 → tmOdd v ≤ u.flatMap tmMor := by
      intro v hv u hu hx
      obtain ⟨v', x, rfl, hv'⟩ := row_concat hw hv
      obtain ⟨u', y, rfl, hu'⟩ := row_concat hw hu
      obtain rfl : x = 98 := by simpa using hx
      rw [tmOdd_concat]
      obtain ⟨z, v1, rfl⟩ := List.exists_cons_of_ne_nil hv'
      obtain ⟨z', u1, rfl⟩ := List.exists_cons_of_ne_nil hu'
      rcases habr _ hv z (by simp) with rfl | rfl <;> rcases habr _ hu z' (by simp) with rfl | rfl
      · exact le_of_lt (by simp [tmMor, compl, cons_lt_cons])
      · exact le_of_lt (by simp [tmMor, compl, cons_lt_cons])
      · obtain ⟨y1, s', rfl, hy⟩ := hnc _ hv 98 v1 rfl
        obtain rfl : y1 = 97 := (habr _ hv y1 (by simp)).resolve_right hy
        obtain ⟨q, u2, hq⟩ := List.exists_cons_of_ne_nil (show u1 ++ [y] ≠ [] by simp)
        have hqa := habr _ hu q (by rw [List.cons_append, hq]; simp)
        rw [List.cons_append, hq]
        rcases hqa with rfl | rfl
        · exact le_of_lt (by simp [tmMor, compl, cons_lt_cons])
        · exact le_of_lt (by simp [tmMor, compl, cons_lt_cons])
      · exact le_of_lt (by simp [tmMor, compl, cons_lt_cons])
    have hafter : ∀ v ∈ matrix w, ∀ u ∈ matrix w, v.getLastD 0 = 97 → u.flatMap tmMor ≤ tmOdd v := by
      intro v hv u hu hx
      obtain ⟨v', x, rfl, hv'⟩ := row_concat hw hv
      obtain ⟨u', y, rfl, hu'⟩ := row_concat hw hu
      obtain rfl : x = 97 := by simpa using hx
      rw [tmOdd_concat]
      obtain ⟨z, v1, rfl⟩ := List.exists_cons_of_ne_nil hv'
      obtain ⟨z', u1, rfl⟩ := List.exists_cons_of_ne_nil hu'
      rcases habr _ hv z (by simp) with rfl | rfl <;> rcases habr _ hu z' (by simp) with rfl | rfl
      · exact le_of_lt (by simp [tmMor, compl, cons_lt_cons])
      · obtain ⟨y1, s', rfl, hy⟩ := hnc _ hv 97 v1 rfl
        obtain rfl : y1 = 98 := (habr _ hv y1 (by simp)).resolve_left hy
        obtain ⟨q, u2, hq⟩ := List.exists_cons_of_ne_nil (show u1 ++ [y] ≠ [] by simp)
        have hqa := habr _ hu q (by rw [List.cons_append, hq]; simp)
        rw [List.cons_append, hq]
        rcases hqa with rfl | rfl
        · exact le_of_lt (by simp [tmMor, compl, cons_lt_cons])
        · exact le_of_lt (by simp [tmMor, compl, cons_lt_cons])
      · exact le_of_lt (by simp [tmMor, compl, cons_lt_cons])
      · exact le_of_lt (by simp [tmMor, compl, cons_lt_cons])
    have hfirst : ∀ v, v.getLastD 0 = 98 → ∀ u : List UInt8, u.getLastD 0 = 97 → tmOdd v ≤ tmOdd u := by
      intro v hv u hu
      unfold tmOdd
      rw [hv, hu]
      exact le_of_lt (by simp [compl, cons_lt_cons])
    rw [List.pairwise_append, List.pairwise_append]
    refine ⟨⟨?_, ?_, ?_⟩, ?_, ?_⟩
    · refine sorted_map (hL.filter _) fun v hv u hu => ?_
      simp only [List.mem_filter, decide_eq_true_eq] at hv hu
      exact hodd v hv.1 u hu.1 (hv.2.trans hu.2.symm)
    · refine sorted_map hL fun v hv u hu h => ?_
      have := tm_mis (habr v hv) (habr u hu) (rows_mis hv hu h) [] []
      simpa using this.lt
    · intro r hr q hq
      obtain ⟨v, hv, rfl⟩ := List.mem_map.1 hr
      obtain ⟨u, hu, rfl⟩ := List.mem_map.1 hq
      simp only [List.mem_filter, decide_eq_true_eq] at hv
      exact hbefore v hv.1 u hu hv.2
    · refine sorted_map (hL.filter _) fun v hv u hu => ?_
      simp only [List.mem_filter, decide_eq_true_eq] at hv hu
      exact hodd v hv.1 u hu.1 (hv.2.trans hu.2.symm)
    · intro r hr q hq
      obtain ⟨u, hu, rfl⟩ := List.mem_map.1 hq
      simp only [List.mem_filter, decide_eq_true_eq] at hu
      rcases List.mem_append.1 hr with hr | hr
      · obtain ⟨v, hv, rfl⟩ := List.mem_map.1 hr
        simp only [List.mem_filter, decide_eq_true_eq] at hv
        exact hfirst v hv.2 u hu.2
      · obtain ⟨v, hv, rfl⟩ := List.mem_map.1 hr
        exact hafter u hu.1 v hv hu.2

theorem tm_last {w v : List UInt8} (hw : 2 ≤ w.length) (hab : ∀ c ∈ w, IsAb c) (hv : v ∈ matrix w) :
    (v.flatMap tmMor).getLastD 0 = compl (v.getLastD 0) := by
  obtain ⟨v', x, rfl, h⟩ := row_concat hw hv
  have hx : IsAb x := hab x ((row_perm hv).mem_iff.1 (by simp))
  rw [List.flatMap_append, List.flatMap_singleton, tmMor_ab hx]
  rw [lastD_append (by simp), lastD_concat]
  rfl

/-- The transform of the image of a word under the Thue--Morse morphism. -/
theorem tm_bw {w : List UInt8} (hw : 2 ≤ w.length) (hab : ∀ c ∈ w, IsAb c) (hnc : NoCube w) :
    bw (w.flatMap tmMor) =
      List.replicate ((bw w).count 98) 98 ++ (bw w).map compl ++ List.replicate ((bw w).count 97) 97 := by
  have key : ∀ c : UInt8, (((matrix w).filter fun v => v.getLastD 0 = c).map tmOdd).map (fun v => v.getLastD 0) =
      List.replicate ((bw w).count c) c := by
    intro c
    rw [List.map_map, bw, ← filter_last_length, ← List.map_const]
    apply List.map_congr_left
    intro v hv
    simp only [List.mem_filter, decide_eq_true_eq] at hv
    simp only [Function.comp, tmOdd]
    rw [lastD_cons_concat, hv.2]
    rfl
  rw [bw, tm_matrix hw hab hnc, List.map_append, List.map_append, key, key]
  congr 2
  rw [bw, List.map_map, List.map_map]
  apply List.map_congr_left
  intro v hv
  exact tm_last hw hab hv

theorem tm_noCube {w : List UInt8} (hab : ∀ c ∈ w, IsAb c) : NoCube (w.flatMap tmMor) := by
  intro r hr x s he
  obtain ⟨i, hi, rfl⟩ := mem_matrix.1 hr
  have hr' : rot i (w.flatMap tmMor) ∈ rots (w.flatMap tmMor) := List.mem_map.2 ⟨i, List.mem_range.2 hi, rfl⟩
  rw [(rots_flatMap_perm fun x hx => by rw [tmMor_ab (hab x hx)]; simp).mem_iff] at hr'
  have habr : ∀ v ∈ rots w, ∀ c ∈ v, IsAb c := by
    intro v hv c hc
    obtain ⟨j, -, rfl⟩ := List.mem_map.1 hv
    exact hab c ((rot_perm j w).mem_iff.1 hc)
  rcases List.mem_append.1 hr' with h | h
  · obtain ⟨v, hv, h⟩ := List.mem_map.1 h
    rw [he] at h
    cases v with
    | nil => simp at h
    | cons z v =>
      have hz := habr _ hv z (by simp)
      rw [List.flatMap_cons, tmMor_ab hz] at h
      simp only [List.cons_append, List.nil_append, List.cons.injEq] at h
      obtain ⟨rfl, h⟩ := h
      cases s with
      | nil => simp at h; exact absurd h.1 (compl_ne hz)
      | cons y s =>
        simp at h
        exact ⟨y, s, rfl, by rw [← h.1]; exact compl_ne hz⟩
  · obtain ⟨v, hv, h⟩ := List.mem_flatMap.1 h
    rcases List.eq_nil_or_concat' v with rfl | ⟨v', z, rfl⟩
    · simp [lastRots] at h
    · have hz := habr _ hv z (by simp)
      rw [tm_lastRots hz, List.mem_singleton, he, tmOdd] at h
      simp only [List.cons.injEq] at h
      obtain ⟨rfl, h⟩ := h
      have := (List.append_inj' h rfl).2
      simp at this
      exact absurd this (compl_ne hz)

theorem tm_iter_ab (k : Nat) : ∀ c ∈ iter tmMor k [97], IsAb c := by
  induction k with
  | zero => intro c hc; simp [iter] at hc; exact Or.inl hc
  | succ k ih =>
    intro c hc
    obtain ⟨x, hx, hc⟩ := List.mem_flatMap.1 hc
    rw [tmMor_ab (ih x hx)] at hc
    simp at hc
    rcases hc with rfl | rfl
    · exact ih c hx
    · exact isAb_compl

/-- The transform of the Thue--Morse word of order `k + 1`. -/
theorem tm_runs (k : Nat) : 2 ≤ (iter tmMor (k + 1) [97]).length ∧ NoCube (iter tmMor (k + 1) [97]) ∧
    (bw (iter tmMor (k + 1) [97])).head? = some 98 ∧ (bw (iter tmMor (k + 1) [97])).getLast? = some 97 ∧
    nr (bw (iter tmMor (k + 1) [97])) = 2 * (k + 1) ∧ (∀ c ∈ bw (iter tmMor (k + 1) [97]), IsAb c) := by
  induction k with
  | zero =>
    have e : bw (iter tmMor (0 + 1) [97]) = [98, 97] :=
      bw_of_matrix (m := [[97, 98], [98, 97]]) (by decide +kernel) (by decide +kernel)
    rw [e]
    exact ⟨by decide, tm_noCube (w := [97]) (by simp [IsAb]), rfl, rfl, rfl, by simp [IsAb]⟩
  | succ k ih =>
    obtain ⟨h1, h2, h3, h4, h5, h6⟩ := ih
    have hb := tm_bw h1 (tm_iter_ab _) h2
    have hab := tm_iter_ab (k + 1)
    rw [show iter tmMor (k + 1 + 1) [97] = (iter tmMor (k + 1) [97]).flatMap tmMor from rfl]
    generalize iter tmMor (k + 1) [97] = w at *
    have c8 := count_pos_of_head h3
    have c7 := count_pos_of_last h4
    have g1 : ((bw w).map compl).head? = some 97 := by rw [List.head?_map, h3]; rfl
    have g2 : ((bw w).map compl).getLast? = some 98 := by rw [List.getLast?_map, h4]; rfl
    have g3 : nr ((bw w).map compl) = 2 * (k + 1) := by
      rw [nr_map, h5]
      intro x hx y hy he
      rw [← compl_compl (h6 x hx), he, compl_compl (h6 y hy)]
    refine ⟨?_, tm_noCube hab, ?_, ?_, ?_, ?_⟩
    · have : (w.flatMap tmMor).length = 2 * w.length := by
        clear h2 hb c7 c8 h1 h3 h4 h5 h6 g1 g2 g3
        induction w with
        | nil => rfl
        | cons x w ih =>
          rw [List.flatMap_cons, List.length_append, ih fun c hc => hab c (by simp [hc]), tmMor_ab (hab x (by simp))]
          simp; omega
      omega
    · rw [hb]; exact head_append (head_append (head_replicate _ c8))
    · rw [hb]; exact last_append (last_replicate _ c7)
    · rw [hb, nr_append_ne, nr_append_ne, g3, nr_replicate _ c7, nr_replicate _ c8]
      · omega
      · exact ne_nil_of_head (head_replicate _ c8)
      · exact ne_nil_of_head g1
      · rw [last_replicate _ c8, g1]; decide
      · exact ne_nil_of_last (last_append g2)
      · exact ne_nil_of_head (head_replicate _ c7)
      · rw [last_append g2, head_replicate _ c7]; decide
    · intro c hc
      rw [hb] at hc
      simp only [List.mem_append, List.mem_replicate, List.mem_map] at hc
      rcases hc with (⟨-, rfl⟩ | ⟨x, -, rfl⟩) | ⟨-, rfl⟩
      · exact Or.inr rfl
      · exact isAb_compl
      · exact Or.inl rfl

end Verif
