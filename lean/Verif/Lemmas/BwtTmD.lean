import Verif.Lemmas.BwtDollar

/-! # The transform of the Thue--Morse words followed by the sentinel -/

namespace Verif

open Spec Model

/-- The letters with the sentinel. -/
def IsD (c : UInt8) : Prop := c = 0 ∨ IsAb c

/-- The morphism that keeps the sentinel. -/
def tmD (c : UInt8) : List UInt8 := if c = 0 then [0] else tmMor c

/-- Exchanging `a` and `b`, keeping the sentinel. -/
def complD (c : UInt8) : UInt8 := if c = 0 then 0 else compl c

theorem ab_ne_zero {w : List UInt8} (hab : ∀ c ∈ w, IsAb c) : 0 ∉ w := fun h => by
  rcases hab 0 h with h | h <;> exact absurd h (by decide)

theorem tmD_ab {c : UInt8} (h : IsAb c) : tmD c = tmMor c := by
  rcases h with rfl | rfl <;> rfl

theorem tmD_flatMap {w : List UInt8} (hab : ∀ c ∈ w, IsAb c) : w.flatMap tmD = w.flatMap tmMor := by
  rw [List.flatMap_def, List.flatMap_def]
  congr 1
  exact List.map_congr_left fun c hc => tmD_ab (hab c hc)

theorem tmD_dollar {w : List UInt8} (hab : ∀ c ∈ w, IsAb c) : (w ++ [0]).flatMap tmD = w.flatMap tmMor ++ [0] := by
  rw [List.flatMap_append, tmD_flatMap hab]; rfl

theorem tmD_ne {c : UInt8} (h : IsD c) : tmD c ≠ [] := by
  rcases h with rfl | rfl | rfl <;> decide

theorem tmD_mis {v u : List UInt8} (hv : ∀ c ∈ v, IsD c) (hu : ∀ c ∈ u, IsD c) (h : Mis v u) (s t : List UInt8) :
    Mis (v.flatMap tmD ++ s) (u.flatMap tmD ++ t) := by
  refine mis_flatMap (A := IsD) ?_ hv hu h s t
  intro x y hx hy hxy
  refine misB_mis ?_
  rcases hx with rfl | rfl | rfl <;> rcases hy with rfl | rfl | rfl <;> first | rfl | exact absurd hxy (by decide)

/-- The row of the image that begins in the middle of the last block. -/
def tmOddD (v : List UInt8) : List UInt8 := compl (v.getLastD 0) :: (v.dropLast.flatMap tmD ++ [v.getLastD 0])

/-- The rows from the middle of a last block with the letter `c`. -/
def tmOdds (c : UInt8) (L : List (List UInt8)) : List (List UInt8) := (L.filter fun v => v.getLastD 0 = c).map tmOddD

theorem tmOdds_append (c : UInt8) (L M : List (List UInt8)) : tmOdds c (L ++ M) = tmOdds c L ++ tmOdds c M := by
  simp [tmOdds]

theorem tmD_lastRots {L : List (List UInt8)} (hL : ∀ v ∈ L, v ≠ [] ∧ IsD (v.getLastD 0)) :
    (L.flatMap (lastRots tmD)).Perm (tmOdds 98 L ++ tmOdds 97 L) := by
  induction L with
  | nil => exact List.Perm.refl _
  | cons v L ih =>
    have ih := ih fun u hu => hL u (by simp [hu])
    obtain ⟨h1, h2⟩ := hL v (by simp)
    obtain ⟨v', x, rfl⟩ := (List.eq_nil_or_concat' v).resolve_left h1
    rw [lastD_concat] at h2
    rw [List.flatMap_cons]
    rcases h2 with rfl | rfl | rfl
    · simpa [lastRots, tmOdds, tmD] using ih
    · have e : lastRots tmD (v' ++ [97]) = [tmOddD (v' ++ [97])] := by simp [lastRots, tmOddD, tmD, tmMor, compl]
      have e2 : tmOdds 97 ((v' ++ [97]) :: L) = tmOddD (v' ++ [97]) :: tmOdds 97 L := by simp [tmOdds]
      have e1 : tmOdds 98 ((v' ++ [97]) :: L) = tmOdds 98 L := by simp [tmOdds]
      rw [e, e1, e2]
      refine List.Perm.trans (List.Perm.cons _ ih) ?_
      exact List.perm_middle.symm
    · have e : lastRots tmD (v' ++ [98]) = [tmOddD (v' ++ [98])] := by simp [lastRots, tmOddD, tmD, tmMor, compl]
      have e2 : tmOdds 97 ((v' ++ [98]) :: L) = tmOdds 97 L := by simp [tmOdds]
      have e1 : tmOdds 98 ((v' ++ [98]) :: L) = tmOddD (v' ++ [98]) :: tmOdds 98 L := by simp [tmOdds]
      rw [e, e1, e2]
      exact List.Perm.cons _ ih

/-- No letter three times in a row. -/
def NoXXX (w : List UInt8) : Prop := ∀ p x s, w ≠ p ++ x :: x :: x :: s

section
variable {w : List UInt8} (hab : ∀ c ∈ w, IsAb c)
include hab

theorem rowsD {v : List UInt8} (hv : v ∈ matrix (w ++ [0])) : ∀ c ∈ v, IsD c := by
  intro c hc
  have := (row_perm hv).mem_iff.1 hc
  rcases List.mem_append.1 this with h | h
  · exact Or.inr (hab c h)
  · exact Or.inl (by simpa using h)

omit hab in
theorem row_ne {v : List UInt8} (hv : v ∈ matrix (w ++ [0])) : v ≠ [] := by
  obtain ⟨p, s, -, rfl⟩ := row_dollar.1 hv
  simp

theorem row_last {v : List UInt8} (hv : v ∈ matrix (w ++ [0])) : IsD (v.getLastD 0) := by
  obtain ⟨v', x, rfl⟩ := (List.eq_nil_or_concat' v).resolve_left (row_ne hv)
  rw [lastD_concat]
  exact rowsD hab hv x (by simp)

/-- A row with a last letter other than the sentinel. -/
theorem row_odd {v : List UInt8} {z : UInt8} (hv : v ∈ matrix (w ++ [0])) (hz : v.getLastD 0 = z) (h0 : IsAb z) :
    ∃ p s, w = p ++ z :: s ∧ v = s ++ 0 :: (p ++ [z]) ∧
      tmOddD v = compl z :: (s.flatMap tmMor ++ 0 :: (p.flatMap tmMor ++ [z])) := by
  obtain ⟨p, s, hw, rfl⟩ := row_dollar.1 hv
  rcases List.eq_nil_or_concat' p with rfl | ⟨p', x, rfl⟩
  · rw [lastD_concat] at hz
    rw [← hz] at h0
    rcases h0 with h | h <;> exact absurd h (by decide)
  · have e : s ++ 0 :: (p' ++ [x]) = (s ++ 0 :: p') ++ [x] := by simp
    rw [e, lastD_concat] at hz
    subst hz
    refine ⟨p', s, by rw [hw]; simp, rfl, ?_⟩
    rw [tmOddD, e, lastD_concat, List.dropLast_concat, List.flatMap_append, List.flatMap_cons,
      tmD_flatMap fun c hc => hab c (by rw [hw]; simp [hc]), tmD_flatMap fun c hc => hab c (by rw [hw]; simp [hc])]
    simp [tmD]

/-- The row of the image that begins with a block. -/
theorem row_even {v : List UInt8} (hv : v ∈ matrix (w ++ [0])) :
    ∃ p s, w = p ++ s ∧ v = s ++ 0 :: p ∧ v.flatMap tmD = s.flatMap tmMor ++ 0 :: p.flatMap tmMor := by
  obtain ⟨p, s, hw, rfl⟩ := row_dollar.1 hv
  refine ⟨p, s, hw, rfl, ?_⟩
  rw [List.flatMap_append, List.flatMap_cons, tmD_flatMap fun c hc => hab c (by rw [hw]; simp [hc]),
    tmD_flatMap fun c hc => hab c (by rw [hw]; simp [hc])]
  simp [tmD]

theorem tmOdds_sorted (c : UInt8) {L : List (List UInt8)} (hL : L.Pairwise (· ≤ ·)) (hm : ∀ v ∈ L, v ∈ matrix (w ++ [0])) :
    (tmOdds c L).Pairwise (· ≤ ·) := by
  refine sorted_map (hL.filter _) fun v hv u hu hlt => ?_
  simp only [List.mem_filter, decide_eq_true_eq] at hv hu
  have h1 := rows_dropLast (hm v hv.1) (hm u hu.1) hlt
  have h2 := tmD_mis (fun c hc => rowsD hab (hm v hv.1) c (List.mem_of_mem_dropLast hc))
    (fun c hc => rowsD hab (hm u hu.1) c (List.mem_of_mem_dropLast hc)) h1 [v.getLastD 0] [u.getLastD 0]
  unfold tmOddD
  rw [hv.2, hu.2] at h2 ⊢
  exact (h2.cons _).lt

theorem tmImg_sorted {L : List (List UInt8)} (hL : L.Pairwise (· ≤ ·)) (hm : ∀ v ∈ L, v ∈ matrix (w ++ [0])) :
    (L.map fun v => v.flatMap tmD).Pairwise (· ≤ ·) := by
  refine sorted_map hL fun v hv u hu hlt => ?_
  simpa using (tmD_mis (rowsD hab (hm v hv)) (rowsD hab (hm u hu)) (rows_mis (hm v hv) (hm u hu) hlt) [] []).lt

omit hab in
theorem tmOdds_last (c : UInt8) (L : List (List UInt8)) : (tmOdds c L).map (fun v => v.getLastD 0) =
    List.replicate ((L.map fun v => v.getLastD 0).count c) c := by
  rw [tmOdds, List.map_map, ← filter_last_length, ← List.map_const]
  apply List.map_congr_left
  intro v hv
  simp only [List.mem_filter, decide_eq_true_eq] at hv
  simp only [Function.comp, tmOddD]
  rw [lastD_cons_concat, hv.2]
  rfl

theorem tmImg_last {L : List (List UInt8)} (hm : ∀ v ∈ L, v ∈ matrix (w ++ [0])) :
    (L.map fun v => v.flatMap tmD).map (fun v => v.getLastD 0) = (L.map fun v => v.getLastD 0).map complD := by
  rw [List.map_map, List.map_map]
  apply List.map_congr_left
  intro v hv
  obtain ⟨v', x, rfl⟩ := (List.eq_nil_or_concat' v).resolve_left (row_ne (hm v hv))
  have hx := rowsD hab (hm _ hv) x (by simp)
  simp only [Function.comp]
  rw [List.flatMap_append, List.flatMap_singleton, lastD_append (tmD_ne hx), lastD_concat]
  rcases hx with rfl | rfl | rfl <;> rfl

end

theorem tm_noXXX {w : List UInt8} (hab : ∀ c ∈ w, IsAb c) : NoXXX (w.flatMap tmMor) := by
  have key : ∀ w : List UInt8, (∀ c ∈ w, IsAb c) → ∀ p x s, w.flatMap tmMor ≠ p ++ x :: x :: x :: s := by
    intro w
    induction w with
    | nil => intro _ p x s h; simp at h
    | cons c w ih =>
      intro hab p x s h
      rw [List.flatMap_cons] at h
      match p with
      | y :: z :: p =>
        rcases hab c (by simp) with rfl | rfl <;> simp only [tmMor, List.cons_append, List.nil_append, if_true] at h
        · injection h with h1 h; injection h with h1 h
          exact ih (fun c hc => hab c (by simp [hc])) p x s h
        · rw [if_neg (by decide)] at h
          injection h with h1 h; injection h with h1 h
          exact ih (fun c hc => hab c (by simp [hc])) p x s h
      | [y] =>
        cases w with
        | nil => rcases hab c (by simp) with rfl | rfl <;> simp [tmMor] at h
        | cons d w =>
          rcases hab c (by simp) with rfl | rfl <;> rcases hab d (by simp) with rfl | rfl <;>
            simp [tmMor] at h <;> first | (obtain ⟨-, h1, h2, h3, -⟩ := h; subst h1; revert h2 h3; decide) | (obtain ⟨-, h1, h2, -⟩ := h; subst h1; revert h2; decide)
      | [] =>
        rcases hab c (by simp) with rfl | rfl <;> simp [tmMor] at h <;> (obtain ⟨h1, h2, -⟩ := h; subst h1; revert h2; decide)
  exact key w hab

end Verif
