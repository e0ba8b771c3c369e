import Verif.Lemmas.EntropyBounds
import Mathlib.Data.List.GetD

/-! # Closed forms of the `k`-th order entropy -/

namespace Verif

open Spec

/-- `(f + 1)` times the zero-order entropy of `c^f 0`. -/
theorem zeroOrder_almost (f : Nat) (c : UInt8) (hc : c ≠ 0) :
    ((f + 1 : Nat) : ℝ) * zeroOrder (List.replicate f c ++ [0]) =
      f * Real.logb 2 ((f + 1) / f) + Real.logb 2 (f + 1) := by
  rcases Nat.eq_zero_or_pos f with rfl | hf
  · simp [zeroOrder]
  · have hfin : (List.replicate f c ++ [0]).toFinset = {c, 0} := by
      ext x
      simp only [List.mem_toFinset, List.mem_append, List.mem_replicate, List.mem_singleton, Finset.mem_insert,
        Finset.mem_singleton]
      constructor
      · rintro (⟨_, h⟩ | h)
        · exact Or.inl h
        · exact Or.inr h
      · rintro (h | h)
        · exact Or.inl ⟨by omega, h⟩
        · exact Or.inr h
    have hlen : (List.replicate f c ++ [(0 : UInt8)]).length = f + 1 := by simp
    have h1 : (List.replicate f c ++ [(0 : UInt8)]).count c = f := by
      rw [List.count_append, List.count_replicate_self, List.count_eq_zero_of_not_mem (by simpa using hc)]; rfl
    have h2 : (List.replicate f c ++ [(0 : UInt8)]).count 0 = 1 := by
      rw [List.count_append, List.count_eq_zero_of_not_mem (by
        intro h; exact hc (List.mem_replicate.1 h).2.symm)]; simp
    rw [zeroOrder, hfin, Finset.sum_pair hc, hlen, h1, h2]
    have hne : ((f + 1 : Nat) : ℝ) ≠ 0 := by positivity
    push_cast at hne ⊢
    field_simp

/-- Within `T` the last `k` letters determine the next one. -/
def Deterministic (T : List UInt8) (k : Nat) : Prop :=
  ∀ i j : Nat, i + k < T.length → j + k < T.length → (T.drop i).take k = (T.drop j).take k → T[i + k]? = T[j + k]?

/-- The number of earlier occurrences of the last `k` letters of `T`. -/
def earlier (T : List UInt8) (k : Nat) : Nat :=
  ((List.range (T.length - k)).filter fun i => (T.drop i).take k = T.drop (T.length - k)).length

theorem kthOrder_deterministic {T : List UInt8} {k : Nat} (hT : ∀ x ∈ T, x ≠ 0) (hk : k ≤ T.length)
    (h : Deterministic T k) :
    kthOrder (T ++ [0]) k = (earlier T k * Real.logb 2 ((earlier T k + 1) / earlier T k) +
      Real.logb 2 (earlier T k + 1)) / ((T.length + 1 : Nat) : ℝ) := by
  have hw : ∀ i : Nat, i + k ≤ T.length → ((T ++ [0]).drop i).take k = (T.drop i).take k := by
    intro i hi
    rw [List.drop_append_of_le_length (by omega), List.take_append_of_le_length (by simp; omega)]
  have hlast : (T.drop (T.length - k)).take k = T.drop (T.length - k) := List.take_of_length_le (by simp; omega)
  have hlen0 : (T.drop (T.length - k)).length = k := by simp; omega
  have hmem : ∀ w ∈ contexts (T ++ [0]) k, ∃ i : Nat, i + k ≤ T.length ∧ w = (T.drop i).take k := by
    intro w h
    simp only [contexts, List.mem_toFinset, List.mem_map, List.mem_range, List.length_append,
      List.length_singleton] at h
    obtain ⟨i, hi, rfl⟩ := h
    exact ⟨i, by omega, hw i (by omega)⟩
  have hfol : followers (T ++ [0]) (T.drop (T.length - k)) =
      ((List.range (T.length - k)).filter fun i => (T.drop i).take k = T.drop (T.length - k)).map
        (fun i => T.getD (i + k) 0) ++ [0] := by
    rw [followers, followedAt, hlen0, List.length_append, List.length_singleton,
      show T.length + 1 - k = (T.length - k) + 1 by omega, List.range_succ, List.filter_append, List.map_append]
    congr 1
    · rw [List.filter_congr (q := fun i => decide ((T.drop i).take k = T.drop (T.length - k)))]
      · apply List.map_congr_left
        intro i hi
        have hi' := List.mem_range.1 (List.mem_filter.1 hi).1
        rw [List.getD_append _ _ _ _ (by omega)]
      · intro i hi
        have hi' := List.mem_range.1 hi
        rw [hw i (by omega)]
    · rw [List.filter_singleton, hw _ (by omega), hlast]
      simp [show T.length - k + k = T.length by omega]
  have hconst : ∃ c : UInt8, c ≠ 0 ∧ followers (T ++ [0]) (T.drop (T.length - k)) =
      List.replicate (earlier T k) c ++ [0] := by
    rw [hfol]
    cases hl : ((List.range (T.length - k)).filter fun i => (T.drop i).take k = T.drop (T.length - k)) with
    | nil => exact ⟨1, by decide, by simp [earlier, hl]⟩
    | cons i0 l =>
      have hi0 : i0 ∈ ((List.range (T.length - k)).filter fun i => (T.drop i).take k = T.drop (T.length - k)) := by
        rw [hl]; simp
      rw [List.mem_filter, List.mem_range, decide_eq_true_iff] at hi0
      have hb : i0 + k < T.length := by omega
      refine ⟨T[i0 + k], hT _ (List.getElem_mem _), ?_⟩
      congr 1
      rw [earlier, hl, List.eq_replicate_iff]
      refine ⟨by simp, fun x hx => ?_⟩
      obtain ⟨i, hi, rfl⟩ := List.mem_map.1 hx
      rw [← hl, List.mem_filter, List.mem_range, decide_eq_true_iff] at hi
      have hb' : i + k < T.length := by omega
      have := h i i0 hb' hb (hi.2.trans hi0.2.symm)
      rw [List.getElem?_eq_getElem hb', List.getElem?_eq_getElem hb] at this
      rw [List.getD_eq_getElem _ _ hb']
      exact Option.some.inj this
  obtain ⟨c, hc, hfol'⟩ := hconst
  have hin : T.drop (T.length - k) ∈ contexts (T ++ [0]) k := by
    simp only [contexts, List.mem_toFinset, List.mem_map, List.mem_range, List.length_append, List.length_singleton]
    exact ⟨T.length - k, by omega, by rw [hw _ (by omega), hlast]⟩
  rw [kthOrder, Finset.sum_eq_single_of_mem _ hin]
  · rw [hfol', List.length_append, List.length_replicate, List.length_singleton, zeroOrder_almost _ _ hc]
    simp
  · intro w hwc hne
    obtain ⟨i0, hi0, rfl⟩ := hmem w hwc
    rw [(zeroOrder_eq_zero_iff _).2, mul_zero]
    have hwl : ((T.drop i0).take k).length = k := by simp; omega
    have key : ∀ x ∈ followers (T ++ [0]) ((T.drop i0).take k), ∃ i : Nat, i + k < T.length ∧
        (T.drop i).take k = (T.drop i0).take k ∧ T[i + k]? = some x := by
      intro x hx
      rw [followers, followedAt, hwl] at hx
      obtain ⟨i, hi, rfl⟩ := List.mem_map.1 hx
      rw [List.mem_filter, List.mem_range, decide_eq_true_iff, List.length_append, List.length_singleton] at hi
      obtain ⟨h1, h2⟩ := hi
      rw [hw i (by omega)] at h2
      have hlt : i + k < T.length := by
        by_contra hge
        have : i = T.length - k := by omega
        subst this
        rw [hlast] at h2
        exact hne h2.symm
      refine ⟨i, hlt, h2, ?_⟩
      rw [List.getD_append _ _ _ _ hlt, List.getD_eq_getElem _ _ hlt, List.getElem?_eq_getElem hlt]
    intro x hx y hy
    obtain ⟨i, h1, h2, h3⟩ := key x hx
    obtain ⟨j, g1, g2, g3⟩ := key y hy
    have := h i j h1 g1 (h2.trans g2.symm)
    rw [h3, g3] at this
    exact Option.some.inj this

end Verif
