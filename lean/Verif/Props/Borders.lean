import Verif.Lemmas.Period

/-! # Properties C05-C07: borders, periods, primitivity -/

namespace Verif.Props

open Verif Spec Model

variable {α : Type} [DecidableEq α]

/-- C05: entry `i` of `border_array` is the length of the longest proper border of the length-`i`
prefix; entry 0 is 0. -/
theorem C05_border_array (text : List α) :
    ∃ ba, borderArray text = .ok ba ∧ ba.length = text.length + 1 ∧ ba[0]? = some 0 ∧
      ∀ i, 1 ≤ i → i ≤ text.length → ∃ b, ba[i]? = some b ∧ IsBorderLen b (text.take i) ∧
        ∀ c, IsBorderLen c (text.take i) → c ≤ b := by
  obtain ⟨ba, h1, h2, h3, h4⟩ := borderArray_ok text
  refine ⟨ba, h1, h2, h3, fun i hi1 hi2 => ?_⟩
  obtain ⟨b, e1, e2, e3⟩ := h4 i hi1 hi2
  exact ⟨b, e1, (bd_iff hi2).1 e2, fun c hc => e3 c ((bd_iff hi2).2 hc)⟩

example : borderArray [1, 2, 1, 1, 2, 1, 2] = .ok [0, 0, 0, 1, 1, 2, 3, 2] := by decide

/-- C06: the smallest period. -/
theorem C06_smallest_period (text : List α) (hne : text ≠ []) :
    ∃ ba p, borderArray text = .ok ba ∧ smallestPeriod ba = .ok p ∧ 1 ≤ p ∧ IsPeriod p text ∧
      ∀ q, 1 ≤ q → IsPeriod q text → p ≤ q := by
  obtain ⟨ba, p, h1, h2, h3, -, h5, h6⟩ := smallestPeriod_ok hne
  exact ⟨ba, p, h1, h2, h3, h5, h6⟩

example := C06_smallest_period [1, 2, 1, 2, 1] (by decide)

example : (borderArray [1, 2, 1, 1, 2, 1, 1] >>= smallestPeriod) = .ok 3 := by decide

/-- C07: `is_primitive` is exact on non-empty texts. -/
theorem C07_is_primitive (text : List α) (hne : text ≠ []) :
    ∃ b, isPrimitive text = .ok b ∧ (b = true ↔ Spec.IsPrimitive text) :=
  isPrimitive_ok hne

example := C07_is_primitive [1, 2, 1, 2] (by decide)

example : isPrimitive [1, 2, 1, 2] = .ok false ∧ isPrimitive [1, 2, 1] = .ok true := by decide

end Verif.Props
