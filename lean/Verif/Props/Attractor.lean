import Verif.Lemmas.Attractor
import Verif.Props.Bwt

/-! # Property C25: string attractors (`src/bin/is_stringattractor.rs`)

`IsAttractor` (every non-empty substring of `T` has an occurrence in `T` containing one of the positions)
is in `Verif/Spec/Attractor.lean`. -/

namespace Verif.Props

open Verif Spec Model

/-- C25: for every non-empty zero-free text and all positions in range, `is_attractor` on the text with
the sentinel returns `true` exactly if the positions are a string attractor; otherwise, for an ASCII text,
it returns `false`. -/
theorem C25_attractor_exact (sufsort : List UInt8 → List Nat) (hs : SortsSuffixes sufsort)
    (T : List UInt8) (h0 : T ≠ []) (hT : ∀ x ∈ T, x ≠ 0) (hlen : T.length < 2147483647)
    (positions : List Nat) (hp : ∀ p ∈ positions, p < T.length + 1) :
    (isAttractor sufsort (T ++ [0]) positions = .ok true ↔ IsAttractor T positions) ∧
    ((∀ x ∈ T, x < 128) →
      (isAttractor sufsort (T ++ [0]) positions = .ok false ↔ ¬ IsAttractor T positions)) ∧
    (isAttractor sufsort (T ++ [0]) positions = .ok false → ¬ IsAttractor T positions) ∧
    (∀ e, isAttractor sufsort (T ++ [0]) positions = .error e →
      e = .unwrap ∧ ¬ IsAttractor T positions ∧ ¬ ∀ x ∈ T, x < 128) := by
  obtain ⟨h1, h2⟩ := isAttractor_ok hs hT h0 hlen (attr := positions)
    (fun p hp' => by have := hp p hp'; omega)
  by_cases hA : IsAttractor T positions
  · have := h1 hA
    rw [this]
    simp [hA]
  · rcases h2 hA with h | ⟨h, hu⟩
    · rw [h]; simp [hA]
    · rw [h]
      simp only [hA]
      refine ⟨by simp, fun h' => absurd h' hu, by simp, fun e he => ?_⟩
      injection he with he
      exact ⟨he.symm, by simp, hu⟩

example := C25_attractor_exact naiveSufsort naiveSufsort_sorts [97, 98, 97, 97, 98] (by decide) (by decide) (by decide) [1, 2]
  (by decide)

/-- C25, limits: a position outside the text fails an assertion, and an uncovered substring that is not
UTF-8 makes the tool panic while printing it, here on the one-byte text `[255]`. -/
theorem C25_attractor_panics :
    isAttractor naiveSufsort [97, 0] [2] = .error .assert ∧
    isAttractor naiveSufsort [255, 0] [] = .error .unwrap := by
  constructor <;> decide

/-- Concrete cases: the Fibonacci word `abaababa` has the attractor `{3,4}` but not `{3}`. -/
example : isAttractor naiveSufsort ([97, 98, 97, 97, 98, 97, 98, 97] ++ [0]) [3, 4] = .ok true := by decide
example : isAttractor naiveSufsort ([97, 98, 97, 97, 98, 97, 98, 97] ++ [0]) [3] = .ok false := by decide

end Verif.Props
