import Verif.Lemmas.Duval

/-! # Properties C01, C02: Lyndon factorization -/

namespace Verif.Props

open Verif Spec Model

variable {α : Type} [LinearOrder α]

/-- C01: `duval` returns, for every text over every totally ordered alphabet, strictly increasing end
positions that cut the text into its pieces, which form a Lyndon factorization: their concatenation is
the text, all are Lyndon words, and they are non-increasing. -/
theorem C01_duval_factorizes (text : List α) :
    ∃ es, duval text = .ok es ∧ es.Pairwise (· < ·) ∧ (∀ e ∈ es, e < text.length) ∧
      IsLyndonFactorization (pieces text 0 es) text := by
  obtain ⟨fs, h1, h2⟩ := duval_spec text
  have hne : ∀ f ∈ fs, f ≠ [] := fun f hf => (h2.2.1 f hf).1
  refine ⟨ends 0 fs, h1, ends_sorted fs 0 hne, ?_, by rw [h2.pieces]; exact h2⟩
  intro e he
  have := ends_upper fs 0 hne e he
  rw [h2.1] at this; omega

/-- C01, empty text. -/
theorem C01_duval_empty : duval ([] : List α) = .ok [] := by
  have := duval_of_factorization (text := ([] : List α)) (fs := []) ⟨rfl, by simp, by simp⟩
  simpa [ends] using this

example : duval [2, 1, 3, 1, 3, 1] = .ok [0, 2, 4, 5] := by decide

/-- C02: every Lyndon factorization of the text, however obtained, is the list of pieces given by
`duval`. -/
theorem C02_duval_unique (text : List α) (fs : List (List α)) (h : IsLyndonFactorization fs text) :
    ∃ es, duval text = .ok es ∧ pieces text 0 es = fs :=
  ⟨_, duval_of_factorization h, h.pieces⟩

example := C02_duval_unique [2, 1, 3, 1, 3, 1] [[2], [1, 3], [1, 3], [1]] (by decide +kernel)

example : IsLyndonFactorization [[2], [1, 3], [1, 3], [1]] [2, 1, 3, 1, 3, 1] := by decide

end Verif.Props
