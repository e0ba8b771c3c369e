import Mathlib.Data.List.Infix

/-! # Specification vocabulary: words without repetitions -/

namespace Verif.Spec

variable {α : Type}

/-- No nonempty word occurs twice in a row in `w`. -/
def SquareFree (w : List α) : Prop := ∀ u : List α, u ≠ [] → ¬ (u ++ u) <:+: w

/-- No factor of `w` has the form `c u c u c` with a letter `c` and a (possibly empty) word `u`. -/
def OverlapFree (w : List α) : Prop := ∀ (c : α) (u : List α), ¬ (c :: u ++ c :: u ++ [c]) <:+: w

end Verif.Spec
