import Verif.Spec.Mus
import Mathlib.Data.Finset.Card
import Mathlib.Data.Finset.Dedup

/-! # Specification vocabulary: string attractors -/

namespace Verif.Spec

/-- `positions` is a string attractor of `T`: every non-empty substring has an occurrence in `T` that
contains one of the positions. -/
def IsAttractor {α : Type} (T : List α) (positions : List Nat) : Prop :=
  ∀ v, v ≠ [] → v <:+: T → ∃ j, OccursAt v T j ∧ ∃ p ∈ positions, j ≤ p ∧ p < j + v.length

/-- `v` is a non-empty substring of `T` and none of its occurrences contains one of the positions. -/
def Uncovered {α : Type} (T : List α) (positions : List Nat) (v : List α) : Prop :=
  v ≠ [] ∧ v <:+: T ∧ ∀ j, OccursAt v T j → ∀ p ∈ positions, ¬ (j ≤ p ∧ p < j + v.length)

/-- The number of different substrings of `T` that have length `k`. -/
def substringCount {α : Type} [DecidableEq α] (T : List α) (k : Nat) : Nat :=
  ((List.range (T.length + 1 - k)).map (fun i => (T.drop i).take k)).toFinset.card

/-- `T` has a string attractor of `g` positions, and none of fewer positions. -/
def SmallestAttractor {α : Type} (T : List α) (g : Nat) : Prop :=
  (∃ P, IsAttractor T P ∧ P.length = g ∧ ∀ p ∈ P, p < T.length) ∧ ∀ P, IsAttractor T P → g ≤ P.toFinset.card

end Verif.Spec
