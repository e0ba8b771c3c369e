import Verif.Byte
import Verif.Spec.Arrays

/-! # Specification vocabulary: Burrows-Wheeler transform -/

namespace Verif.Spec

variable {α : Type}

/-- `m` is the Burrows-Wheeler matrix of `t`: all rotations (with multiplicity) in sorted order. -/
def IsRotationMatrix [LinearOrder α] (t : List α) (m : List (List α)) : Prop :=
  m.Perm ((List.range t.length).map (fun i => rot i t)) ∧ m.Pairwise (· ≤ ·)

/-- `b` is the last column of the Burrows-Wheeler matrix of `t`. -/
def IsMatrixBwt [LinearOrder α] (t b : List α) : Prop :=
  ∃ m, IsRotationMatrix t m ∧ b.map some = m.map List.getLast?

/-- The contract of `cdivsufsort::sort_in_place` on byte texts (32-bit indices): it writes the suffix
array. -/
def SortsSuffixes (sufsort : List UInt8 → List Nat) : Prop :=
  ∀ t, t.length < 2147483648 → IsSuffixArray t (sufsort t)

end Verif.Spec
