import Verif.Spec.Bwt
import Verif.Spec.Streams

/-! # Specification vocabulary: the number of runs of the transform of a word -/

namespace Verif.Spec

/-- The last column of the sorted matrix of the rotations of `t` consists of `r` maximal runs of equal letters. -/
def BwtRuns (t : List UInt8) (r : Nat) : Prop :=
  (∃ b rs, IsMatrixBwt t b ∧ IsRuns rs b ∧ rs.length = r) ∧ ∀ b rs, IsMatrixBwt t b → IsRuns rs b → rs.length = r

end Verif.Spec
