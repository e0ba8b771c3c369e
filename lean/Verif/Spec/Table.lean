import Verif.Spec.LyndonFile

/-! # Specification vocabulary: reading a printed table -/

namespace Verif.Spec

/-- The blocks of `l` that end with the byte `sep`; a rest without a terminator is dropped. -/
def terminated (sep : UInt8) : List UInt8 → List (List UInt8)
  | [] => []
  | c :: l =>
    if c = sep then [] :: terminated sep l
    else match terminated sep l with
      | b :: bs => (c :: b) :: bs
      | [] => []

/-- A cell without the spaces it is padded with on the left. -/
def unpad (c : List UInt8) : List UInt8 := c.dropWhile (· = 32)

example : terminated 124 (ascii " 1| 2|x") = [ascii " 1", ascii " 2"] ∧ unpad (ascii "  12") = ascii "12" := by
  decide +kernel

end Verif.Spec
