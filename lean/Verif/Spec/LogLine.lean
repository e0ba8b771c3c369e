import Verif.Spec.LyndonFile

/-! # Specification vocabulary: messages of a program that logs -/

namespace Verif.Spec

/-- The levels of the crate `log`. -/
inductive Level
  | error
  | warn
  | info
  | debug
  | trace
  deriving DecidableEq

/-- The more is logged, the higher the number; `RUST_LOG` names the highest level that is logged. -/
def Level.rank : Level → Nat
  | .error => 1
  | .warn => 2
  | .info => 3
  | .debug => 4
  | .trace => 5

/-- A message with its level. -/
abbrev Message := Level × List UInt8

/-- The numbers after the first one, each after a comma and a blank, and the closing bracket. -/
def listTail : List Nat → List UInt8
  | [] => ascii "]"
  | x :: xs => ascii ", " ++ decimal x ++ listTail xs

/-- `{:?}` of a vector of numbers: `[1, 2, 3]`. -/
def listText : List Nat → List UInt8
  | [] => ascii "[]"
  | x :: xs => ascii "[" ++ decimal x ++ listTail xs

example : listText [3, 14, 0] = ascii "[3, 14, 0]" := by decide +kernel

/-- The positions of the last letters of consecutive words. -/
def lastPositions (fs : List (List UInt8)) : List Nat :=
  (List.range fs.length).map fun i => (fs.take (i + 1)).flatten.length - 1

example : lastPositions [[98], [97, 98, 98], [97]] = [0, 3, 4] := by decide

/-- The messages about the words `f, ...` numbered `k, k+1, ...`, the first one starting at position `s`. -/
def writingMessages : Nat → Nat → List (List UInt8) → List Message
  | _, _, [] => []
  | k, s, f :: fs =>
    (.info, ascii "writing Factor " ++ decimal k ++ ascii " : " ++ decimal s ++ ascii " -> " ++ decimal (s + f.length)) ::
      writingMessages (k + 1) (s + f.length) fs

/-- `{:?}` of a vector of structures `LZFactor` with the fields `pos` and `len`: the entries in brackets, separated by commas and blanks. -/
def lzFactorsText (fs : List (Nat × Nat)) : List UInt8 :=
  ascii "[" ++ (ascii ", ").intercalate (fs.map fun f =>
    ascii "LZFactor { pos: " ++ decimal f.1 ++ ascii ", len: " ++ decimal f.2 ++ ascii " }") ++ ascii "]"

example : lzFactorsText [(97, 0), (1, 12)] = ascii "[LZFactor { pos: 97, len: 0 }, LZFactor { pos: 1, len: 12 }]" := by decide +kernel
example : lzFactorsText [] = ascii "[]" := by decide +kernel

end Verif.Spec
