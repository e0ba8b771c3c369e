import Mathlib.Data.Nat.Digits.Defs
import Verif.Byte

/-!
# Specification vocabulary: the report of the `lyndonfactorization` tool

A FASTA-like listing of a factor sequence.  Nothing here refers to the model.
-/

namespace Verif.Spec

/-- The ASCII bytes of a string literal. -/
def ascii (s : String) : List UInt8 := s.toList.map fun c => UInt8.ofNat c.toNat

/-- The decimal digits of `n` as ASCII bytes, most significant first, `0` for zero. -/
def decimal (n : Nat) : List UInt8 :=
  if n = 0 then [48] else (Nat.digits 10 n).reverse.map (fun d => UInt8.ofNat (48 + d))

/-- The records of the factors `f, ...` numbered `k, k+1, ...`, the first one starting at text position
`s`: a header line with number, start and end (exclusive), and then the letters of the factor. -/
def records : Nat → Nat → List (List UInt8) → List UInt8
  | _, _, [] => []
  | k, s, f :: fs =>
    ascii "\n>Factor " ++ decimal k ++ ascii " : " ++ decimal s ++ ascii " -> " ++
      decimal (s + f.length) ++ ascii "\n" ++ f ++ records (k + 1) (s + f.length) fs

/-- The factors after the first one that are listed: all, except that a last factor whose last letter is
the zero byte is left out. -/
def listed (fs : List (List UInt8)) : List (List UInt8) :=
  match fs.getLast? with
  | some l => if l.getLast? = some 0 then fs.dropLast else fs
  | none => []

/-- The whole file for the factors `f, fs...`. -/
def report (f : List UInt8) (fs : List (List UInt8)) : List UInt8 :=
  ascii ">Factor 1\n" ++ f ++ records 2 f.length (listed fs)

end Verif.Spec
