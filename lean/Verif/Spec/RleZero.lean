import Mathlib.Data.List.Basic

/-! # What `rle_zero` writes

`'0'` is the byte 48. -/

namespace Verif.Spec

/-- `ZeroEncoded t o`: letters other than `'0'` are copied; a run of `j` bytes `'0'` followed by a letter is written as
`'0'` and the byte `j - 1`, *and the letter is lost*; a final run of `j` bytes `'0'` is written as `'0'` and the byte
`j`. -/
inductive ZeroEncoded : List UInt8 → List UInt8 → Prop where
  | nil : ZeroEncoded [] []
  | letter {c : UInt8} {t o : List UInt8} (hc : c ≠ 48) (h : ZeroEncoded t o) : ZeroEncoded (c :: t) (c :: o)
  | run {j : Nat} {c : UInt8} {t o : List UInt8} (hj : 1 ≤ j) (hj' : j ≤ 255) (hc : c ≠ 48) (h : ZeroEncoded t o) :
      ZeroEncoded (List.replicate j 48 ++ c :: t) (48 :: UInt8.ofNat (j - 1) :: o)
  | last {j : Nat} (hj : 1 ≤ j) (hj' : j ≤ 255) : ZeroEncoded (List.replicate j 48) [48, UInt8.ofNat j]

/-- Two texts that differ only in letters directly after runs of `'0'`, and possibly in that one ends with a run of `j`
and the other with a run of `j + 1` and a letter. -/
inductive SameButLost : List UInt8 → List UInt8 → Prop where
  | nil : SameButLost [] []
  | letter {c : UInt8} {s t : List UInt8} (hc : c ≠ 48) (h : SameButLost s t) : SameButLost (c :: s) (c :: t)
  | run {j : Nat} {c d : UInt8} {s t : List UInt8} (hj : 1 ≤ j) (hc : c ≠ 48) (hd : d ≠ 48) (h : SameButLost s t) :
      SameButLost (List.replicate j 48 ++ c :: s) (List.replicate j 48 ++ d :: t)
  | last {j : Nat} (hj : 1 ≤ j) : SameButLost (List.replicate j 48) (List.replicate j 48)
  | lastLeft {j : Nat} {c : UInt8} (hj : 1 ≤ j) (hc : c ≠ 48) :
      SameButLost (List.replicate j 48) (List.replicate (j + 1) 48 ++ [c])
  | lastRight {j : Nat} {c : UInt8} (hj : 1 ≤ j) (hc : c ≠ 48) :
      SameButLost (List.replicate (j + 1) 48 ++ [c]) (List.replicate j 48)

end Verif.Spec
