import Verif.Spec.LexWords

/-! # All ways of splitting a text into letters and copies of the beginnings of smaller suffixes -/

namespace Verif.Spec

/-- The suffix `v` of `t` can be split into `m` phrases, each a single letter or a (non-empty) beginning of the rest that is also
the beginning of a suffix of `t` smaller than the rest. -/
inductive LexSplit (t : List UInt8) : List UInt8 → Nat → Prop
  | nil : LexSplit t [] 0
  | letter {c : UInt8} {r : List UInt8} {m : Nat} : LexSplit t r m → LexSplit t (c :: r) (m + 1)
  | copy {p r u : List UInt8} {m : Nat} : p ≠ [] → SmallerSuffix t u (p ++ r) → p <+: u → LexSplit t r m → LexSplit t (p ++ r) (m + 1)

end Verif.Spec
