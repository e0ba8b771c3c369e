import Verif.Spec.Arrays

/-! # The lexicographic parse of a text

Each phrase is as long as possible such that it also starts a lexicographically smaller suffix of the text; if there is no such
phrase it is a single letter. -/

namespace Verif.Spec

/-- `u` is a non-empty suffix of `t` and lexicographically smaller than `v`. -/
def SmallerSuffix (t u v : List UInt8) : Prop := u <:+ t ∧ u ≠ [] ∧ u < v

/-- `l` is the largest length of a common prefix of `v` with a smaller suffix of `t`, and 0 if there is no smaller suffix. -/
def LexLen (t v : List UInt8) (l : Nat) : Prop :=
  (∀ u, SmallerSuffix t u v → lcpLen u v ≤ l) ∧ (l = 0 ∨ ∃ u, SmallerSuffix t u v ∧ lcpLen u v = l)

/-- The suffix `v` of `t` is parsed into `m` phrases. -/
inductive LexPhrases (t : List UInt8) : List UInt8 → Nat → Prop
  | nil : LexPhrases t [] 0
  | cons {v : List UInt8} {l m : Nat} : v ≠ [] → LexLen t v l → LexPhrases t (v.drop (max 1 l)) m → LexPhrases t v (m + 1)

/-- The lexicographic parse of `t` has `m` phrases. -/
def LexFactors (t : List UInt8) (m : Nat) : Prop := LexPhrases t t m

end Verif.Spec
