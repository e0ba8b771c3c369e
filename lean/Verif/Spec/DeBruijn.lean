import Verif.Spec.Words

/-! # Specification vocabulary: binary de Bruijn words -/

namespace Verif.Spec

/-- A binary de Bruijn word of order `n`: every word of length `n` over `a`, `b` is read at exactly one
starting position of the word, read cyclically. -/
def IsDeBruijn (n : Nat) (w : List UInt8) : Prop :=
  w.length = 2 ^ n ∧ ∀ v : List UInt8, v.length = n → (∀ c ∈ v, c = 97 ∨ c = 98) →
    ∃ i, (i < w.length ∧ (rot i w).take n = v) ∧ ∀ j, j < w.length ∧ (rot j w).take n = v → j = i

end Verif.Spec
