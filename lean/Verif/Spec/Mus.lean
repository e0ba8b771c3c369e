import Verif.Spec.Words

/-! # Specification vocabulary: minimal unique substrings -/

namespace Verif.Spec

variable {α : Type}

/-- `w` occurs in `t` at position `j`. -/
def OccursAt (w t : List α) (j : Nat) : Prop := j + w.length ≤ t.length ∧ w <+: t.drop j

/-- `w` has at least two occurrences in `t`. -/
def Repeats (w t : List α) : Prop := ∃ j k, j ≠ k ∧ OccursAt w t j ∧ OccursAt w t k

/-- The substring of `t` at `i` of length `l` is a minimal unique substring: it is non-empty, occurs in
`t` only at `i`, and each of its proper non-empty substrings occurs at least twice. -/
def IsMus (t : List α) (i l : Nat) : Prop :=
  0 < l ∧ i + l ≤ t.length ∧ (∀ j, OccursAt ((t.drop i).take l) t j → j = i) ∧
    ∀ v, v <:+: (t.drop i).take l → v ≠ (t.drop i).take l → v ≠ [] → Repeats v t

end Verif.Spec
