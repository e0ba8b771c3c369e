import Mathlib.Analysis.SpecialFunctions.Log.Base
import Mathlib.Algebra.BigOperators.Group.Finset.Basic
import Verif.Spec.Words

/-! # Specification vocabulary: empirical entropy (over the reals) -/

namespace Verif.Spec

/-- Zero-order empirical entropy: the sum over the letters `c` of `s` of `(n_c/n) log₂ (n/n_c)`. -/
noncomputable def zeroOrder (s : List UInt8) : ℝ :=
  ∑ c ∈ s.toFinset, (s.count c : ℝ) / s.length * Real.logb 2 (s.length / s.count c)

/-- The positions of `S` at which `w` occurs followed by a further letter. -/
def followedAt (S w : List UInt8) : List Nat :=
  (List.range (S.length - w.length)).filter (fun i => (S.drop i).take w.length = w)

/-- The string of the letters following the occurrences of `w` in `S`, from left to right. -/
def followers (S w : List UInt8) : List UInt8 :=
  (followedAt S w).map (fun i => S.getD (i + w.length) 0)

/-- The contexts of length `k`: the words of length `k` occurring in `S` followed by a letter. -/
def contexts (S : List UInt8) (k : Nat) : Finset (List UInt8) :=
  ((List.range (S.length - k)).map (fun i => (S.drop i).take k)).toFinset

/-- `k`-th order empirical entropy. -/
noncomputable def kthOrder (S : List UInt8) (k : Nat) : ℝ :=
  (∑ w ∈ contexts S k, ((followers S w).length : ℝ) * zeroOrder (followers S w)) / S.length

end Verif.Spec
