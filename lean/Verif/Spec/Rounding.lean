import Verif.Model.EntropyF

/-! # Specification vocabulary: accurate floating point arithmetic

The standard model of rounding analysis, including underflow and overflow: as long as the exact result `x` of an
operation satisfies `2^-1000 ≤ |x| ≤ 2^1000` the returned number is exact up to a relative error of at most `u`,
smaller results stay below `2^-1000`, rounding is monotone and integers up to `2^53` are represented exactly.
The library logarithm is accurate up to a relative error of at most `v`.  Nothing is assumed about results above
`2^1000`.  `Binary64` below is IEEE 754 double precision arithmetic (rounding to nearest) with a library function
`log2` that is accurate to one unit in the last place; it is accurate with `u = 2^-53` and `v = 2^-52`
(`C98_binary64`). -/

namespace Verif.Spec

open Verif.Model

/-- Results below this number may be inaccurate (underflow). -/
noncomputable def tiny : ℝ := 1 / 2 ^ 1000

/-- Nothing is assumed about results above this number (overflow). -/
noncomputable def huge : ℝ := 2 ^ 1000

/-- `A` computes with relative errors at most `u` (operations) and `v` (logarithm). -/
structure Accurate (A : Arith) (u v : ℝ) : Prop where
  u_nonneg : 0 ≤ u
  u_le : u ≤ 1 / 1024
  v_nonneg : 0 ≤ v
  v_le : v ≤ 1
  fl_err : ∀ x, tiny ≤ |x| → |x| ≤ huge → |A.fl x - x| ≤ u * |x|
  fl_tiny : ∀ x, |x| ≤ tiny → |A.fl x| ≤ tiny
  fl_mono : ∀ x y, |x| ≤ huge → |y| ≤ huge → x ≤ y → A.fl x ≤ A.fl y
  fl_nat : ∀ n : Nat, n ≤ 9007199254740992 → A.fl n = n
  lg_err : ∀ x, |x| ≤ huge → 1 ≤ A.fl x →
    |A.lg (A.fl x) - Real.logb 2 (A.fl x)| ≤ v * Real.logb 2 (A.fl x)

/-- The finite numbers of type `f64`. -/
def IsDouble (f : ℝ) : Prop := ∃ m e : ℤ, |m| < 2 ^ 53 ∧ -1074 ≤ e ∧ e ≤ 971 ∧ f = m * (2 : ℝ) ^ e

/-- IEEE 754 arithmetic on `f64`: an operation returns an `f64` number nearest to the exact result (whichever of
two equally near ones), and `log2` has a relative error of at most `2^-52`. -/
structure Binary64 (A : Arith) : Prop where
  nearest : ∀ x, |x| ≤ huge → IsDouble (A.fl x) ∧ ∀ f, IsDouble f → |A.fl x - x| ≤ |f - x|
  log2 : ∀ x, IsDouble x → 1 ≤ x → |A.lg x - Real.logb 2 x| ≤ 1 / 2 ^ 52 * Real.logb 2 x

/-- `y` is `x` up to `N` rounded operations, one logarithm and an absolute error `e`. -/
def Near (u v : ℝ) (N : Nat) (e x y : ℝ) : Prop :=
  (1 - u) ^ N * (1 - v) * x - e ≤ y ∧ y ≤ (1 + u) ^ N * (1 + v) * (x + e)

end Verif.Spec
