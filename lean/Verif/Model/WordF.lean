import Verif.Model.EntropyF
import Verif.Model.Word

/-! # The length estimates of `src/word.rs` with rounding -/

namespace Verif.Model

open Verif

/-- `f64::powi` for a non-negative exponent `b`, times `r`: the compiler's run-time function `__powidf2`
(`while (1) { if (b & 1) r *= a; b /= 2; if (b == 0) break; a *= a; }`), every multiplication rounded. -/
noncomputable def powiF (A : Arith) (r a : ℝ) (b : Nat) : ℝ :=
  let r' := if b % 2 = 1 then A.fl (r * a) else r
  if h : b / 2 = 0 then r' else powiF A r' (A.fl (a * a)) (b / 2)
termination_by b
decreasing_by omega

/-- `SQRT_5`.  src/word.rs:9 -/
noncomputable def sqrt5F (A : Arith) : ℝ := A.fl 2.23606797749978969641

/-- `GOLDEN_RATIO`.  src/word.rs:10 -/
noncomputable def goldenF (A : Arith) : ℝ := A.fl (A.fl (1 + sqrt5F A) / 2)

/-- `PSI`.  src/word.rs:11 -/
noncomputable def psiF (A : Arith) : ℝ := A.fl (-1 / goldenF A)

/-- `fibonacci_number_estimate`.  src/word.rs:28-30 -/
noncomputable def fibonacciEstimateF (A : Arith) (k : Nat) : ℝ :=
  A.fl (A.fl (powiF A 1 (goldenF A) k - powiF A 1 (psiF A) k) / sqrt5F A)

/-- `fibonacci_word` with the rounded estimate.  src/word.rs:35-70 -/
noncomputable def fibonacciWordF (A : Arith) (k : Nat) : Res (List UInt8) := do
  let k2 ← u8add k 2
  let length ← uadd (min ⌊A.fl (fibonacciEstimateF A k2 + 1)⌋₊ 18446744073709551615) 1
  fibonacciWordBuf length k

/-- `(kolakoski_length_estimate(e) + 1.0) as usize` with the rounded operations.  src/word.rs:130-132, 137 -/
noncomputable def kolakoskiEstimateF (A : Arith) (e : Nat) : Nat :=
  min ⌊A.fl (powiF A 1 (A.fl 2) e + 1)⌋₊ 18446744073709551615

end Verif.Model
