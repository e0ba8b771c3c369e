import Verif.Lemmas.WordF
import Verif.Props.Fibonacci
import Verif.Props.Kolakoski
import Verif.Props.Rounding

/-! # C99: the buffers allocated from floating point estimates are large enough -/

namespace Verif.Props

open Verif Verif.Model Verif.Spec

/-- C99: the rounded estimate `fibonacci_number_estimate(k) + 1.0` is `F(k) + 1` up to a relative error of
`2^-42`. -/
theorem C99_fibonacci_estimate (A : Arith) (h : Binary64 A) (k : Nat) (h1 : 1 ≤ k) (h2 : k ≤ 62) :
    |A.fl (fibonacciEstimateF A k + 1) - (Nat.fib k + 1)| ≤ Nat.fib k / 2 ^ 42 := by
  have := fibonacciEstimateF_err h h1 h2
  rwa [show A.fl (fibonacciEstimateF A k + 1) - (Nat.fib k + 1) =
    A.fl (fibonacciEstimateF A k + 1) - 1 - Nat.fib k by ring]

/-- C99: `fibonacci_word(k)` with the buffer length computed in double precision is the Fibonacci word. -/
theorem C99_fibonacci_word (A : Arith) (h : Binary64 A) (k : Nat) (hk : k ≤ 60) :
    fibonacciWordF A k = .ok (fibWord k) := by
  have e := fibonacciEstimateF_err h (K := k + 2) (by omega) (by omega)
  have := C42_fibonacci_word_rounded k hk (A.fl (fibonacciEstimateF A (k + 2) + 1) - 1) (by
    rw [C42_binet]; exact e)
  rw [← this]
  simp only [fibonacciWordF, fibonacciWord]
  rw [u8add, if_pos (by omega), ok_bind, ok_bind, sub_add_cancel]

/-- Powers of two are exact. -/
theorem powiF_two (A : Arith) (h : Binary64 A) (a c b : Nat) (hab : a + c * b ≤ 900) :
    powiF A ((2 : ℝ) ^ a) ((2 : ℝ) ^ c) b = (2 : ℝ) ^ (a + c * b) := by
  have hfl : ∀ n : Nat, n ≤ 900 → A.fl ((2 : ℝ) ^ n) = 2 ^ n := by
    intro n hn
    apply h.fl_double
    · exact ⟨1, n, by norm_num, by omega, by omega, by simp⟩
    · rw [abs_of_pos (by positivity)]
      unfold huge
      exact pow_le_pow_right₀ (by norm_num) (by omega)
  induction b using Nat.strong_induction_on generalizing a c with
  | _ b ih =>
    rw [powiF]
    by_cases hodd : b % 2 = 1
    · simp only [if_pos hodd]
      have hb2 : b = 2 * (b / 2) + 1 := by omega
      have hcb : c * b = c * (2 * (b / 2)) + c := by
        conv_lhs => rw [hb2]
        ring
      rw [← pow_add, hfl (a + c) (by omega)]
      by_cases hz : b / 2 = 0
      · rw [dif_pos hz]; congr 1; rw [hcb, hz]; simp
      · rw [dif_neg hz]
        have hcc : c * 2 ≤ c * (2 * (b / 2)) := Nat.mul_le_mul_left c (by omega)
        have hc2 : (c + c) * (b / 2) = c * (2 * (b / 2)) := by ring
        rw [← pow_add, hfl (c + c) (by omega), ih (b / 2) (by omega) (a + c) (c + c) (by omega)]
        congr 1; omega
    · simp only [if_neg hodd]
      have hb2 : b = 2 * (b / 2) := by omega
      by_cases hz : b / 2 = 0
      · rw [dif_pos hz]
        have : b = 0 := by omega
        rw [this]; simp
      · rw [dif_neg hz]
        have hcb : c * b = c * (2 * (b / 2)) := by rw [← hb2]
        have hcc : c * 2 ≤ c * (2 * (b / 2)) := Nat.mul_le_mul_left c (by omega)
        have hc2 : (c + c) * (b / 2) = c * (2 * (b / 2)) := by ring
        rw [← pow_add, hfl (c + c) (by omega), ih (b / 2) (by omega) a (c + c) (by omega)]
        congr 1; omega

/-- C99: the buffer length of `kolakoski_word(k)` computed in double precision is the one of the model of C44. -/
theorem C99_kolakoski_estimate (A : Arith) (h : Binary64 A) (k : Nat) (hk : k ≤ 50) :
    kolakoskiEstimateF A (k + 2) = kolakoskiEstimate (k + 2) := by
  have hA := h.accurate
  unfold kolakoskiEstimateF kolakoskiEstimate
  rw [if_pos (by omega)]
  have e2 : A.fl 2 = (2 : ℝ) ^ 1 := by
    have := hA.fl_nat 2 (by norm_num)
    rw [pow_one]; simpa using this
  have e1 : powiF A 1 ((2 : ℝ) ^ 1) (k + 2) = 2 ^ (k + 2) := by
    have := powiF_two A h 0 1 (k + 2) (by omega)
    simpa using this
  have hle : 2 ^ (k + 2) ≤ 2 ^ 52 := Nat.pow_le_pow_right (by norm_num) (by omega)
  have e3 : A.fl ((2 : ℝ) ^ (k + 2) + 1) = ((2 ^ (k + 2) + 1 : Nat) : ℝ) := by
    have := hA.fl_nat (2 ^ (k + 2) + 1) (by omega)
    push_cast at this ⊢
    exact this
  rw [e2, e1, e3, Nat.floor_natCast]
  omega

/-- The numbers of the statement: the word of order 60 has more than four trillion letters, so orders above 60
cannot be computed on real machines. -/
example : Nat.fib 62 = 4052739537881 ∧ fibWord 3 = [97, 98, 97, 97, 98] := by decide +kernel

example := C99_fibonacci_estimate _ binary64_exists.choose_spec 62 (by decide) (by decide)

example := C99_fibonacci_word _ binary64_exists.choose_spec 60 (by decide)

example := C99_kolakoski_estimate _ binary64_exists.choose_spec 50 (by decide)

end Verif.Props
