import Verif.Lemmas.Fib

/-! # C42: Fibonacci numbers and words -/

namespace Verif.Props
open Spec Model

/-- C42: `fibonacci_number(k)` is the Fibonacci number `F(k+2)` (with `F(0) = 0`, `F(1) = 1`) for every
order for which it fits in 64 bits, and panics for every larger order. -/
theorem C42_fibonacci_number (k : Nat) :
    (k ≤ 91 → fibonacciNumber k = .ok (Nat.fib (k + 2))) ∧ (92 ≤ k → fibonacciNumber k = .error .arith) ∧
      (k ≤ 91 ↔ Nat.fib (k + 2) < 2 ^ 64) := by
  refine ⟨fibonacciNumber_ok, fibonacciNumber_err, ?_⟩
  have h93 : Nat.fib 93 = 12200160415121876738 := by decide +kernel
  have h94 : Nat.fib 94 = 19740274219868223167 := by decide +kernel
  constructor
  · intro h
    have := Nat.fib_mono (show k + 2 ≤ 93 by omega)
    omega
  · intro h
    by_contra hk
    have := Nat.fib_mono (show 94 ≤ k + 2 by omega)
    omega

/-- The words of the recurrence `f_0 = a, f_1 = ab, f_{k+2} = f_{k+1} f_k` are the iterates of
`a -> ab, b -> a`, and their lengths are the Fibonacci numbers. -/
theorem C42_recurrence (k : Nat) :
    fibWord k = iter fibMor k [97] ∧ (fibWord k).length = Nat.fib (k + 2) :=
  ⟨fibWord_eq k, fibWord_length k⟩

/-- C42: `fibonacci_word(k)`, `k ≤ 90`, is the word `f_k` and no write leaves the buffer, whatever the
floating-point estimate `est` of `F(k+2)` is, if only it is at least `F(k+2) - 1` and below `2^63 - 2` (so
that the buffer can be allocated). -/
theorem C42_fibonacci_word (k : Nat) (hk : k ≤ 90) (est : ℝ) (h1 : (Nat.fib (k + 2) : ℝ) - 1 ≤ est)
    (h2 : est < 2 ^ 63 - 2) : fibonacciWord est k = .ok (fibWord k) := by
  rw [fibWord_eq]
  unfold fibonacciWord
  have hF : 1 ≤ Nat.fib (k + 2) := Nat.fib_pos.2 (by omega)
  have h0 : (0 : ℝ) ≤ est + 1 := by
    have : (1 : ℝ) ≤ (Nat.fib (k + 2) : ℝ) := by exact_mod_cast hF
    linarith
  have hlo : Nat.fib (k + 2) ≤ ⌊est + 1⌋₊ := Nat.le_floor (by linarith)
  have hhi : ⌊est + 1⌋₊ < 2 ^ 63 - 1 := by
    rw [Nat.floor_lt h0]
    have : ((2 ^ 63 - 1 : Nat) : ℝ) = 2 ^ 63 - 1 := by norm_num
    rw [this]; linarith
  rw [u8add, if_pos (by omega), ok_bind, Nat.min_eq_left (by omega), uadd, if_pos (by omega), ok_bind]
  exact fibBuf_ok hk (by omega) (by omega)

example := C42_fibonacci_word 5 (by decide) 20 (by norm_num [Nat.fib]) (by norm_num)

/-- Binet's formula in exact arithmetic is the Fibonacci number. -/
theorem C42_binet (k : Nat) : binet k = Nat.fib k := by
  rw [Real.coe_fib_eq]
  have hφ : (1 + Real.sqrt 5) / 2 = Real.goldenRatio := rfl
  have hψ : -1 / Real.goldenRatio = Real.goldenConj := by
    rw [neg_div, one_div, Real.inv_goldenRatio, neg_neg]
  unfold binet
  rw [hφ, hψ]

/-- C42: with the exact value of Binet's formula (no rounding). -/
theorem C42_fibonacci_word_exact (k : Nat) (hk : k ≤ 90) :
    fibonacciWord (binet (k + 2)) k = .ok (fibWord k) := by
  have h92 : Nat.fib 92 = 7540113804746346429 := by decide +kernel
  have hle : Nat.fib (k + 2) ≤ 7540113804746346429 := h92 ▸ Nat.fib_mono (by omega)
  have hle' : (Nat.fib (k + 2) : ℝ) ≤ 7540113804746346429 := by exact_mod_cast hle
  refine C42_fibonacci_word k hk _ (by rw [C42_binet]; linarith) ?_
  rw [C42_binet]
  norm_num
  linarith

example := C42_fibonacci_word_exact 30 (by decide)

/-- C42: with any rounding error of the estimate up to a relative error of `2^-42` (`f64` has 53 bits of
precision), for all orders up to 60. -/
theorem C42_fibonacci_word_rounded (k : Nat) (hk : k ≤ 60) (est : ℝ)
    (herr : |est - binet (k + 2)| ≤ binet (k + 2) / 2 ^ 42) : fibonacciWord est k = .ok (fibWord k) := by
  rw [C42_binet] at herr
  have h62 : Nat.fib 62 = 4052739537881 := by decide +kernel
  have hle : Nat.fib (k + 2) ≤ 4052739537881 := h62 ▸ Nat.fib_mono (by omega)
  have hle' : (Nat.fib (k + 2) : ℝ) ≤ 4052739537881 := by exact_mod_cast hle
  have hd : (Nat.fib (k + 2) : ℝ) / 2 ^ 42 ≤ 1 := by
    rw [div_le_one (by positivity)]
    norm_num
    linarith
  have := abs_le.1 (herr.trans hd)
  refine C42_fibonacci_word k (by omega) est (by linarith [this.1]) ?_
  norm_num
  linarith [this.2]

example := C42_fibonacci_word_rounded 30 (by decide) (binet 32) (by
  rw [sub_self, abs_zero, C42_binet]
  positivity)

/-- C42: `fibonacci_word(k)` has length `fibonacci_number(k)` and equals the result of the general morphism
iteration with `fibonacci_morphism`. -/
theorem C42_agree (k : Nat) (hk : k ≤ 90) (fuel : Nat) (hfuel : Nat.fib (k + 2) < fuel) :
    ∃ w, fibonacciWord (binet (k + 2)) k = .ok w ∧ fibonacciNumber k = .ok w.length ∧
      iterateGeneralMorphism fuel k fibonacciMorphism w.length = .ok w := by
  refine ⟨_, C42_fibonacci_word_exact k hk, ?_, ?_⟩
  · rw [fibWord_length]; exact fibonacciNumber_ok (by omega)
  · have h92 : Nat.fib 92 = 7540113804746346429 := by decide +kernel
    have hle : Nat.fib (k + 2) ≤ 7540113804746346429 := h92 ▸ Nat.fib_mono (by omega)
    have hF : 1 ≤ Nat.fib (k + 2) := Nat.fib_pos.2 (by omega)
    rw [fibWord_eq]
    refine general_ok fibMor_prolongable (Or.inr ?_) ?_
    · rw [← fibWord_eq, fibWord_length]
      unfold initialCapacity withCapacity
      rw [if_pos (by omega), pure_bind', if_pos (by omega)]
    · refine lt_of_le_of_lt (fibMor_prolongable.prefix_le (show k - 1 ≤ k by omega)).length_le ?_
      rw [← fibWord_eq, fibWord_length]; exact hfuel

example := C42_agree 10 (by decide) 1000 (by decide)

/-- The buffer hypothesis is met: order 6. -/
example : fibonacciWordBuf 23 6 = .ok (fibWord 6) ∧
    fibWord 6 = [97, 98, 97, 97, 98, 97, 98, 97, 97, 98, 97, 97, 98, 97, 98, 97, 97, 98, 97, 98, 97] := by
  decide +kernel

end Verif.Props
