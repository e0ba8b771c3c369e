import Verif.Lemmas.WordMore
import Verif.Lemmas.Duval

/-! # C50–C52: Tribonacci words, the ternary Thue–Morse variant, Lyndon factors of the Fibonacci word -/

namespace Verif.Props
open Spec Model

/-- C50: `tribonacci_number(k)` is the `k`-th number of `1, 2, 4, 7, 13, ...` whenever it fits in 64 bits
(`k ≤ 72`), and panics for every larger order. -/
theorem C50_tribonacci_number (k : Nat) :
    (k ≤ 72 → tribonacciNumber k = .ok (tribNum k)) ∧ (73 ≤ k → tribonacciNumber k = .error .arith) :=
  ⟨tribonacciNumber_ok, tribonacciNumber_err⟩

theorem tribNum_71 : tribNum 71 < 2 ^ 63 := by
  have := tribonacciNumber_ok (k := 71) (by omega)
  have h2 : tribonacciNumber 71 = .ok 7015254043203144209 := by decide +kernel
  rw [h2] at this
  injection this with h
  rw [← h]; decide

/-- C50: `tribonacci_word(k)`, `k ≤ 71`, is the word `t_k` of the recurrence
`t_0 = a, t_1 = ab, t_2 = abac, t_{k+3} = t_{k+2} t_{k+1} t_k`, which is the `k`-fold iterate of
`a -> ab, b -> ac, c -> a`, and its length is `tribonacci_number(k)`. -/
theorem C50_tribonacci_word (k : Nat) (hk : k ≤ 71) (fuel : Nat) (hfuel : tribNum k < fuel) :
    tribonacciWord fuel k = .ok (tribWord k) ∧ tribWord k = iter tribMor k [97] ∧
      tribonacciNumber k = .ok (tribWord k).length := by
  refine ⟨?_, tribWord_eq k, by rw [tribWord_length]; exact tribonacciNumber_ok (by omega)⟩
  unfold tribonacciWord
  rw [tribonacciNumber_ok (by omega), ok_bind, tribWord_eq]
  have hmono : ∀ i, tribNum i ≤ tribNum (i + 1) := fun i => trib0_mono (i + 2)
  have hle : tribNum k ≤ tribNum 71 := monotone_nat_of_le_succ hmono hk
  have h71 := tribNum_71
  have hpos : tribNum 0 ≤ tribNum k := monotone_nat_of_le_succ hmono (Nat.zero_le k)
  have h0 : tribNum 0 = 1 := rfl
  refine general_ok tribMor_prolongable (Or.inr ?_) ?_
  · unfold initialCapacity withCapacity
    rw [if_pos (by omega), pure_bind', if_pos (by omega)]
  · refine lt_of_le_of_lt (tribMor_prolongable.prefix_le (show k - 1 ≤ k by omega)).length_le ?_
    rw [← tribWord_eq, tribWord_length]; exact hfuel

example := C50_tribonacci_word 10 (by decide) 1000 (by decide +kernel)

example : tribonacciWord 14 4 = .ok [97, 98, 97, 99, 97, 98, 97, 97, 98, 97, 99, 97, 98] := by decide +kernel

/-- C51 for orders up to 29: `vtm_word(k)` is the `k`-fold iterate of `a -> abc, b -> ac, c -> b` on `a`.
Missing from the full statement ("for every `k`"): the larger orders, for which the statement is false, see
`C51_refuted`. -/
theorem C51_vtm_word_partial (k : Nat) (hk : k ≤ 29) (fuel : Nat)
    (hfuel : (iter vtmMor k [97]).length < fuel) : vtmWord fuel k = .ok (iter vtmMor k [97]) := by
  unfold vtmWord
  rw [i32SizeHint_ok hk, ok_bind]
  refine general_ok vtmMor_prolongable (Or.inr (capacity_ok hk)) ?_
  exact lt_of_le_of_lt (vtmMor_prolongable.prefix_le (show k - 1 ≤ k by omega)).length_le hfuel

example := C51_vtm_word_partial 5 (by decide) 100 (by decide +kernel)

/-- C51 is false as stated: for every order from 30 on, `vtm_word` panics, because the size hint is computed
in 32-bit arithmetic (the word of order 30 has fewer than `2^31` letters). -/
theorem C51_refuted (k : Nat) (hk : 30 ≤ k) (fuel : Nat) :
    vtmWord fuel k = .error .alloc ∨ vtmWord fuel k = .error .arith := by
  unfold vtmWord iterateGeneralMorphism
  simp only [show ¬ k = 0 by omega, if_false]
  exact hint_err hk _

example := C51_refuted 30 (by decide) 100

example : vtmWord 25 4 = .ok [97, 98, 99, 97, 99, 98, 97, 98, 99, 98, 97, 99, 97, 98, 99, 97, 99, 98, 97, 99, 97,
    98, 99, 98] := by decide +kernel

/-- C52: `fibonacci_lyndonfactor(k)`, `k ≤ 29`, returns the word `w k`, where every `w k` is a Lyndon word,
`w 0 = ab`, the words strictly decrease, and for each `k` the concatenation `w 0 w 1 ... w k` is a prefix of
the infinite Fibonacci word (of some finite Fibonacci word `f_m`) whose Lyndon factorization is exactly
`w 0, ..., w k`. -/
theorem C52_lyndon_factors :
    ∃ w : Nat → List UInt8, (∀ k, k ≤ 29 → fibonacciLyndonfactor k = .ok (w k)) ∧ w 0 = [97, 98] ∧
      ∀ k, IsLyndon (w k) ∧ (∀ j, j < k → w k < w j) ∧
        ∃ m t, IsLyndonFactorization ((List.range (k + 1)).map w) t ∧ t <+: fibWord m := by
  refine ⟨lfac, ?_, rfl, fun k => ⟨lfac_lyndon k, fun j hj => lfac_lt hj, ?_⟩⟩
  · intro k hk
    unfold fibonacciLyndonfactor
    rw [i32SizeHint_ok hk, ok_bind]
    exact withStart_ok (capacity_ok hk)
  · obtain ⟨m, hm⟩ := lconc_prefix k
    refine ⟨m, lconc k, ⟨rfl, ?_, ?_⟩, by rw [fibWord_eq]; exact hm⟩
    · intro f hf
      obtain ⟨i, _, rfl⟩ := List.mem_map.1 hf
      exact lfac_lyndon i
    · rw [List.pairwise_map]
      exact List.pairwise_lt_range.imp (fun h => le_of_lt (lfac_lt h))

/-- C52: `fibonacci_lyndonfactor(k)` is the `k`-th Lyndon factor (counting from 0) of the infinite
Fibonacci word: it is the `k`-th word of the Lyndon factorization of every Fibonacci word from some order
on. -/
theorem C52_kth_factor (k : Nat) (hk : k ≤ 29) :
    ∃ w, fibonacciLyndonfactor k = .ok w ∧
      ∃ M, ∀ m, M ≤ m → ∀ fs, IsLyndonFactorization fs (fibWord m) → fs[k]? = some w := by
  obtain ⟨M, hM⟩ := fib_kth_factor k
  refine ⟨lfac k, ?_, M, fun m hm fs hfs => hM m hm fs (by rw [← fibWord_eq]; exact hfs)⟩
  unfold fibonacciLyndonfactor
  rw [i32SizeHint_ok hk, ok_bind]
  exact withStart_ok (capacity_ok hk)

example := C52_kth_factor 29 (by decide)

/-- C52, limit: from order 30 on the function panics. -/
theorem C52_limit (k : Nat) (hk : 30 ≤ k) :
    fibonacciLyndonfactor k = .error .alloc ∨ fibonacciLyndonfactor k = .error .arith := by
  unfold fibonacciLyndonfactor iterateGeneralMorphismWithStartsymbol
  exact hint_err hk _

example := C52_limit 30 (by decide)

example : fibonacciLyndonfactor 2 = .ok [97, 97, 98, 97, 97, 98, 97, 98, 97, 97, 98, 97, 98] := by
  decide +kernel

end Verif.Props
