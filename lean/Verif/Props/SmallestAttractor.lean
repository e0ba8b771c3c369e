import Verif.Lemmas.SmallAttractor
import Verif.Props.FibMore
import Verif.Props.PdMore
import Verif.Props.Measures
import Verif.Props.WordMore
import Verif.Props.WordUniform

/-! # C121: the size of the smallest string attractor of the generated words

`SmallestAttractor` is in `Verif/Spec/Attractor.lean`. -/

namespace Verif.Props

open Verif Spec Model

theorem smallest_of {T : List UInt8} {g : Nat} (P : List Nat) (hP : IsAttractor T P) (hl : P.length = g)
    (hr : ∀ p ∈ P, p < T.length) (h : ∀ Q, IsAttractor T Q → g ≤ Q.toFinset.card) : SmallestAttractor T g :=
  ⟨⟨P, hP, hl, hr⟩, h⟩

/-- A lower bound from the number of substrings of a prefix. -/
theorem lower_count {S T : List UInt8} (hST : S <+: T) {k n g : Nat} (hk : 0 < k) (hS : n ≤ substringCount S k) (hg : k * (g - 1) < n)
    {Q : List Nat} (hQ : IsAttractor T Q) : g ≤ Q.toFinset.card := by
  obtain ⟨U, rfl⟩ := hST
  have h1 := attractor_complexity hQ k hk
  have h2 := substringCount_prefix S U k
  by_contra h
  have h3 : k * Q.toFinset.card ≤ k * (g - 1) := Nat.mul_le_mul_left _ (by omega)
  omega

theorem tmMor_prolongable : Prolongable tmMor 97 [98] :=
  ⟨rfl, by simp, fun c => by unfold tmMor; split <;> simp⟩

theorem pdMor_prolongable : Prolongable pdMor 97 [98] :=
  ⟨rfl, by simp, fun c => by unfold pdMor; split <;> simp⟩

/-- C121: what the size of the smallest attractor means for `is_attractor`: it accepts some list of that many positions and
no shorter one. -/
theorem C121_tool (sufsort : List UInt8 → List Nat) (hs : SortsSuffixes sufsort) (T : List UInt8) (h0 : T ≠ [])
    (hT : ∀ x ∈ T, x ≠ 0) (hlen : T.length < 2147483647) (g : Nat) (hg : SmallestAttractor T g) :
    (∃ P, P.length = g ∧ (∀ p ∈ P, p < T.length) ∧ isAttractor sufsort (T ++ [0]) P = .ok true) ∧
      ∀ P : List Nat, (∀ p ∈ P, p < T.length + 1) → P.length < g → isAttractor sufsort (T ++ [0]) P ≠ .ok true := by
  obtain ⟨⟨P, h1, h2, h3⟩, h4⟩ := hg
  refine ⟨⟨P, h2, h3, ?_⟩, fun Q hQ hl hacc => ?_⟩
  · exact (C25_attractor_exact sufsort hs T h0 hT hlen P fun p hp => by have := h3 p hp; omega).1.2 h1
  · have h5 := h4 Q ((C25_attractor_exact sufsort hs T h0 hT hlen Q hQ).1.1 hacc)
    have := List.toFinset_card_le Q
    omega

/-- C121, Thue–Morse words: one position for order 0, two for the orders 1 and 2, three for order 3, four from order 4 on. -/
theorem C121_thuemorse (k : Nat) :
    SmallestAttractor (iter tmMor k [97]) (if k = 0 then 1 else if k ≤ 2 then 2 else if k = 3 then 3 else 4) := by
  rcases k with _ | _ | _ | _ | m
  · exact smallest_of [0] (attractor_of (by decide +kernel)) rfl (by decide) fun Q hQ =>
      lower_count (List.prefix_refl _) (k := 1) (n := 1) (by decide) (by decide +kernel) (by decide) hQ
  · exact smallest_of [0, 1] (attractor_of (by decide +kernel)) rfl (by decide) fun Q hQ =>
      lower_count (List.prefix_refl _) (k := 1) (n := 2) (by decide) (by decide +kernel) (by decide) hQ
  · exact smallest_of [0, 2] (attractor_of (by decide +kernel)) rfl (by decide) fun Q hQ =>
      lower_count (List.prefix_refl _) (k := 1) (n := 2) (by decide) (by decide +kernel) (by decide) hQ
  · exact smallest_of [1, 3, 5] (attractor_of (by decide +kernel)) rfl (by decide) fun Q hQ =>
      lower_of (n := 2) [[98, 98], [97, 97], [98, 97, 98], [97, 98, 97], [97, 98]] (by decide +kernel) (by decide +kernel) hQ
  · have e : iter tmMor (m + 4) [97] = (List.range (8 * 2 ^ (m + 1))).map tm := by
      rw [show 8 * 2 ^ (m + 1) = 2 ^ (m + 4) by ring]
      exact iter_fixLetter tmMor_eq rfl (m + 4)
    have hp := Nat.two_pow_pos (m + 1)
    refine smallest_of [2 * 2 ^ (m + 1) - 1, 3 * 2 ^ (m + 1) - 1, 4 * 2 ^ (m + 1) - 1, 6 * 2 ^ (m + 1) - 1] ?_ ?_ ?_ ?_
    · rw [e]; exact tm_attractor (m + 1)
    · rw [if_neg (by omega), if_neg (by omega), if_neg (by omega)]; rfl
    · intro p hp
      rw [e, List.length_map, List.length_range]
      simp only [List.mem_cons, List.not_mem_nil, or_false] at hp
      omega
    · intro Q hQ
      rw [if_neg (by omega), if_neg (by omega), if_neg (by omega)]
      rcases m with _ | _ | m
      · exact lower_of (n := 3) [[97, 97], [98, 98, 97, 98], [97, 97, 98, 98], [98, 98, 97, 97], [98, 97, 98, 98]] (by decide +kernel)
          (by decide +kernel) hQ
      · exact lower_of (n := 3) [[97, 98, 97, 97, 98, 98], [98, 97, 98, 98, 97, 98], [97, 98, 97, 97, 98, 97], [98, 98, 97, 97, 98, 98],
          [97, 97, 98, 97]] (by decide +kernel) (by decide +kernel) hQ
      · exact lower_count (tmMor_prolongable.prefix_le (show 6 ≤ m + 2 + 4 by omega)) (k := 13) (n := 40) (by decide)
          (by decide +kernel) (by decide) hQ

example : iter tmMor 4 [97] = [97, 98, 98, 97, 98, 97, 97, 98, 98, 97, 97, 98, 97, 98, 98, 97] := by decide

/-- C121, the ternary Thue–Morse words: one position for order 0, three for the orders 1 and 2, four from order 3 on. -/
theorem C121_vtm (k : Nat) : SmallestAttractor (iter vtmMor k [97]) (if k = 0 then 1 else if k ≤ 2 then 3 else 4) := by
  rcases k with _ | _ | _ | _ | m
  · exact smallest_of [0] (attractor_of (by decide +kernel)) rfl (by decide) fun Q hQ =>
      lower_count (List.prefix_refl _) (k := 1) (n := 1) (by decide) (by decide +kernel) (by decide) hQ
  · exact smallest_of [0, 1, 2] (attractor_of (by decide +kernel)) rfl (by decide) fun Q hQ =>
      lower_count (List.prefix_refl _) (k := 1) (n := 3) (by decide) (by decide +kernel) (by decide) hQ
  · exact smallest_of [1, 3, 4] (attractor_of (by decide +kernel)) rfl (by decide) fun Q hQ =>
      lower_count (List.prefix_refl _) (k := 1) (n := 3) (by decide) (by decide +kernel) (by decide) hQ
  · exact smallest_of [2, 3, 6, 9] (attractor_of (by decide +kernel)) rfl (by decide) fun Q hQ =>
      lower_of (n := 3) [[99, 97], [97, 99, 98], [98, 97, 98], [98, 99, 98], [98, 97, 99], [97], [99], [99, 98]] (by decide +kernel)
        (by decide +kernel) hQ
  · have e : iter vtmMor (m + 4) [97] = (List.range (24 * 2 ^ m)).map vtmLetter := by
      rw [vtm_iter_succ, show 3 * 2 ^ (m + 3) = 24 * 2 ^ m by ring]
    have hp := Nat.two_pow_pos m
    refine smallest_of [6 * 2 ^ m - 1, 8 * 2 ^ m - 1, 16 * 2 ^ m - 1, 20 * 2 ^ m - 1] ?_ ?_ ?_ ?_
    · rw [e]; exact vtm_attractor m
    · rw [if_neg (by omega), if_neg (by omega)]; rfl
    · intro p hp
      rw [e, List.length_map, List.length_range]
      simp only [List.mem_cons, List.not_mem_nil, or_false] at hp
      omega
    · intro Q hQ
      rw [if_neg (by omega), if_neg (by omega)]
      exact lower_count (vtmMor_prolongable.prefix_le (show 4 ≤ m + 4 by omega)) (k := 3) (n := 10) (by decide)
          (by decide +kernel) (by decide) hQ

/-- C121, Tribonacci words: one position for order 0, two for order 1, three from order 2 on. -/
theorem C121_tribonacci (k : Nat) : SmallestAttractor (tribWord k) (if k = 0 then 1 else if k = 1 then 2 else 3) := by
  rcases k with _ | _ | _ | n
  · exact smallest_of [0] (attractor_of (by decide +kernel)) rfl (by decide) fun Q hQ =>
      lower_count (List.prefix_refl _) (k := 1) (n := 1) (by decide) (by decide +kernel) (by decide) hQ
  · exact smallest_of [0, 1] (attractor_of (by decide +kernel)) rfl (by decide) fun Q hQ =>
      lower_count (List.prefix_refl _) (k := 1) (n := 2) (by decide) (by decide +kernel) (by decide) hQ
  · exact smallest_of [0, 1, 3] (attractor_of (by decide +kernel)) rfl (by decide) fun Q hQ =>
      lower_count (List.prefix_refl _) (k := 1) (n := 3) (by decide) (by decide +kernel) (by decide) hQ
  · refine smallest_of _ (trib_attractor n) ?_ ?_ ?_
    · rw [if_neg (by omega), if_neg (by omega)]; rfl
    · intro p hp
      show p < (tribWord (n + 3)).length
      have h1 := (trib_prefix1 n).length_le
      have h2 : (tribWord (n + 1)).length ≤ (tribWord (n + 2)).length := (trib_prefix1 (n + 1)).length_le
      have h3 : (tribWord (n + 2)).length ≤ (tribWord (n + 3)).length := (trib_prefix1 (n + 2)).length_le
      have := trib_pos (n + 3)
      simp only [List.mem_cons, List.not_mem_nil, or_false] at hp
      omega
    · intro Q hQ
      rw [if_neg (by omega), if_neg (by omega)]
      have hpre : ∀ n, tribWord 2 <+: tribWord (n + 2) := fun n => by
        induction n with
        | zero => exact List.prefix_refl _
        | succ n ih => exact ih.trans (trib_prefix1 _)
      exact lower_count (hpre (n + 1)) (k := 1) (n := 3) (by decide) (by decide +kernel) (by decide) hQ

/-- C121, period-doubling words: one position for order 0, two from order 1 on. -/
theorem C121_period_doubling (k : Nat) : SmallestAttractor (iter pdMor k [97]) (if k = 0 then 1 else 2) := by
  rcases k with _ | _ | _ | n
  · exact smallest_of [0] (attractor_of (by decide +kernel)) rfl (by decide) fun Q hQ =>
      lower_count (List.prefix_refl _) (k := 1) (n := 1) (by decide) (by decide +kernel) (by decide) hQ
  · exact smallest_of [0, 1] (attractor_of (by decide +kernel)) rfl (by decide) fun Q hQ =>
      lower_count (List.prefix_refl _) (k := 1) (n := 2) (by decide) (by decide +kernel) (by decide) hQ
  · exact smallest_of [1, 2] (attractor_of (by decide +kernel)) rfl (by decide) fun Q hQ =>
      lower_count (List.prefix_refl _) (k := 1) (n := 2) (by decide) (by decide +kernel) (by decide) hQ
  · refine smallest_of _ (C63_period_doubling_attractor n) ?_ ?_ ?_
    · rw [if_neg (by omega)]; rfl
    · intro p hp
      show p < (iter pdMor (n + 3) [97]).length
      have e : (iter pdMor (n + 3) [97]).length = 8 * 2 ^ n := by rw [iter_fixLetter pdMor_eq rfl]; simp; ring
      have h1 := Nat.two_pow_pos n
      have h2 : 2 ^ (n + 1) = 2 * 2 ^ n := by ring
      simp only [List.mem_cons, List.not_mem_nil, or_false] at hp
      omega
    · intro Q hQ
      rw [if_neg (by omega)]
      exact lower_count (pdMor_prolongable.prefix_le (show 1 ≤ n + 3 by omega)) (k := 1) (n := 2) (by decide)
          (by decide +kernel) (by decide) hQ

/-- C121, Fibonacci words: one position for order 0, two from order 1 on. -/
theorem C121_fibonacci (k : Nat) : SmallestAttractor (fibWord k) (if k = 0 then 1 else 2) := by
  rcases k with _ | _ | n
  · exact smallest_of [0] (attractor_of (by decide +kernel)) rfl (by decide) fun Q hQ =>
      lower_count (List.prefix_refl _) (k := 1) (n := 1) (by decide) (by decide +kernel) (by decide) hQ
  · exact smallest_of [0, 1] (attractor_of (by decide +kernel)) rfl (by decide) fun Q hQ =>
      lower_count (List.prefix_refl _) (k := 1) (n := 2) (by decide) (by decide +kernel) (by decide) hQ
  · refine smallest_of _ (C64_fibonacci_attractor (n + 2) (by omega)) ?_ ?_ ?_
    · rw [if_neg (by omega)]; rfl
    · intro p hp
      show p < (fibWord (n + 2)).length
      have h1 : 0 < Nat.fib (n + 2) := Nat.fib_pos.2 (by omega)
      have h2 : (fibWord (n + 2 - 1)).length = Nat.fib (n + 3) := fibWord_length (n + 1)
      have h3 : (fibWord (n + 2)).length = Nat.fib (n + 4) := fibWord_length (n + 2)
      have h4 : Nat.fib (n + 4) = Nat.fib (n + 2) + Nat.fib (n + 3) := Nat.fib_add_two
      simp only [List.mem_cons, List.not_mem_nil, or_false] at hp
      omega
    · intro Q hQ
      rw [if_neg (by omega)]
      rw [fibWord_eq] at hQ
      exact lower_count (fibMor_prolongable.prefix_le (show 1 ≤ n + 2 by omega)) (k := 1) (n := 2) (by decide)
          (by decide +kernel) (by decide) hQ

/-- C121, through the generators: the word each of them writes has that smallest attractor. -/
theorem C121_generators :
    (∀ k ≤ 90, ∃ T, fibonacciWord (binet (k + 2)) k = .ok T ∧ SmallestAttractor T (if k = 0 then 1 else 2)) ∧
    (∀ k ≤ 62, ∃ T, thuemorseWord k = .ok T ∧ SmallestAttractor T (if k = 0 then 1 else if k ≤ 2 then 2 else if k = 3 then 3 else 4)) ∧
    (∀ k ≤ 62, ∃ T, periodDoublingWord k = .ok T ∧ SmallestAttractor T (if k = 0 then 1 else 2)) ∧
    (∀ k fuel, k ≤ 29 → 3 * 2 ^ k < fuel → ∃ T, vtmWord fuel k = .ok T ∧
      SmallestAttractor T (if k = 0 then 1 else if k ≤ 2 then 3 else 4)) ∧
    (∀ k fuel, k ≤ 71 → tribNum k < fuel → ∃ T, tribonacciWord fuel k = .ok T ∧
      SmallestAttractor T (if k = 0 then 1 else if k = 1 then 2 else 3)) := by
  refine ⟨fun k hk => ⟨_, C42_fibonacci_word_exact k hk, C121_fibonacci k⟩, fun k hk => ⟨_, (C43_thuemorse_morphism k hk).1, C121_thuemorse k⟩,
    fun k hk => ?_, fun k fuel hk hf => ⟨_, C51_vtm_word_partial k hk fuel ?_, C121_vtm k⟩,
    fun k fuel hk hf => ⟨_, (C50_tribonacci_word k hk fuel hf).1, C121_tribonacci k⟩⟩
  · obtain ⟨w, h1, rfl, -⟩ := C45_period_doubling k hk
    exact ⟨_, h1, C121_period_doubling k⟩
  · rw [vtm_iter, List.length_map, List.length_range]
    have : 2 ^ (k - 1) ≤ 2 ^ k := Nat.pow_le_pow_right (by omega) (by omega)
    have := Nat.two_pow_pos k
    split <;> omega

example := C121_tool naiveSufsort naiveSufsort_sorts (iter tmMor 3 [97]) (by decide) (by decide) (by decide) 3 (C121_thuemorse 3)

end Verif.Props
