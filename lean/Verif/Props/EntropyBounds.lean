import Verif.Lemmas.EntropyBounds
import Mathlib.Tactic.IntervalCases
import Verif.Props.Entropy

/-! # Property C84: laws the entropies obey for every text (`src/bin/entropy.rs`, `src/bin/entropy_kmer.rs`)

The statements are about the values the functions return; `f64` is modelled by the real numbers. -/

namespace Verif.Props

open Verif Spec Model

/-- C84: the zero-order entropy lies between 0 and the logarithm of the number of different letters; it is
0 exactly for the texts made of one letter. -/
theorem C84_zero_order_range (text : List UInt8) (hne : text ≠ []) :
    ∃ h : ℝ, zeroOrderEntropy text = .ok h ∧ 0 ≤ h ∧ h ≤ Real.logb 2 text.toFinset.card ∧
      (h = 0 ↔ ∀ x ∈ text, ∀ y ∈ text, x = y) :=
  ⟨_, C26_zero_order text hne, zeroOrder_nonneg _, zeroOrder_le _ hne, zeroOrder_eq_zero_iff _⟩

example := C84_zero_order_range [97, 98, 97] (by decide)

/-- C84: the zero-order entropy is at most 8 bits per byte. -/
theorem C84_at_most_eight (text : List UInt8) (hne : text ≠ []) (h : ℝ)
    (hh : zeroOrderEntropy text = .ok h) : h ≤ 8 := by
  obtain ⟨h', e, _, hle, _⟩ := C84_zero_order_range text hne
  rw [hh] at e
  cases e
  refine hle.trans ?_
  have hpos : 0 < text.toFinset.card := by
    rw [Finset.card_pos]; obtain ⟨x, hx⟩ := List.exists_mem_of_ne_nil text hne
    exact ⟨x, by simpa using hx⟩
  have hc : text.toFinset.card ≤ 256 := by
    have : (text.toFinset.image UInt8.toNat).card = text.toFinset.card :=
      Finset.card_image_of_injective _ (fun a b h => UInt8.toNat_inj.1 h)
    rw [← this]
    refine (Finset.card_le_card (t := Finset.range 256) ?_).trans (by simp)
    intro n hn
    obtain ⟨x, _, rfl⟩ := Finset.mem_image.1 hn
    exact Finset.mem_range.2 x.toNat_lt
  have : Real.logb 2 (256 : ℝ) = 8 := by
    rw [show (256 : ℝ) = 2 ^ (8 : ℝ) by norm_num, Real.logb_rpow (by norm_num) (by norm_num)]
  rw [← this]
  apply Real.logb_le_logb_of_le (by norm_num) (by exact_mod_cast hpos)
  exact_mod_cast hc

example := C84_at_most_eight [97, 98, 97] (by decide) _ (C26_zero_order _ (by decide))

/-- C84: rearranging the text does not change the zero-order entropy. -/
theorem C84_rearranged (text text' : List UInt8) (hne : text ≠ []) (hp : text.Perm text') :
    zeroOrderEntropy text' = zeroOrderEntropy text := by
  have hne' : text' ≠ [] := fun e => hne (by rw [e] at hp; exact hp.eq_nil)
  rw [C26_zero_order text hne, C26_zero_order text' hne']
  have e1 : text'.toFinset = text.toFinset := by
    ext x; simp [hp.mem_iff]
  have e2 : text'.length = text.length := hp.length_eq.symm
  simp only [zeroOrder, e1, e2, hp.count_eq]

example := C84_rearranged [97, 98, 97] [98, 97, 97] (by decide) (by decide)

/-- C84: longer contexts never increase the entropy: `H_{k+1} ≤ H_k`, and `H_1` is at most the zero-order
entropy; no entropy is negative. -/
theorem C84_decreasing (sufsort : List UInt8 → List Nat) (hs : SortsSuffixes sufsort)
    (T : List UInt8) (h0 : T ≠ []) (hT : ∀ x ∈ T, x ≠ 0) (hlen : T.length < 2147483647) :
    ∃ H : Nat → ℝ, zeroOrderEntropy (T ++ [0]) = .ok (H 0) ∧
      (∀ k, 1 ≤ k → kthOrderEntropy sufsort (T ++ [0]) k = .ok (H k)) ∧
      (∀ k, 0 ≤ H k) ∧ Antitone H := by
  refine ⟨kthOrder (T ++ [0]), ?_, fun k hk => C26_kth_order sufsort hs T h0 hT hlen k hk,
    fun k => kthOrder_nonneg _ _, antitone_nat_of_succ_le (fun k => kthOrder_succ_le _ _)⟩
  rw [kthOrder_zero]
  exact C26_zero_order _ (by simp)

/-- C84: the `k`-th order entropy is 0 exactly if every word of length `k` determines the letter that
follows it. -/
theorem C84_zero_iff (sufsort : List UInt8 → List Nat) (hs : SortsSuffixes sufsort)
    (T : List UInt8) (h0 : T ≠ []) (hT : ∀ x ∈ T, x ≠ 0) (hlen : T.length < 2147483647) (k : Nat)
    (hk : 1 ≤ k) :
    kthOrderEntropy sufsort (T ++ [0]) k = .ok 0 ↔
      ∀ i j : Nat, i + k ≤ T.length → j + k ≤ T.length →
        (T.drop i).take k = (T.drop j).take k → (T ++ [0])[i + k]? = (T ++ [0])[j + k]? := by
  rw [C26_kth_order sufsort hs T h0 hT hlen k hk]
  have e : ∀ i : Nat, i + k ≤ T.length → ((T ++ [0]).drop i).take k = (T.drop i).take k := by
    intro i hi
    rw [List.drop_append_of_le_length (by omega), List.take_append_of_le_length (by simp; omega)]
  have := kthOrder_eq_zero_iff (T ++ [0]) k
  constructor
  · intro h i j hi hj hij
    have h : kthOrder (T ++ [0]) k = 0 := by simpa using h
    exact this.1 h i j (by simp; omega) (by simp; omega) (by rw [e i hi, e j hj, hij])
  · intro h
    rw [this.2]
    intro i j hi hj hij
    simp only [List.length_append, List.length_singleton] at hi hj
    rw [e i (by omega), e j (by omega)] at hij
    exact h i j (by omega) (by omega) hij

/-- Concrete cases: `abab` (with sentinel) meets the hypotheses; `aab` has positive entropy of order 1
(`a` is followed by `a` and by `b`) and entropy 0 of order 2. -/
example : ∃ H : Nat → ℝ, zeroOrderEntropy ([97, 98, 97, 98] ++ [0]) = .ok (H 0) ∧
    (∀ k, 1 ≤ k → kthOrderEntropy naiveSufsort ([97, 98, 97, 98] ++ [0]) k = .ok (H k)) ∧
    (∀ k, 0 ≤ H k) ∧ Antitone H :=
  C84_decreasing naiveSufsort naiveSufsort_sorts [97, 98, 97, 98] (by simp) (by simp) (by simp)
example : kthOrderEntropy naiveSufsort ([97, 97, 98] ++ [0]) 1 ≠ .ok 0 := by
  rw [Ne, C84_zero_iff naiveSufsort naiveSufsort_sorts [97, 97, 98] (by simp) (by simp) (by simp) 1
    (by omega)]
  intro h
  have := h 0 1 (by simp) (by simp) (by simp)
  simp at this
example : kthOrderEntropy naiveSufsort ([97, 97, 98] ++ [0]) 2 = .ok 0 := by
  rw [C84_zero_iff naiveSufsort naiveSufsort_sorts [97, 97, 98] (by simp) (by simp) (by simp) 2
    (by omega)]
  intro i j hi hj h
  simp only [List.length_cons, List.length_nil] at hi hj
  have hi : i < 2 := by omega
  have hj : j < 2 := by omega
  interval_cases i <;> interval_cases j <;> simp_all

end Verif.Props
