import Verif.Lemmas.EntropyKmer
import Verif.Props.Bwt

/-! # Properties C26, C27: empirical entropy (`src/bin/entropy.rs`, `src/bin/entropy_kmer.rs`)

`zeroOrder`, `kthOrder`, `contexts`, `followers` are in `Verif/Spec/Entropy.lean`.  `f64` is modelled by
the real numbers. -/

namespace Verif.Props

open Verif Spec Model

/-- C26: `zero_order_entropy` is the sum over the letters of `(n_c/n) log₂ (n/n_c)`. -/
theorem C26_zero_order (text : List UInt8) (_h : text ≠ []) :
    zeroOrderEntropy text = .ok (zeroOrder text) := zeroOrderEntropy_ok text

example := C26_zero_order [97, 98, 97] (by decide)

/-- C26: `kth_order_entropy` is `1/n` times the sum over the contexts `w` of length `k` of the number of
letters following `w` times the zero-order entropy of these letters. -/
theorem C26_kth_order (sufsort : List UInt8 → List Nat) (hs : SortsSuffixes sufsort)
    (T : List UInt8) (h0 : T ≠ []) (hT : ∀ x ∈ T, x ≠ 0) (hlen : T.length < 2147483647) (k : Nat)
    (hk : 1 ≤ k) : kthOrderEntropy sufsort (T ++ [0]) k = .ok (kthOrder (T ++ [0]) k) :=
  kthOrderEntropy_ok hs h0 hT hlen hk

example := C26_kth_order naiveSufsort naiveSufsort_sorts [97, 98, 97] (by decide) (by decide) (by decide) 2 (by decide)

/-- C26, limit: on the text consisting of the sentinel alone, order 1 underflows. -/
theorem C26_sentinel_alone_panics : kthOrderEntropy naiveSufsort [0] 1 = .error .arith := by
  have e1 : computePhi (naiveSufsort [0]) = .ok [0] := by decide
  have e2 : computePlcp [(0 : UInt8)] [0] = .ok [1] := by decide
  have e3 : computeLcp [1] (naiveSufsort [0]) = .ok [1] := by decide
  simp only [kthOrderEntropy, assertR]
  simp [usub, e1, e2, e3, forRange, kthStep, rd, pure_ok]

/-- C26, limit: order 0 and inner zero bytes are rejected. -/
theorem C26_rejects (sufsort : List UInt8 → List Nat) (text : List UInt8) (k : Nat)
    (h : k = 0 ∨ (0 : UInt8) ∈ text.take (text.length - 1)) (hne : text ≠ []) :
    kthOrderEntropy sufsort text k = .error .assert := by
  simp only [kthOrderEntropy, assertR]
  by_cases hk : k = 0
  · rw [if_neg (by simp [hk])]; rfl
  · have h' := h.resolve_left hk
    have hl := List.length_pos_iff.2 hne
    rw [if_pos (by simp; omega), ok_bind, usub_ok (by omega), ok_bind, if_neg]
    · rfl
    · simp only [Bool.not_eq_true', Bool.not_eq_false]
      rw [List.any_eq_true]
      exact ⟨0, h', by simp⟩

example := C26_rejects naiveSufsort [97, 0, 98] 2 (Or.inr (by decide)) (by decide)

/-- C27: both tools compute the same value, and the k-mer tool reports the length of the text. -/
theorem C27_tools_agree (sufsort : List UInt8 → List Nat) (hs : SortsSuffixes sufsort)
    (T : List UInt8) (h0 : T ≠ []) (hT : ∀ x ∈ T, x ≠ 0) (hlen : T.length < 2147483647) (k : Nat)
    (hk : 1 ≤ k) (hk7 : k ≤ 7) (hkl : k ≤ (T ++ [(0 : UInt8)]).length) :
    ∃ h : ℝ, kthOrderEntropy sufsort (T ++ [0]) k = .ok h ∧
      entropyViaKmerCounting (T ++ [0]) k = .ok (h, (T ++ [(0 : UInt8)]).length) ∧
      h = kthOrder (T ++ [0]) k := by
  refine ⟨_, kthOrderEntropy_ok hs h0 hT hlen hk, ?_, rfl⟩
  rw [entropyViaKmerCounting_ok hT hk hk7 (by simpa using hkl)]
  simp

/-- C27, limit: fewer bytes than the order make the k-mer tool panic. -/
theorem C27_short_panics (text : List UInt8) (k : Nat) (h : text.length < k) :
    entropyViaKmerCounting text k = .error .unwrap := by
  simp [entropyViaKmerCounting, kmerCounts, h]

example := C27_short_panics [97, 98] 3 (by decide)

/-- C27, limit: the function returns exactly if there are at least as many bytes as the order says and the order is in 1..7, or it is 8 and
there are exactly eight bytes. -/
theorem C27_domain (text : List UInt8) (k : Nat) :
    (∃ r, entropyViaKmerCounting text k = .ok r) ↔ k ≤ text.length ∧ (1 ≤ k ∧ k ≤ 7 ∨ k = 8 ∧ text.length = 8) := by
  have hrest : (∃ r, entropyViaKmerCounting text k = .ok r) ↔ ∃ s, kmerCounts text k = .ok s := by
    simp only [entropyViaKmerCounting]
    cases kmerCounts text k with
    | error e => simp [bind, Except.bind]
    | ok s =>
      have h : ∀ (l : List (Nat × Nat)) (x : ℝ), ∃ y, forEach l x (fun kmer sum => (pure (sum + (kmer.2 : ℝ) * Real.logb 2 kmer.2) : Res ℝ)) =
          .ok y := by
        intro l
        induction l with
        | nil => exact fun x => ⟨x, rfl⟩
        | cons a l ih => exact fun x => ih _
      obtain ⟨y, hy⟩ := h s.kmers 0
      obtain ⟨z, hz⟩ := h s.kplusmers 0
      rw [ok_bind, hy, ok_bind, hz, ok_bind]
      simp [pure, Except.pure]
  rw [hrest]
  simp only [kmerCounts]
  by_cases h1 : text.length < k
  · rw [if_pos h1]
    constructor
    · rintro ⟨_, h⟩; cases h
    · rintro ⟨h, _⟩; omega
  · rw [if_neg h1]
    by_cases h2 : k = 0 ∨ 8 < k ∨ (k = 8 ∧ 8 < text.length)
    · rw [if_pos h2]
      constructor
      · rintro ⟨_, h⟩; cases h
      · rintro ⟨_, h⟩; omega
    · rw [if_neg h2]
      exact ⟨fun _ => by omega, fun _ => ⟨_, rfl⟩⟩

/-- C27, limit: eight bytes and order 8 give entropy 0. -/
theorem C27_eight (text : List UInt8) (h : text.length = 8) : entropyViaKmerCounting text 8 = .ok (0, 8) := by
  simp [entropyViaKmerCounting, kmerCounts, h, List.drop_eq_nil_of_le (show text.length ≤ 8 by omega), incMap, forEach, pure, Except.pure, bind,
    Except.bind]

example : ∃ r, entropyViaKmerCounting [1, 2, 3] 3 = .ok r := (C27_domain _ 3).2 (by decide)

/-- Concrete cases: `ab` has zero-order entropy 1; the hypotheses of C27 hold for `abab`, order 2, where
the counted 2-mers are `ab` (twice), `ba` and `b\0`. -/
example : zeroOrderEntropy [97, 98] = .ok 1 := by
  rw [zeroOrderEntropy_ok]
  have : ([97, 98] : List UInt8).toFinset = {97, 98} := rfl
  rw [zeroOrder, this, Finset.sum_pair (by decide)]
  simp
  norm_num
example : ∃ h : ℝ, kthOrderEntropy naiveSufsort ([97, 98, 97, 98] ++ [0]) 2 = .ok h ∧
    entropyViaKmerCounting ([97, 98, 97, 98] ++ [0]) 2 = .ok (h, 5) ∧
    h = kthOrder ([97, 98, 97, 98] ++ [0]) 2 :=
  C27_tools_agree naiveSufsort naiveSufsort_sorts [97, 98, 97, 98] (by simp) (by simp) (by simp) 2
    (by omega) (by omega) (by simp)
example : (kmerCounts [97, 98, 97, 98, 0] 2).map KmerState.kmers =
    .ok [(24930, 2), (25185, 1), (25088, 1)] := by decide

end Verif.Props
