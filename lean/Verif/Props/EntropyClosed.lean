import Verif.Lemmas.EntropyClosed
import Verif.Props.Entropy

/-! # Property C88: closed forms of the `k`-th order entropy

The tests of `src/bin/entropy.rs:83-139` and `src/bin/entropy_kmer.rs` compare the computed values with closed
forms for a few lengths; here they are proved for all lengths and orders.  `f64` is modelled by the real
numbers. -/

namespace Verif.Props

open Verif Spec Model

/-- C88: if within `T` (no zero byte) the last `k` letters always determine the next one, the `k`-th order entropy
of `T` with its sentinel depends only on the number `f` of earlier occurrences of the last `k` letters of
`T`: it is `(f log((f+1)/f) + log(f+1)) / (|T|+1)`. -/
theorem C88_deterministic (sufsort : List UInt8 → List Nat) (hs : SortsSuffixes sufsort)
    (T : List UInt8) (h0 : T ≠ []) (hT : ∀ x ∈ T, x ≠ 0) (hlen : T.length < 2147483647) (k : Nat)
    (hk : 1 ≤ k) (hkl : k ≤ T.length)
    (hdet : ∀ i j : Nat, i + k < T.length → j + k < T.length →
      (T.drop i).take k = (T.drop j).take k → T[i + k]? = T[j + k]?)
    (f : Nat) (hf : f = ((List.range (T.length - k)).filter fun i =>
      (T.drop i).take k = T.drop (T.length - k)).length) :
    kthOrderEntropy sufsort (T ++ [0]) k =
      .ok ((f * Real.logb 2 ((f + 1) / f) + Real.logb 2 (f + 1)) / ((T.length + 1 : Nat) : ℝ)) := by
  subst hf
  rw [C26_kth_order sufsort hs T h0 hT hlen k hk, kthOrder_deterministic hT hkl hdet]
  rfl

example := C88_deterministic naiveSufsort naiveSufsort_sorts [97, 98, 99, 97, 98] (by decide) (by decide) (by decide) 2 (by decide) (by decide)
  (by
    intro i j hi hj h
    simp only [List.length_cons, List.length_nil] at hi hj
    have hi' : i < 3 := by omega
    have hj' : j < 3 := by omega
    have key : ∀ i < 3, ∀ j < 3, (([97, 98, 99, 97, 98] : List UInt8).drop i).take 2 = (([97, 98, 99, 97, 98] : List UInt8).drop j).take 2 →
      ([97, 98, 99, 97, 98] : List UInt8)[i + 2]? = ([97, 98, 99, 97, 98] : List UInt8)[j + 2]? := by decide
    exact key i hi' j hj' h) 1 (by decide)

/-- C88: the unary texts `c^m 0` (test of `src/bin/entropy.rs:96-116` for every length and order). -/
theorem C88_unary (sufsort : List UInt8 → List Nat) (hs : SortsSuffixes sufsort) (c : UInt8) (hc : c ≠ 0)
    (m k : Nat) (hk : 1 ≤ k) (hkm : k ≤ m) (hm : m < 2147483647) :
    kthOrderEntropy sufsort (List.replicate m c ++ [0]) k =
      .ok ((((m : ℝ) - k) * Real.logb 2 ((m + 1 - k) / (m - k)) + Real.logb 2 (m + 1 - k)) / (m + 1)) := by
  rw [C88_deterministic sufsort hs (List.replicate m c) (by simp; omega)
    (fun x hx => by rw [(List.mem_replicate.1 hx).2]; exact hc) (by simpa using hm) k hk (by simpa using hkm)
    (fun i j hi hj _ => by
      simp only [List.length_replicate] at hi hj
      simp [hi, hj]) (m - k) ?_]
  · rw [Nat.cast_sub hkm]
    simp only [List.length_replicate]
    push_cast
    congr 4 <;> ring_nf
  · rw [List.filter_eq_self.2]
    · simp
    · intro i hi
      have := List.mem_range.1 hi
      simp only [List.length_replicate] at this
      simp [List.take_replicate]
      omega

/-- C88: the same closed form is what the k-mer counting tool returns for unary texts, up to its limit of 7. -/
theorem C88_unary_kmer (c : UInt8) (hc : c ≠ 0) (m k : Nat) (hk : 1 ≤ k) (hk7 : k ≤ 7) (hkm : k ≤ m)
    (hm : m < 2147483647) :
    entropyViaKmerCounting (List.replicate m c ++ [0]) k =
      .ok ((((m : ℝ) - k) * Real.logb 2 ((m + 1 - k) / (m - k)) + Real.logb 2 (m + 1 - k)) / (m + 1), m + 1) := by
  obtain ⟨h, e1, e2, _⟩ := C27_tools_agree naiveSufsort naiveSufsort_sorts (List.replicate m c) (by simp; omega)
    (fun x hx => by rw [(List.mem_replicate.1 hx).2]; exact hc) (by simpa using hm) k hk hk7 (by simp; omega)
  rw [C88_unary naiveSufsort naiveSufsort_sorts c hc m k hk hkm hm] at e1
  cases e1
  rw [e2]
  simp

example := C88_unary_kmer 97 (by decide) 10 3 (by decide) (by decide) (by decide) (by decide)

/-- `(ab)^m`. -/
def alternating (a b : UInt8) (m : Nat) : List UInt8 := (List.replicate m [a, b]).flatten

theorem alternating_length (a b : UInt8) (m : Nat) : (alternating a b m).length = 2 * m := by
  induction m with
  | zero => rfl
  | succ m ih =>
    simp only [alternating, List.replicate_succ, List.flatten_cons, List.length_append] at ih ⊢
    rw [ih]; simp; omega

theorem alternating_get (a b : UInt8) : ∀ (m i : Nat), i < 2 * m →
    (alternating a b m)[i]? = some (if i % 2 = 0 then a else b)
  | 0, _, h => by omega
  | m + 1, 0, _ => by simp [alternating, List.replicate_succ]
  | m + 1, 1, _ => by simp [alternating, List.replicate_succ]
  | m + 1, i + 2, h => by
    have := alternating_get a b m i (by omega)
    simp only [alternating, List.replicate_succ, List.flatten_cons, List.cons_append, List.nil_append,
      List.getElem?_cons_succ] at this ⊢
    rw [this, Nat.add_mod_right]

theorem alternating_window {a b : UInt8} (hab : a ≠ b) {m i j k : Nat} (hk : 1 ≤ k) (hi : i + k ≤ 2 * m)
    (hj : j + k ≤ 2 * m) : ((alternating a b m).drop i).take k = ((alternating a b m).drop j).take k ↔
      i % 2 = j % 2 := by
  constructor
  · intro h
    have h0 := congrArg (fun l => l[0]?) h
    simp only [List.getElem?_take, List.getElem?_drop, Nat.add_zero, if_pos (show 0 < k by omega)] at h0
    rw [alternating_get a b m i (by omega), alternating_get a b m j (by omega)] at h0
    have h1 := Option.some.inj h0
    split at h1 <;> split at h1
    · omega
    · exact absurd h1 hab
    · exact absurd h1.symm hab
    · omega
  · intro h
    apply List.ext_getElem?
    intro x
    rw [List.getElem?_take, List.getElem?_take]
    split
    · rw [List.getElem?_drop, List.getElem?_drop, alternating_get a b m _ (by omega),
        alternating_get a b m _ (by omega)]
      simp only [show (i + x) % 2 = (j + x) % 2 by omega]
    · rfl

theorem count_same_parity : ∀ M : Nat, ((List.range M).filter fun i => i % 2 = M % 2).length = M / 2
  | 0 => rfl
  | 1 => by decide
  | M + 2 => by
    rw [List.range_succ, List.range_succ, List.filter_append, List.filter_append, List.length_append,
      List.length_append, Nat.add_mod_right, count_same_parity M]
    rcases Nat.mod_two_eq_zero_or_one M with h | h
    · simp [h, Nat.add_mod]
    · simp [h, Nat.add_mod]

/-- C88: the alternating texts `(ab)^m 0` (test of `src/bin/entropy.rs:117-138` for every length and order): with
`f = m - ⌈k/2⌉` the entropy is `(f log((f+1)/f) + log(f+1)) / (2m+1)`. -/
theorem C88_alternating (sufsort : List UInt8 → List Nat) (hs : SortsSuffixes sufsort) (a b : UInt8)
    (ha : a ≠ 0) (hb : b ≠ 0) (hab : a ≠ b) (m k : Nat) (hk : 1 ≤ k) (hkm : k ≤ 2 * m)
    (hm : 2 * m < 2147483647) (f : Nat) (hf : f + (k + 1) / 2 = m) :
    kthOrderEntropy sufsort ((List.replicate m [a, b]).flatten ++ [0]) k =
      .ok (((f : ℝ) * Real.logb 2 ((f + 1) / f) + Real.logb 2 (f + 1)) / (2 * m + 1)) := by
  have hl := alternating_length a b m
  have := C88_deterministic sufsort hs (alternating a b m) (by
      intro h; rw [h] at hl; simp at hl; omega)
    (fun x hx => by
      obtain ⟨l, hl, hx⟩ := List.mem_flatten.1 hx
      rw [(List.mem_replicate.1 hl).2] at hx
      simp only [List.mem_cons, List.not_mem_nil, or_false] at hx
      rcases hx with rfl | rfl
      · exact ha
      · exact hb) (by omega) k hk (by omega)
    (fun i j hi hj h => by
      rw [hl] at hi hj
      rw [alternating_window hab hk (by omega) (by omega)] at h
      rw [alternating_get a b m _ hi, alternating_get a b m _ hj, show (i + k) % 2 = (j + k) % 2 by omega])
    f (by
      have e : ∀ i ∈ List.range ((alternating a b m).length - k),
          decide (((alternating a b m).drop i).take k = (alternating a b m).drop ((alternating a b m).length - k)) =
          decide (i % 2 = (2 * m - k) % 2) := by
        intro i hi
        have := List.mem_range.1 hi
        rw [hl] at this
        have h2 : (alternating a b m).drop (2 * m - k) = ((alternating a b m).drop (2 * m - k)).take k := by
          rw [List.take_of_length_le]; simp [hl]; omega
        rw [hl, h2, decide_eq_decide]
        exact alternating_window hab hk (by omega) (by omega)
      rw [List.filter_congr e, hl, count_same_parity]
      omega)
  rw [hl] at this
  simp only [alternating] at this
  rw [this]
  push_cast
  rfl

/-- C88: orders at least the length of the text (without sentinel) have entropy 0. -/
theorem C88_long_order (sufsort : List UInt8 → List Nat) (hs : SortsSuffixes sufsort)
    (T : List UInt8) (h0 : T ≠ []) (hT : ∀ x ∈ T, x ≠ 0) (hlen : T.length < 2147483647) (k : Nat)
    (hk : T.length ≤ k) : kthOrderEntropy sufsort (T ++ [0]) k = .ok 0 := by
  have hpos := List.length_pos_of_ne_nil h0
  rcases Nat.lt_or_ge T.length k with h | h
  · rw [C26_kth_order sufsort hs T h0 hT hlen k (by omega)]
    have : contexts (T ++ [0]) k = ∅ := by
      simp [contexts, show T.length + 1 - k = 0 by omega]
    rw [kthOrder, this]
    simp
  · obtain rfl : k = T.length := by omega
    rw [C88_deterministic sufsort hs T h0 hT hlen _ (by omega) le_rfl (fun i j hi => by omega) 0 (by simp)]
    simp

example := C88_long_order naiveSufsort naiveSufsort_sorts [97, 98] (by decide) (by decide) (by decide) 2 (by decide)

/-- Instances: `aaaa0` at order 2, and `abababab0` at order 3. -/
example : kthOrderEntropy naiveSufsort ([97, 97, 97, 97] ++ [0]) 2 =
    .ok (((((4 : Nat) : ℝ) - (2 : Nat)) * Real.logb 2 (((4 : Nat) + 1 - (2 : Nat)) / ((4 : Nat) - (2 : Nat))) +
      Real.logb 2 ((4 : Nat) + 1 - (2 : Nat))) / ((4 : Nat) + 1)) :=
  C88_unary naiveSufsort naiveSufsort_sorts 97 (by decide) 4 2 (by decide) (by decide) (by decide)

example : kthOrderEntropy naiveSufsort ([97, 98, 97, 98, 97, 98, 97, 98] ++ [0]) 3 =
    .ok ((((2 : Nat) : ℝ) * Real.logb 2 (((2 : Nat) + 1) / (2 : Nat)) + Real.logb 2 ((2 : Nat) + 1)) / (2 * (4 : Nat) + 1)) :=
  C88_alternating naiveSufsort naiveSufsort_sorts 97 98 (by decide) (by decide) (by decide) 4 3 (by decide)
    (by decide) (by decide) 2 (by decide)

end Verif.Props
