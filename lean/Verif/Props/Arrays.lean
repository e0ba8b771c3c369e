import Verif.Lemmas.Lcp
import Verif.Lemmas.SmallerValues

/-! # Properties C08-C11: suffix array, phi, inverse, plcp, lcp, psv, nsv -/

namespace Verif.Props

open Verif Spec Model

variable {α : Type} [LinearOrder α]

/-- C08: `suffixarray_naive` returns the suffix array, and only it is one. -/
theorem C08_suffixarray_naive (text : List α) :
    ∃ sa, suffixarrayNaive text = .ok sa ∧ IsSuffixArray text sa ∧
      ∀ sb, IsSuffixArray text sb → sb = sa := by
  obtain ⟨sa, h1, h2⟩ := suffixarrayNaive_ok text
  exact ⟨sa, h1, h2, fun sb h => h.unique h2⟩

example : IsSuffixArray [2, 1, 3, 1, 3, 1] [5, 3, 1, 0, 4, 2] := by
  unfold IsSuffixArray; decide

/-- C09: `inverse_permutation` inverts every permutation whose indices fit the element type. -/
theorem C09_inverse_permutation (tmax : Nat) (p : List Nat) (hp : IsPermutation p)
    (ht : p.length ≤ tmax + 1) :
    ∃ q, inversePermutation tmax p = .ok q ∧ IsInverse p q :=
  inversePermutation_ok hp ht

example := C09_inverse_permutation 127 [5, 3, 1, 0, 4, 2] (by unfold IsPermutation; decide) (by decide)

/-- C09: `compute_phi` maps every entry to the preceding one, cyclically. -/
theorem C09_compute_phi (p : List Nat) (hp : IsPermutation p) (hne : p ≠ []) :
    ∃ phi, computePhi p = .ok phi ∧ phi.length = p.length ∧
      (∀ i x y, p[i + 1]? = some x → p[i]? = some y → phi[x]? = some y) ∧
      (∀ x y, p[0]? = some x → p[p.length - 1]? = some y → phi[x]? = some y) := by
  have h0 : 0 < p.length := List.length_pos_iff.2 hne
  obtain ⟨phi, h1, h2, h3, h4⟩ := computePhi_ok hp h0
  refine ⟨phi, h1, h2, ?_, ?_⟩
  · intro i x y hx hy
    obtain ⟨a, rfl⟩ := List.getElem?_eq_some_iff.1 hx
    obtain ⟨b, rfl⟩ := List.getElem?_eq_some_iff.1 hy
    exact h3 (i + 1) (by omega) a
  · intro x y hx hy
    obtain ⟨a, rfl⟩ := List.getElem?_eq_some_iff.1 hx
    obtain ⟨b, rfl⟩ := List.getElem?_eq_some_iff.1 hy
    exact h4

example := C09_compute_phi [5, 3, 1, 0, 4, 2] (by unfold IsPermutation; decide) (by decide)

/-- C09: `compute_phi` panics on the empty array. -/
theorem C09_compute_phi_empty : computePhi [] = .error .assert := computePhi_empty

example : IsPermutation [5, 3, 1, 0, 4, 2] := by unfold IsPermutation; decide
example : computePhi [5, 3, 1, 0, 4, 2] = .ok [1, 3, 4, 5, 0, 2] := by decide
example : inversePermutation 127 [5, 3, 1, 0, 4, 2] = .ok [3, 2, 5, 1, 4, 0] := by decide

/-- C10: the chain `compute_phi`, `compute_plcp`, `compute_lcp` gives the longest common prefix lengths
of neighbouring suffixes; the first entry compares the first and the last suffix, which is 1 for
one-letter texts and 0 otherwise. -/
theorem C10_lcp (text : List α) (hne : text ≠ []) (hlen : text.length < 4294967296)
    (sa : List Nat) (hsa : IsSuffixArray text sa) :
    ∃ phi plcp lcp, computePhi sa = .ok phi ∧ computePlcp text phi = .ok plcp ∧
      computeLcp plcp sa = .ok lcp ∧ lcp.length = text.length ∧
      (∀ i x y, sa[i]? = some x → sa[i + 1]? = some y →
        lcp[i + 1]? = some (lcpLen (text.drop x) (text.drop y)) ∧
        plcp[y]? = some (lcpLen (text.drop x) (text.drop y))) ∧
      (∀ x y, sa[0]? = some x → sa[text.length - 1]? = some y →
        lcp[0]? = some (lcpLen (text.drop y) (text.drop x))) ∧
      ((∃ c, ∀ x ∈ text, x = c) → lcp[0]? = some 1) ∧
      ((¬ ∃ c, ∀ x ∈ text, x = c) → lcp[0]? = some 0) := by
  have h0 : 0 < text.length := List.length_pos_iff.2 hne
  obtain ⟨phi, plcp, lcp, h1, h2, h3, h4, h5, h6, h7, h8, h9⟩ := lcpChain hsa h0 hlen
  have hl := hsa.length
  refine ⟨phi, plcp, lcp, h1, h3, h6, h7, ?_, ?_, ?_, ?_⟩
  · intro i x y hx hy
    obtain ⟨a, rfl⟩ := List.getElem?_eq_some_iff.1 hx
    obtain ⟨b, rfl⟩ := List.getElem?_eq_some_iff.1 hy
    refine ⟨h8 (i + 1) (by omega) b, ?_⟩
    obtain ⟨c, e1, -, e3⟩ := h5 sa[i + 1] (hsa.lt b)
    have := h2.step (i + 1) (by omega) b
    rw [e1] at this
    simp only [Option.some.injEq, Nat.add_sub_cancel] at this
    rw [e3, this]
  · intro x y hx hy
    obtain ⟨a, rfl⟩ := List.getElem?_eq_some_iff.1 hx
    obtain ⟨b, rfl⟩ := List.getElem?_eq_some_iff.1 hy
    rw [h9 a]; simp [hl]
  · intro hu; rw [h9 (by omega), (first_last_lcp hsa (by omega)).1 hu]
  · intro hu; rw [h9 (by omega), (first_last_lcp hsa (by omega)).2 hu]

example := C10_lcp [2, 1, 3, 1, 3, 1] (by decide) (by decide) [5, 3, 1, 0, 4, 2] (by unfold IsSuffixArray; decide)

example : (computePhi [5, 3, 1, 0, 4, 2] >>= fun phi =>
    computePlcp [2, 1, 3, 1, 3, 1] phi >>= fun plcp => computeLcp plcp [5, 3, 1, 0, 4, 2]) =
      .ok [0, 1, 3, 0, 0, 2] := by decide

/-- C11: previous smaller values. -/
theorem C11_compute_psv (arr : List α) (hne : arr ≠ []) (hlen : arr.length < 4294967296) :
    ∃ psv, computePsv arr = .ok psv ∧ psv.length = arr.length ∧
      ∀ i, i < arr.length → ∃ v, psv[i]? = some v ∧ IsPsv 4294967295 arr i v :=
  computePsv_ok (List.length_pos_iff.2 hne) hlen

example := C11_compute_psv [3, 1, 2, 2, 5, 1] (by decide) (by decide)

/-- C11: next smaller values. -/
theorem C11_compute_nsv (arr : List α) (hne : arr ≠ []) (hlen : arr.length < 4294967296) :
    ∃ nsv, computeNsv arr = .ok nsv ∧ nsv.length = arr.length ∧
      ∀ i, i < arr.length → ∃ v, nsv[i]? = some v ∧ IsNsv 4294967295 arr i v :=
  computeNsv_ok (List.length_pos_iff.2 hne) hlen

example := C11_compute_nsv [3, 1, 2, 2, 5, 1] (by decide) (by decide)

/-- C11: both panic on the empty array. -/
theorem C11_empty : computePsv ([] : List α) = .error .index ∧
    computeNsv ([] : List α) = .error .arith := ⟨rfl, rfl⟩

example : computePsv [3, 1, 2, 2, 5, 1] = .ok [4294967295, 4294967295, 1, 1, 3, 4294967295] ∧
    computeNsv [3, 1, 2, 2, 5, 1] = .ok [1, 4294967295, 5, 5, 5, 4294967295] := by decide

end Verif.Props
