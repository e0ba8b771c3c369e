import Verif.Lemmas.BigArrays
import Verif.Props.Domains

/-! # C133: the arrays with 32-bit entries on inputs that do not fit 32 bits -/

namespace Verif.Props

open Verif Spec Model

variable {α : Type} [LinearOrder α]

/-- C133: on a text of any length `compute_plcp` and `compute_lcp` hold the lengths of the common prefixes modulo `2^32`. -/
theorem C133_lcp (text : List α) (hne : text ≠ []) (sa : List Nat) (hsa : IsSuffixArray text sa) :
    ∃ phi plcp lcp, computePhi sa = .ok phi ∧ computePlcp text phi = .ok plcp ∧ computeLcp plcp sa = .ok lcp ∧
      lcp.length = text.length ∧
      (∀ i x y, sa[i]? = some x → sa[i + 1]? = some y →
        plcp[y]? = some (lcpLen (text.drop x) (text.drop y) % 2 ^ 32) ∧
        lcp[i + 1]? = some (lcpLen (text.drop x) (text.drop y) % 2 ^ 32)) ∧
      (∀ x y, sa[0]? = some x → sa[text.length - 1]? = some y →
        plcp[x]? = some (lcpLen (text.drop y) (text.drop x) % 2 ^ 32) ∧
        lcp[0]? = some (lcpLen (text.drop y) (text.drop x) % 2 ^ 32)) := by
  have h0 : 0 < text.length := List.length_pos_iff.2 hne
  obtain ⟨phi, h1, h2⟩ := isPhi_of_computePhi hsa h0
  obtain ⟨plcp, h3, h4, h5⟩ := computePlcp_big hsa h2
  have hl := hsa.length
  obtain ⟨⟨-, hex⟩, hmap⟩ := C96_compute_lcp plcp sa
  obtain ⟨lcp, h6⟩ := hex ⟨by omega, fun x hx => by
    obtain ⟨i, hi, rfl⟩ := List.mem_iff_getElem.1 hx
    have := hsa.lt hi
    omega⟩
  have h7 := hmap lcp h6
  have hlen : lcp.length = sa.length := by simpa using congrArg List.length h7
  have hget : ∀ i v w : Nat, sa[i]? = some v → plcp[v]? = some w → lcp[i]? = some w := by
    intro i v w hv hw
    have := congrArg (fun l => l[i]?) h7
    simp only [List.getElem?_map, hv, Option.map_some, hw] at this
    cases hc : lcp[i]? with
    | none => rw [hc] at this; simp at this
    | some z => rw [hc] at this; simpa using this
  refine ⟨phi, plcp, lcp, h1, h3, h6, by omega, ?_, ?_⟩
  · intro i x y hx hy
    obtain ⟨a, rfl⟩ := List.getElem?_eq_some_iff.1 hx
    obtain ⟨b, rfl⟩ := List.getElem?_eq_some_iff.1 hy
    obtain ⟨c, e1, -, e3⟩ := h5 sa[i + 1] (hsa.lt b)
    have := h2.step (i + 1) (by omega) b
    rw [e1] at this
    simp only [Option.some.injEq, Nat.add_sub_cancel] at this
    rw [this] at e3
    exact ⟨e3, hget _ _ _ hy e3⟩
  · intro x y hx hy
    obtain ⟨a, rfl⟩ := List.getElem?_eq_some_iff.1 hx
    obtain ⟨b, rfl⟩ := List.getElem?_eq_some_iff.1 hy
    obtain ⟨c, e1, -, e3⟩ := h5 sa[0] (hsa.lt a)
    have := h2.first a
    rw [e1] at this
    simp only [Option.some.injEq, hl] at this
    rw [this] at e3
    exact ⟨e3, hget _ _ _ hx e3⟩

example := C133_lcp [2, 1, 3, 1, 3, 1] (by decide) [5, 3, 1, 0, 4, 2] (by unfold IsSuffixArray; decide)

theorem lcpLen_replicate (a : α) (n m : Nat) (h : n ≤ m) : lcpLen (List.replicate n a) (List.replicate m a) = n := by
  induction n generalizing m with
  | zero => rfl
  | succ n ih =>
    obtain ⟨m, rfl⟩ : ∃ k, m = k + 1 := ⟨m - 1, by omega⟩
    rw [List.replicate_succ, List.replicate_succ, lcpLen, if_pos rfl, ih m (by omega)]

theorem replicate_suffix_array (a : α) (n : Nat) : IsSuffixArray (List.replicate n a) (List.range n).reverse := by
  refine ⟨by rw [List.length_replicate]; exact List.reverse_perm _, ?_⟩
  rw [List.pairwise_reverse]
  refine List.pairwise_lt_range.imp_of_mem fun {i j} hi hj h => ?_
  rw [List.mem_range] at hi hj
  rw [List.drop_replicate, List.drop_replicate, show n - i = (n - j) + (j - i) by omega, List.replicate_add]
  conv_lhs => rw [← List.append_nil (List.replicate (n - j) a)]
  rw [append_lt_left]
  obtain ⟨k, hk⟩ : ∃ k, j - i = k + 1 := ⟨j - i - 1, by omega⟩
  rw [hk, List.replicate_succ]
  exact List.nil_lt_cons _ _

/-- C133: the first wrong value: in a text of `2^32 + 1` equal letters the suffixes 1 and 0 have `2^32` letters in common, and
`compute_plcp` says none. -/
theorem C133_lcp_refuted (a : α) (n : Nat) (hn : n = 2 ^ 32 + 1) : ∃ sa phi plcp, IsSuffixArray (List.replicate n a) sa ∧
    computePhi sa = .ok phi ∧ computePlcp (List.replicate n a) phi = .ok plcp ∧ sa[n - 2]? = some 1 ∧ sa[n - 1]? = some 0 ∧
    lcpLen ((List.replicate n a).drop 1) ((List.replicate n a).drop 0) = 2 ^ 32 ∧ plcp[0]? = some 0 := by
  have hsa := replicate_suffix_array a n
  obtain ⟨phi, plcp, lcp, h1, h2, -, -, h3, -⟩ := C133_lcp (List.replicate n a) (by rw [Ne, List.replicate_eq_nil_iff]; omega) _ hsa
  have e1 : (List.range n).reverse[n - 2]? = some 1 := by
    rw [List.getElem?_reverse (by rw [List.length_range]; omega), List.length_range, List.getElem?_range (by omega)]
    congr 1; omega
  have e2 : (List.range n).reverse[n - 1]? = some 0 := by
    rw [List.getElem?_reverse (by rw [List.length_range]; omega), List.length_range, List.getElem?_range (by omega)]
    congr 1; omega
  have e3 : lcpLen ((List.replicate n a).drop 1) ((List.replicate n a).drop 0) = 2 ^ 32 := by
    rw [List.drop_replicate, List.drop_replicate, lcpLen_replicate a _ _ (by omega)]
    omega
  refine ⟨_, phi, plcp, hsa, h1, h2, e1, e2, e3, ?_⟩
  have := (h3 (n - 2) 1 0 e1 (by rw [show n - 2 + 1 = n - 1 by omega]; exact e2)).1
  rw [this, e3, Nat.mod_self]

example := C133_lcp_refuted (97 : UInt8) _ rfl

/-- C133: `compute_psv` never panics or hangs on a non-empty array of any length; all entries below index `2^32` are right, and the entry
at index `2^32` always says that there is no smaller value. -/
theorem C133_psv (arr : List α) (hne : arr ≠ []) : ∃ psv, computePsv arr = .ok psv ∧ psv.length = arr.length ∧
    (∀ i, i < arr.length → i < 2 ^ 32 → ∃ v, psv[i]? = some v ∧ IsPsv (2 ^ 32 - 1) arr i v) ∧
    (2 ^ 32 < arr.length → psv[2 ^ 32]? = some (2 ^ 32 - 1)) := by
  obtain ⟨psv, h1, h2, h3⟩ := computePsv_big (List.length_pos_iff.2 hne)
  refine ⟨psv, h1, h2, fun i hi hlt => ?_, fun h => ?_⟩
  · obtain ⟨v, g1, g2, -⟩ := h3 i hi
    exact ⟨v, g1, g2 hlt⟩
  · obtain ⟨v, g1, -, g2, -⟩ := h3 (2 ^ 32) h
    rw [g1, g2 rfl]
    rfl

example := C133_psv [3, 1, 2, 2, 5, 1] (by decide)

/-- C133: so the entry at index `2^32` is wrong whenever the value before is not smaller but an earlier one is, and every later entry is
wrong (a position truncated to 32 bits) whose predecessor is smaller. -/
theorem C133_psv_refuted (arr : List α) (hlen : 2 ^ 32 < arr.length) : ∃ psv, computePsv arr = .ok psv ∧
    (∀ j x y z, j < 2 ^ 32 - 1 → arr[j]? = some x → arr[2 ^ 32]? = some y → arr[2 ^ 32 - 1]? = some z → x < y → y ≤ z →
      ¬ ∃ v, psv[2 ^ 32]? = some v ∧ IsPsv (2 ^ 32 - 1) arr (2 ^ 32) v) ∧
    ∀ i x y, 2 ^ 32 < i → arr[i - 1]? = some x → arr[i]? = some y → x < y →
      psv[i]? = some ((i - 1) % 2 ^ 32) ∧ ¬ IsPsv (2 ^ 32 - 1) arr i ((i - 1) % 2 ^ 32) := by
  obtain ⟨psv, h1, h2, h3⟩ := computePsv_big (arr := arr) (by omega)
  refine ⟨psv, h1, ?_, ?_⟩
  · rintro j x y z hj hx hy hz hxy hyz ⟨v, e1, w, e2, e3⟩
    obtain ⟨v', g1, -, g2, -⟩ := h3 (2 ^ 32) hlen
    rw [e1] at g1
    obtain rfl : v = v' := Option.some.inj g1
    have hv : v = 4294967295 := g2 rfl
    rw [hy] at e2
    obtain rfl := Option.some.inj e2
    rcases e3 with ⟨-, h⟩ | ⟨-, ⟨u, hu, hlt⟩, -⟩
    · exact absurd hxy (not_lt.2 (h j x (by omega) hx))
    · rw [hv] at hu
      have hzz : arr[4294967295]? = some z := hz
      rw [hu] at hzz
      obtain rfl := Option.some.inj hzz
      exact absurd hlt (not_lt.2 hyz)
  · intro i x y hi1 hx hy hxy
    have hi2 := (List.getElem?_eq_some_iff.1 hy).1
    obtain ⟨v, g1, -, -, g3, -⟩ := h3 i hi2
    refine ⟨g1.trans (congrArg some (g3 _ _ hi1 hx hy hxy)), ?_⟩
    rintro ⟨w, e2, e3⟩
    rw [hy] at e2
    obtain rfl := Option.some.inj e2
    rcases e3 with ⟨-, h⟩ | ⟨-, -, h⟩
    · exact absurd hxy (not_lt.2 (h (i - 1) x (by omega) hx))
    · refine absurd hxy (not_lt.2 (h (i - 1) x ?_ (by omega) hx))
      have := Nat.mod_lt (i - 1) (show 0 < 2 ^ 32 by decide)
      omega

example (n : Nat) (hn : n = 2 ^ 32 + 2) : ∃ psv, computePsv (List.range n) = .ok psv ∧ psv[2 ^ 32 + 1]? = some 0 := by
  obtain ⟨psv, h1, -, h2⟩ := C133_psv_refuted (List.range n) (by rw [List.length_range]; omega)
  refine ⟨psv, h1, ?_⟩
  rw [(h2 (2 ^ 32 + 1) (2 ^ 32) (2 ^ 32 + 1) (by omega) (by rw [List.getElem?_range (by omega)]; rfl)
    (by rw [List.getElem?_range (by omega)]) (by omega)).1]
  rfl

/-- C133: on an array with exactly `2^32` entries `compute_nsv` ignores the last one: all entries are those of the array without it. -/
theorem C133_nsv (arr : List α) (hlen : arr.length = 2 ^ 32) : ∃ nsv, computeNsv arr = .ok nsv ∧ nsv.length = arr.length ∧
    nsv[2 ^ 32 - 1]? = some (2 ^ 32 - 1) ∧
    ∀ i, i < 2 ^ 32 - 1 → ∃ v, nsv[i]? = some v ∧ IsNsv (2 ^ 32 - 1) (arr.take (2 ^ 32 - 1)) i v := by
  obtain ⟨nsv, h1, h2, h3, h4⟩ := computeNsv_last hlen
  exact ⟨nsv, h1, h2, h3, h4⟩

example (n : Nat) (hn : n = 2 ^ 32) : ∃ nsv, computeNsv (List.range n).reverse = .ok nsv ∧ nsv.length = n := by
  obtain ⟨nsv, h1, h2, -⟩ := C133_nsv (List.range n).reverse (by rw [List.length_reverse, List.length_range]; exact hn)
  exact ⟨nsv, h1, by rw [h2, List.length_reverse, List.length_range]⟩

/-- C133: with two entries more it can loop for ever: on `2^32 + 1` equal entries followed by a smaller one, the loop for index `2^32 - 1`
never ends, however many rounds it is given. -/
theorem C133_nsv_hangs (n : Nat) (hn : n = 2 ^ 32) (a b : α) (hab : b < a) :
    computeNsv (List.replicate (n + 1) a ++ [b]) = .error .fuel ∧
    ∃ nsv, nsv.length = n + 2 ∧ ∀ fuel, jump (List.replicate (n + 1) a ++ [b]) nsv (n - 1) fuel n = .error .fuel := by
  obtain ⟨h1, h2⟩ := nsv_hangs hn a b hab
  refine ⟨h2, _, ?_, h1⟩
  rw [List.length_set, List.length_set, List.length_set, List.length_replicate]

example := C133_nsv_hangs _ rfl (1 : Nat) 0 (by decide)

end Verif.Props
