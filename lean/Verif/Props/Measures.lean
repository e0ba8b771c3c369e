import Verif.Props.LzAttractor
import Verif.Props.Mains
import Verif.Lemmas.RunAttractor
import Mathlib.Data.Finset.Prod

/-! # C81, C82: the repetitiveness measures computed by the tools bound each other -/

namespace Verif.Props

open Verif Spec Model

theorem attractor_complexity {T : List UInt8} {positions : List Nat} (h : IsAttractor T positions) (k : Nat)
    (hk : 0 < k) : substringCount T k ≤ k * positions.toFinset.card := by
  classical
  have hsub : ((List.range (T.length + 1 - k)).map (fun i => (T.drop i).take k)).toFinset ⊆
      (Finset.range k ×ˢ positions.toFinset).image (fun q => (T.drop (q.2 - q.1)).take k) := by
    intro v hv
    rw [List.mem_toFinset, List.mem_map] at hv
    obtain ⟨i, hi, rfl⟩ := hv
    rw [List.mem_range] at hi
    have hl : ((T.drop i).take k).length = k := by rw [List.length_take, List.length_drop]; omega
    obtain ⟨j, hj, p, hp, h1, h2⟩ := h ((T.drop i).take k) (by intro h0; rw [h0] at hl; simp at hl; omega)
      ((List.take_prefix _ _).isInfix.trans (List.drop_suffix _ _).isInfix)
    rw [hl] at h2
    rw [Finset.mem_image]
    refine ⟨(p - j, p), ?_, ?_⟩
    · rw [Finset.mem_product, Finset.mem_range, List.mem_toFinset]
      exact ⟨by show p - j < k; omega, hp⟩
    · show (T.drop (p - (p - j))).take k = _
      rw [show p - (p - j) = j by omega]
      have := (List.prefix_iff_eq_take.1 hj.2)
      rw [hl] at this
      exact this.symm
  calc substringCount T k ≤ _ := Finset.card_le_card hsub
    _ ≤ _ := Finset.card_image_le
    _ = _ := by rw [Finset.card_product, Finset.card_range]

/-- C81: if `is_attractor` accepts a set of positions for a non-empty zero-free text (with its sentinel), the text
has at most `k` times as many different substrings of length `k` as there are different positions. -/
theorem C81_attractor_bounds_substrings (sufsort : List UInt8 → List Nat) (hs : SortsSuffixes sufsort)
    (T : List UInt8) (h0 : T ≠ []) (hT : ∀ x ∈ T, x ≠ 0) (hlen : T.length < 2147483647)
    (positions : List Nat) (hp : ∀ p ∈ positions, p < T.length + 1)
    (hacc : isAttractor sufsort (T ++ [0]) positions = .ok true) (k : Nat) (hk : 0 < k) :
    substringCount T k ≤ k * positions.toFinset.card :=
  attractor_complexity ((C25_attractor_exact sufsort hs T h0 hT hlen positions hp).1.1 hacc) k hk

example := C81_attractor_bounds_substrings naiveSufsort naiveSufsort_sorts [97, 98, 97, 97, 98, 97, 98, 97] (by decide) (by decide)
  (by decide) [3, 4] (by decide) (by decide +kernel) 3 (by decide)

/-- C81: every non-empty text has at most `k * z` different substrings of length `k`, where `z` is the number of
factors `count_z` finds. -/
theorem C81_lz77_bounds_substrings (sufsort : List UInt8 → List Nat) (hs : SortsSuffixes sufsort)
    (text : List UInt8) (h0 : text ≠ []) (hlen : text.length < 2147483648) :
    ∃ fs, countZFactors sufsort text = .ok fs ∧ ∀ k, 0 < k → substringCount text k ≤ k * fs.length := by
  obtain ⟨fs, h1, h2⟩ := C20_lz77_greedy sufsort hs text h0 hlen
  have hp := greedy_isParse fs 0 h2
  have hpos : ∀ l ∈ fs.map factorLength, 0 < l := by
    intro l hl
    obtain ⟨f, -, rfl⟩ := List.mem_map.1 hl
    rw [factorLength]; split_ifs <;> omega
  refine ⟨fs, h1, fun k hk => ?_⟩
  have := attractor_complexity (C65_parse_ends_attractor text _ hpos hp) k hk
  have hc := List.toFinset_card_le (phraseEnds 0 (fs.map factorLength))
  rw [phraseEnds_length, List.length_map] at hc
  exact this.trans (Nat.mul_le_mul_left _ hc)

example := C81_lz77_bounds_substrings naiveSufsort naiveSufsort_sorts [97, 98, 97, 97, 98, 97, 98, 97] (by decide) (by decide)

/-- C81, for the letters: the number `count_sigma` reports (for fewer than 256 different bytes) is at most the number
of factors `count_z` reports. -/
theorem C81_sigma_le_z (m : Build) (sufsort : List UInt8 → List Nat) (hs : SortsSuffixes sufsort)
    (text : List UInt8) (h0 : text ≠ []) (hlen : text.length < 2147483648) (hc : text.toFinset.card < 256) :
    ∃ s fs, countSigma m text = .ok s ∧ countZFactors sufsort text = .ok fs ∧ s.toNat ≤ fs.length := by
  obtain ⟨s, h1, h2⟩ := C29_count_sigma_partial m text hc
  obtain ⟨fs, h3, h4⟩ := C81_lz77_bounds_substrings sufsort hs text h0 hlen
  refine ⟨s, fs, h1, h3, ?_⟩
  have := h4 1 (by omega)
  rw [Nat.one_mul] at this
  refine le_trans ?_ this
  rw [h2]
  unfold substringCount
  refine Finset.card_le_card_of_injOn (fun c => [c]) ?_ (by intro a _ b _ h; simpa using h)
  intro c hcm
  have hcm' : c ∈ text := by simpa using hcm
  obtain ⟨i, hi, rfl⟩ := List.mem_iff_getElem.1 hcm'
  simp only [Finset.mem_coe, List.mem_toFinset, List.mem_map, List.mem_range]
  refine ⟨i, by omega, ?_⟩
  rw [List.drop_eq_getElem_cons hi]
  rfl

example := C81_sigma_le_z .checked naiveSufsort naiveSufsort_sorts [97, 98, 97, 97, 98, 97, 98, 97] (by decide) (by decide) (by decide)

/-- Concrete case: `abaababa` has 4 substrings of length 3, and the attractor `{3,4}`. -/
example : substringCount ([97, 98, 97, 97, 98, 97, 98, 97] : List UInt8) 3 = 4 ∧
    isAttractor naiveSufsort ([97, 98, 97, 97, 98, 97, 98, 97] ++ [0]) [3, 4] = .ok true ∧
    countZFactors naiveSufsort [97, 98, 97, 97, 98, 97, 98, 97] = .ok [⟨97, 0⟩, ⟨98, 0⟩, ⟨2, 1⟩, ⟨3, 3⟩, ⟨5, 2⟩] := by
  decide +kernel

/-! ## C82: runs of the Burrows-Wheeler transform -/

/-- C82: for every non-empty zero-free text, mark for each maximal run of its BWT (with sentinel) the text positions
of the first and of the last letter of the run.  `is_attractor` accepts these positions; there are at most twice as
many as the runs `count_r` reports. -/
theorem C82_run_borders_accepted (sufsort : List UInt8 → List Nat) (hs : SortsSuffixes sufsort)
    (T : List UInt8) (h0 : T ≠ []) (hT : ∀ x ∈ T, x ≠ 0) (hlen : T.length < 2147483647) :
    ∃ (r : Nat) (positions : List Nat), countR sufsort false false T = .ok (T.length + 1, r) ∧
      positions.length = 2 * r ∧ (∀ p ∈ positions, p ≤ T.length) ∧ IsAttractor T positions ∧
      isAttractor sufsort (T ++ [0]) positions = .ok true := by
  obtain ⟨b, h1, h2⟩ := bwtFromTextBySa_ok hs (z := 0) hT hlen
  have hsa := hs (T ++ [0]) (by simp; omega)
  have hsl := hsa.length
  have hbl : b.length = T.length + 1 := by
    have := congrArg List.length h2
    rw [List.length_map, List.length_map] at this
    simpa [hsl] using this
  have hbne : b ≠ [] := by intro h; rw [h] at hbl; simp at hbl
  have hruns := (C28_number_of_runs (sliceReader b)).2.2
  rw [delivered_slice] at hruns
  have hr := hruns hbne
  refine ⟨numberOfRuns (sliceReader b),
    (runBorders b).map (fun i => bwtPos (T.length + 1) ((sufsort (T ++ [0])).getD i 0)), ?_, ?_, ?_, ?_⟩
  · simp only [countR, bwtToolTransform, bwtToolText, Bool.false_eq_true, if_false]
    rw [h1, ok_bind, pure_ok, hbl]
  · rw [List.length_map, runBorders_length, hr]
  · intro p hp
    obtain ⟨i, hi, rfl⟩ := List.mem_map.1 hp
    have hib := runBorders_lt hbne hi
    have : (sufsort (T ++ [0])).getD i 0 < (T ++ [(0 : UInt8)]).length := by
      rw [List.getD_eq_getElem?_getD, List.getElem?_eq_getElem (by simp at hsl; omega)]
      exact hsa.mem.1 (List.getElem_mem _)
    rw [List.length_append, List.length_singleton] at this
    unfold bwtPos
    split <;> omega
  · have hA : IsAttractor T ((runBorders b).map (fun i => bwtPos (T.length + 1) ((sufsort (T ++ [0])).getD i 0))) := by
      rintro v hv hin
      obtain ⟨x, y, hxy⟩ := hin
      have hvz : ∀ z ∈ v, z ≠ 0 := fun z hz => hT z (by rw [← hxy]; simp [hz])
      obtain ⟨j', g1, i, s, g2, g3, g4, g5⟩ := runAttractor_occ hT hsa h2 v x.length hv
        (by rw [← hxy]; simp only [List.length_append]; omega)
        (by rw [← hxy, List.append_assoc, List.append_assoc, List.drop_left]; exact List.prefix_append _ _)
      rw [occursAt_snoc hvz hv] at g1
      refine ⟨j', g1, _, List.mem_map.2 ⟨i, mem_runBorders ?_ g3, ?_⟩, g4, g5⟩
      · obtain ⟨q, -⟩ := List.getElem?_eq_some_iff.1 g2
        simp at hsl
        omega
      · rw [List.getD_eq_getElem?_getD, g2]; rfl
    refine ⟨hA, (C25_attractor_exact sufsort hs T h0 hT hlen _ ?_).1.2 hA⟩
    intro p hp
    obtain ⟨i, hi, rfl⟩ := List.mem_map.1 hp
    have hib := runBorders_lt hbne hi
    have : (sufsort (T ++ [0])).getD i 0 < (T ++ [(0 : UInt8)]).length := by
      rw [List.getD_eq_getElem?_getD, List.getElem?_eq_getElem (by simp at hsl; omega)]
      exact hsa.mem.1 (List.getElem_mem _)
    rw [List.length_append, List.length_singleton] at this
    unfold bwtPos
    split <;> omega

example := C82_run_borders_accepted naiveSufsort naiveSufsort_sorts [97, 98, 97, 97, 98, 97, 98, 97] (by decide) (by decide) (by decide)

/-- C82: every non-empty zero-free text has at most `2 * k * r` different substrings of length `k`, where `r` is the
number of runs `count_r` reports. -/
theorem C82_runs_bound_substrings (sufsort : List UInt8 → List Nat) (hs : SortsSuffixes sufsort)
    (T : List UInt8) (h0 : T ≠ []) (hT : ∀ x ∈ T, x ≠ 0) (hlen : T.length < 2147483647) :
    ∃ r, countR sufsort false false T = .ok (T.length + 1, r) ∧
      ∀ k, 0 < k → substringCount T k ≤ 2 * k * r := by
  obtain ⟨r, positions, h1, h2, -, h3, -⟩ := C82_run_borders_accepted sufsort hs T h0 hT hlen
  refine ⟨r, h1, fun k hk => ?_⟩
  have := attractor_complexity h3 k hk
  have hc := List.toFinset_card_le positions
  rw [h2] at hc
  calc substringCount T k ≤ k * positions.toFinset.card := this
    _ ≤ k * (2 * r) := Nat.mul_le_mul_left _ hc
    _ = 2 * k * r := by rw [← Nat.mul_assoc, Nat.mul_comm k 2]

example := C82_runs_bound_substrings naiveSufsort naiveSufsort_sorts [97, 98, 97, 97, 98, 97, 98, 97] (by decide) (by decide) (by decide)

/-- Concrete case: `abaababa` has the BWT `abbb$aaaa` with 4 runs. -/
example : countR naiveSufsort false false [97, 98, 97, 97, 98, 97, 98, 97] = .ok (9, 4) ∧
    bwtTool naiveSufsort false false [97, 98, 97, 97, 98, 97, 98, 97] = .ok [97, 98, 98, 98, 0, 97, 97, 97, 97] := by
  decide +kernel

end Verif.Props
