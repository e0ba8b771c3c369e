import Verif.Lemmas.Mus
import Verif.Props.Bwt

/-! # Properties C23-C24: minimal unique substrings (`src/bin/mus.rs`)

The specification (`OccursAt`, `Repeats`, `IsMus`) is in `Verif/Spec/Mus.lean`. -/

namespace Verif.Props

open Verif Spec Model

/-- C23: on the arrays of a zero-free text `T` followed by a zero byte, `get_mus` does not panic and
returns, by strictly increasing position, exactly the minimal unique substrings of `T`. -/
theorem C23_get_mus_exact (sufsort : List UInt8 → List Nat) (hs : SortsSuffixes sufsort)
    (T : List UInt8) (hT : ∀ x ∈ T, x ≠ 0) (hlen : T.length < 2147483647) :
    ∃ isa phi plcp lcp r, inversePermutation 2147483647 (sufsort (T ++ [0])) = .ok isa ∧
      computePhi (sufsort (T ++ [0])) = .ok phi ∧ computePlcp (T ++ [0]) phi = .ok plcp ∧
      computeLcp plcp (sufsort (T ++ [0])) = .ok lcp ∧
      getMus (sufsort (T ++ [0])) isa lcp = .ok r ∧
      r.Pairwise (fun a b => a.1 < b.1) ∧ ∀ i l, (i, l) ∈ r ↔ IsMus T i l := by
  obtain ⟨isa, phi, plcp, lcp, h1, h2, h3, h4, A⟩ := musArrays_build (t := T ++ [0]) (by simp)
    (by simp; omega) (hs _ (by simp; omega))
  obtain ⟨r, h5, h6, h7⟩ := (getMus_ok A (by simp)).2 (sentinel_no_repeat hT)
  exact ⟨isa, phi, plcp, lcp, r, h1, h2, h3, h4, h5, h6, fun i l => by
    rw [h7, isMus_snoc hT]⟩

example := C23_get_mus_exact naiveSufsort naiveSufsort_sorts [97, 98, 97, 97, 98, 97, 98, 97] (by decide) (by decide)

/-- Concrete case: the Fibonacci word `abaababa` has the two minimal unique substrings `aa` and `bab`. -/
example : musTool naiveSufsort ([97, 98, 97, 97, 98, 97, 98, 97] ++ [0]) = .ok [(2, 2), (4, 3)] := by
  decide

private theorem repeats_suffix_iff {t : List UInt8} :
    (∃ v, v <:+ t ∧ 2 ≤ v.length ∧ Repeats v t) ↔
      ∃ i j, i + 1 < t.length ∧ j ≠ i ∧ Occ t j i (t.length - i) := by
  constructor
  · rintro ⟨v, hv, hl, j, k, hjk, hj, hk⟩
    have hle := hv.length_le
    have e := List.suffix_iff_eq_drop.1 hv
    have e2 : v = (t.drop (t.length - v.length)).take (t.length - (t.length - v.length)) := by
      rw [← e, List.take_of_length_le]; omega
    rw [e2, occursAt_take (by omega)] at hj hk
    by_cases h : j = t.length - v.length
    · exact ⟨t.length - v.length, k, by omega, by omega, hk⟩
    · exact ⟨t.length - v.length, j, by omega, h, hj⟩
  · rintro ⟨i, j, hi, hj, ho⟩
    have e2 : t.drop i = (t.drop i).take (t.length - i) := by
      rw [List.take_of_length_le]; simp
    refine ⟨t.drop i, List.drop_suffix _ _, by simp; omega, j, i, hj, ?_, ?_⟩ <;>
      rw [e2, occursAt_take (by omega)]
    · exact ho
    · exact ⟨by omega, by omega, fun _ _ => rfl⟩

/-- C24 (partial): what the tool prints for a non-empty input (to which it does *not* append a sentinel).
It stops with a failed assertion exactly if some suffix of length at least two occurs twice; otherwise it
prints, by increasing position, exactly the minimal unique substrings that do not contain the last byte.
Missing (false, see below): no panic, and the minimal unique substrings that contain the last byte. -/
theorem C24_mus_tool_partial (sufsort : List UInt8 → List Nat) (hs : SortsSuffixes sufsort)
    (text : List UInt8) (h0 : text ≠ []) (hlen : text.length < 2147483648) :
    ((∃ v, v <:+ text ∧ 2 ≤ v.length ∧ Repeats v text) → musTool sufsort text = .error .assert) ∧
    ((¬ ∃ v, v <:+ text ∧ 2 ≤ v.length ∧ Repeats v text) →
      ∃ r, musTool sufsort text = .ok r ∧ r.Pairwise (fun a b => a.1 < b.1) ∧
        ∀ i l, (i, l) ∈ r ↔ IsMus text i l ∧ i + l < text.length) := by
  rw [repeats_suffix_iff]
  exact musTool_ok hs h0 hlen

/-- `abab` has a repeating suffix of length 2, `aab` has none. -/
example : musTool naiveSufsort [97, 98, 97, 98] = .error .assert :=
  (C24_mus_tool_partial naiveSufsort naiveSufsort_sorts [97, 98, 97, 98] (by decide) (by decide)).1
    ⟨[97, 98], ⟨[97, 98], rfl⟩, by decide, 0, 2, by decide, ⟨by decide, by decide⟩, ⟨by decide, by decide⟩⟩

example := (C24_mus_tool_partial naiveSufsort naiveSufsort_sorts [97, 97, 98] (by decide) (by decide)).2

/-- C24 is false: the tool panics on `abab`, and prints nothing for `aa`, whose only minimal unique
substring is `aa`. -/
theorem C24_mus_tool_refuted :
    musTool naiveSufsort [97, 98, 97, 98] = .error .assert ∧
    musTool naiveSufsort [97, 97] = .ok [] ∧ IsMus [(97 : UInt8), 97] 0 2 := by
  refine ⟨by decide, by decide, by decide, by decide, ?_, ?_⟩
  · rintro j ⟨h, -⟩
    simp at h; omega
  · intro v hv h1 h2
    have hl := hv.length_le
    have hne : v.length ≠ 2 := fun h => h1 (hv.eq_of_length (by simpa using h))
    have h0 : v.length ≠ 0 := by simpa using h2
    obtain ⟨x, rfl⟩ : ∃ x, v = [x] := List.length_eq_one_iff.1 (by simp at hl; omega)
    have hx : x = 97 := by
      have := hv.subset (List.mem_singleton.2 rfl)
      simpa using this
    subst hx
    exact ⟨0, 1, by decide, ⟨by decide, by decide⟩, ⟨by decide, by decide⟩⟩

/-- Concrete non-panicking case: `aab`: the minimal unique substring `aa`, but not the `b` at the end. -/
example : musTool naiveSufsort [97, 97, 98] = .ok [(0, 2)] := by decide

end Verif.Props
