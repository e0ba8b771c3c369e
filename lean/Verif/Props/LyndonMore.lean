import Verif.Lemmas.LyndonMore

/-! # Properties C03, C04: suffix-array route, least rotation -/

namespace Verif.Props

open Verif Spec Model

variable {α : Type} [LinearOrder α]

/-- C03: for every non-empty text and its suffix array (32-bit entries: at most `2^31` of them), the
inverse permutation exists and `isa_lyndon_factorization` of it equals `duval`. -/
theorem C03_duval_eq_isa (text : List α) (hne : text ≠ []) (hlen : text.length ≤ 2147483648)
    (sa : List Nat) (hsa : IsSuffixArray text sa) :
    ∃ isa es, inversePermutation 2147483647 sa = .ok isa ∧
      isaLyndonFactorization isa = .ok es ∧ duval text = .ok es := by
  obtain ⟨isa, h1, h2⟩ := inversePermutation_ok (tmax := 2147483647) hsa.perm
    (by rw [hsa.length]; omega)
  obtain ⟨fs, h3, h4⟩ := duval_spec text
  exact ⟨isa, ends 0 fs, h1, isaLyndon_ok hne hsa h2 h4, h3⟩

example := C03_duval_eq_isa [2, 1, 3, 1, 3, 1] (by decide) (by decide) [5, 3, 1, 0, 4, 2] (by unfold IsSuffixArray; decide)

example : IsSuffixArray [2, 1, 3, 1, 3, 1] [5, 3, 1, 0, 4, 2] := by
  unfold IsSuffixArray; decide

/-- C04: on every non-empty text `lyndon_conjugate` returns a start position whose rotation is not
larger than any other rotation; if the text is primitive that rotation is a Lyndon word. -/
theorem C04_lyndon_conjugate (text : List α) (hne : text ≠ []) :
    ∃ p, lyndonConjugate text = .ok p ∧ p < text.length ∧
      (∀ q, q < text.length → rot p text ≤ rot q text) ∧
      (Spec.IsPrimitive text → IsLyndon (rot p text)) := by
  obtain ⟨p, h1, h2, h3⟩ := lyndonConjugate_ok hne
  exact ⟨p, h1, h2, h3, fun hp => least_rot_lyndon hp h2 h3⟩

example := C04_lyndon_conjugate [2, 1, 3, 1, 3, 1] (by decide)

/-- C04, empty text: the `unreachable!` at the end is reached. -/
theorem C04_lyndon_conjugate_empty : lyndonConjugate ([] : List α) = .error .explicit :=
  lyndonConjugate_empty

example : lyndonConjugate [2, 1, 3, 1, 3, 1] = .ok 5 ∧ lyndonConjugate [1, 0, 1, 0] = .ok 3 := by
  decide

/-- The word of the example is primitive, so the last part of C04 is not vacuous. -/
example : Spec.IsPrimitive [2, 1, 3, 1, 3, 1] := by
  by_contra h
  obtain ⟨p, h0, h1, h2, h3⟩ := (not_primitive_iff (by simp)).1 h
  simp at h1
  have h4 : p = 1 ∨ p = 2 ∨ p = 3 ∨ p = 4 ∨ p = 5 := by omega
  rcases h4 with rfl | rfl | rfl | rfl | rfl
  · exact absurd (h3 0 (by decide)) (by decide)
  · exact absurd (h3 0 (by decide)) (by decide)
  · exact absurd (h3 0 (by decide)) (by decide)
  · simp at h2
  · simp at h2

end Verif.Props
