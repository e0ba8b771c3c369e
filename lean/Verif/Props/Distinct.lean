import Verif.Lemmas.Distinct

/-! # Property C59: `number_distinct_lyndon_factors` -/

namespace Verif.Props

open Verif Spec Model

variable {α : Type} [LinearOrder α]

/-- The first two words of the list have the same length and differ in their last letter only. -/
def FirstTwoDifferAtEnd (fs : List (List α)) : Prop :=
  ∃ x a b rest, a ≠ b ∧ fs = (x ++ [a]) :: (x ++ [b]) :: rest

/-- C59, exact value for every text: the function returns the number of different words among the Lyndon
factors, except that it returns one less if the first two factors have the same length and differ in
their last letter only.  (What is missing for C59: that exception, where the claim is false.) -/
theorem C59_distinct_partial (text : List α) (fs : List (List α)) (h : IsLyndonFactorization fs text) :
    ∃ r, numberDistinctLyndonFactors text = .ok r ∧
      (¬ FirstTwoDifferAtEnd fs → r = fs.toFinset.card) ∧
      (FirstTwoDifferAtEnd fs → r + 1 = fs.toFinset.card) := by
  match fs, h with
  | [], h =>
    refine ⟨0, ?_, by simp [FirstTwoDifferAtEnd], by simp [FirstTwoDifferAtEnd]⟩
    have : text = [] := by rw [← h.1]; simp
    simp [numberDistinctLyndonFactors, this, pure_ok]
  | [f], h =>
    exact ⟨1, numberDistinct_one h, by simp [FirstTwoDifferAtEnd], by simp [FirstTwoDifferAtEnd]⟩
  | u :: v :: rest, h =>
    refine ⟨_, numberDistinct_two h, ?_⟩
    have hu := (h.2.1 u (by simp)).1
    have hv := (h.2.1 v (by simp)).1
    rw [card_sorted _ _ h.2.2, adj]
    constructor
    · intro hex
      by_cases huv : u = v
      · subst huv; simp
      · rw [if_neg, if_neg huv]; omega
        rintro ⟨_, hd⟩
        apply hex
        refine ⟨u.dropLast, u.getLast hu, v.getLast hv, rest, ?_, ?_⟩
        · intro hl
          apply huv
          rw [← List.dropLast_append_getLast hu, ← List.dropLast_append_getLast hv, hd, hl]
        · rw [List.dropLast_append_getLast hu, hd, List.dropLast_append_getLast hv]
    · rintro ⟨x, a, b, rest', hab, he⟩
      injection he with h1 h2
      injection h2 with h2 h3
      subst h1 h2
      rw [if_pos (by simp), if_neg (by simpa using hab)]; omega

example := C59_distinct_partial [2, 1, 3, 1, 3, 1] [[2], [1, 3], [1, 3], [1]] (by decide +kernel)

/-- C59 is false: on `ba`, whose Lyndon factors are the two words `b` and `a`, it returns 1. -/
theorem C59_refuted :
    ∃ (text : List UInt8) (fs : List (List UInt8)), IsLyndonFactorization fs text ∧
      fs.toFinset.card = 2 ∧ numberDistinctLyndonFactors text = .ok 1 :=
  ⟨[98, 97], [[98], [97]], by decide, by decide, by decide⟩

example : numberDistinctLyndonFactors ([98, 97, 97, 97] : List UInt8) = .ok 1 := by decide
example : numberDistinctLyndonFactors ([97, 98, 97, 98, 97] : List UInt8) = .ok 2 := by decide
example : IsLyndonFactorization [[97, 98], [97, 98], [97]] ([97, 98, 97, 98, 97] : List UInt8) := by
  decide

end Verif.Props
