import Verif.Lemmas.BwtSa
import Verif.Model.BwtTool

/-! # Properties C12-C16: Burrows-Wheeler transforms

`sufsort` stands for `cdivsufsort::sort_in_place`; every theorem that calls it assumes only its contract
`SortsSuffixes` (it writes the suffix array of every text shorter than `2^31` bytes). -/

namespace Verif.Props

open Verif Spec Model

variable {α : Type} [LinearOrder α]

theorem isMatrixBwt_iff {t b : List α} :
    IsMatrixBwt t b ↔ b.map some = (matrix t).map List.getLast? := by
  constructor
  · rintro ⟨m, hm, h⟩; rw [matrix_unique hm]; exact h
  · intro h; exact ⟨matrix t, matrix_spec t, h⟩

/-- The naive transform is the last column of the sorted rotations (used by the statements below to say
what "the" matrix BWT is). -/
theorem naive_isMatrixBwt (text : List α) :
    ∃ b, bwtByMatrixNaive text = .ok b ∧ IsMatrixBwt text b := by
  obtain ⟨b, h1, h2⟩ := bwtByMatrixNaive_ok text
  exact ⟨b, h1, isMatrixBwt_iff.2 h2⟩

/-- C12: on a text ending with its only zero byte the suffix-array transform returns the last column of
the sorted rotation matrix, exactly as the naive transform does, and it is a rearrangement of the text. -/
theorem C12_bwt_sa_eq_matrix (sufsort : List UInt8 → List Nat) (hs : SortsSuffixes sufsort)
    (w : List UInt8) (hw : ∀ x ∈ w, x ≠ 0) (hlen : w.length < 2147483647) :
    ∃ b, bwtFromTextBySa sufsort (w ++ [0]) = .ok b ∧ bwtByMatrixNaive (w ++ [0]) = .ok b ∧
      IsMatrixBwt (w ++ [0]) b ∧ b.Perm (w ++ [0]) := by
  obtain ⟨b, h1, h2⟩ := bwtFromTextBySa_ok hs (z := 0) hw hlen
  have hm := sa_matrix (z := 0) (fun h => hw 0 h rfl) (hs (w ++ [0]) (by simp; omega))
  have h3 : b.map some = (matrix (w ++ [0])).map List.getLast? := by
    rw [hm, h2, List.map_map]; rfl
  obtain ⟨c, h4, h5⟩ := bwtByMatrixNaive_ok (w ++ [0])
  have : b = c := map_some_inj (h3.trans h5.symm)
  subst this
  exact ⟨b, h1, h4, isMatrixBwt_iff.2 h3, matrix_last_perm h3⟩

/-- C12, panics: the empty text and every text with a zero byte before its last position. -/
theorem C12_bwt_sa_panics (sufsort : List UInt8 → List Nat) :
    bwtFromTextBySa sufsort [] = .error .arith ∧
    ∀ (text : List UInt8) (i : Nat), i + 1 < text.length → text[i]? = some 0 →
      bwtFromTextBySa sufsort text = .error .assert :=
  ⟨rfl, fun _ _ h1 h2 => bwtFromTextBySa_zero sufsort h1 h2⟩

/-- A sorter meeting the contract exists (so the hypotheses can be met): the naive one. -/
def naiveSufsort (t : List UInt8) : List Nat :=
  match suffixarrayNaive t with
  | .ok sa => sa
  | .error _ => []

theorem naiveSufsort_sorts : SortsSuffixes naiveSufsort := by
  intro t _
  obtain ⟨sa, h1, h2⟩ := suffixarrayNaive_ok t
  simpa [naiveSufsort, h1] using h2

example := C12_bwt_sa_eq_matrix naiveSufsort naiveSufsort_sorts [98, 97, 110, 97, 110, 97] (by decide) (by decide)

/-- Concrete case: `banana$`. -/
example : bwtFromTextBySa naiveSufsort ([98, 97, 110, 97, 110, 97] ++ [0]) =
    .ok [97, 110, 110, 98, 0, 97, 97] := by decide

/-- C13: the naive transform never panics, rearranges the text, and two texts have the same transform
exactly if they are rotations of one another. -/
theorem C13_matrix_bwt_conjugacy (s t : List α) :
    ∃ b c, bwtByMatrixNaive s = .ok b ∧ bwtByMatrixNaive t = .ok c ∧ b.Perm s ∧ c.Perm t ∧
      (b = c ↔ Conj s t) := by
  obtain ⟨b, h1, h2⟩ := bwtByMatrixNaive_ok s
  obtain ⟨c, h3, h4⟩ := bwtByMatrixNaive_ok t
  refine ⟨b, c, h1, h3, matrix_last_perm h2, matrix_last_perm h4, ?_, ?_⟩
  · rintro rfl
    exact conj_of_matrix_eq (matrix_eq_of_last h2 h4)
  · intro h
    apply map_some_inj
    rw [h2, h4, matrix_of_conj h]

example : bwtByMatrixNaive [2, 1, 2, 1, 3] = bwtByMatrixNaive [1, 3, 2, 1, 2] ∧
    Conj [2, 1, 2, 1, 3] [1, 3, 2, 1, 2] ∧
    bwtByMatrixNaive [2, 1, 2, 1, 3] ≠ bwtByMatrixNaive [2, 2, 1, 1, 3] := by
  refine ⟨by decide, ⟨2, by decide, by decide⟩, by decide⟩

/-- C14: the default output of the `bwt` tool determines its zero-free input. -/
theorem C14_sentinel_bwt_injective (sufsort : List UInt8 → List Nat) (hs : SortsSuffixes sufsort)
    (s t : List UInt8) (hs0 : ∀ x ∈ s, x ≠ 0) (ht0 : ∀ x ∈ t, x ≠ 0)
    (hsl : s.length < 2147483647) (htl : t.length < 2147483647)
    (h : bwtFromTextBySa sufsort (s ++ [0]) = bwtFromTextBySa sufsort (t ++ [0])) : s = t := by
  obtain ⟨b, hb1, -, hb2, -⟩ := C12_bwt_sa_eq_matrix sufsort hs s hs0 hsl
  obtain ⟨c, hc1, -, hc2, -⟩ := C12_bwt_sa_eq_matrix sufsort hs t ht0 htl
  rw [hb1, hc1] at h
  injection h with h
  subst h
  obtain ⟨i, hi, e⟩ := conj_of_matrix_eq (matrix_eq_of_last (isMatrixBwt_iff.1 hb2)
    (isMatrixBwt_iff.1 hc2))
  -- the zero byte sits at the end of both, so the rotation is trivial
  have hlen : s.length = t.length := by
    have := congrArg List.length e
    rw [rot_length] at this
    simpa using this
  rcases Nat.eq_zero_or_pos i with h0 | h0
  · subst h0
    rw [rot_zero] at e
    exact (List.append_inj e hlen).1
  · rcases Nat.lt_or_ge i (t.length + 1) with hi' | hi'
    · exfalso
      have e1 := congrArg List.getLast? e
      rw [rot_getLast (by simp; omega)] at e1
      have e2 : (i + (t ++ [(0 : UInt8)]).length - 1) % (t ++ [(0 : UInt8)]).length = i - 1 := by
        rw [List.length_append, List.length_singleton,
          show i + (t.length + 1) - 1 = i - 1 + (t.length + 1) by omega, Nat.add_mod_right,
          Nat.mod_eq_of_lt (by omega)]
      rw [e2, List.getElem?_append_left (by omega)] at e1
      simp at e1
      exact ht0 0 (List.mem_of_getElem? e1.symm) rfl
    · have : i = (t ++ [(0 : UInt8)]).length := by simp at hi ⊢; omega
      rw [this, rot_self] at e
      exact (List.append_inj e hlen).1

example (s : List UInt8) (h0 : ∀ x ∈ s, x ≠ 0) (hl : s.length < 2147483647)
    (h : bwtFromTextBySa naiveSufsort (s ++ [0]) = bwtFromTextBySa naiveSufsort ([98, 97, 110] ++ [0])) : s = [98, 97, 110] :=
  C14_sentinel_bwt_injective naiveSufsort naiveSufsort_sorts s [98, 97, 110] h0 (by decide) hl (by decide) h

/-- Concrete case for C14: two different texts that are rotations of one another are told apart. -/
example : bwtFromTextBySa naiveSufsort ([97, 98] ++ [0]) ≠
    bwtFromTextBySa naiveSufsort ([98, 97] ++ [0]) := by decide

/-- C15: the fast matrix transform equals the naive one on every non-empty zero-free text. -/
theorem C15_fast_matrix_eq_naive (sufsort : List UInt8 → List Nat) (hs : SortsSuffixes sufsort)
    (text : List UInt8) (hne : text ≠ []) (h0 : ∀ x ∈ text, x ≠ 0)
    (hlen : text.length < 2147483647) :
    ∃ b, bwtByMatrix sufsort text = .ok b ∧ bwtByMatrixNaive text = .ok b ∧ IsMatrixBwt text b := by
  obtain ⟨b, h1, h2⟩ := bwtByMatrix_ok hs hne h0 hlen
  obtain ⟨c, h3, h4⟩ := bwtByMatrixNaive_ok text
  have : b = c := map_some_inj (h2.trans h4.symm)
  subst this
  exact ⟨b, h1, h3, isMatrixBwt_iff.2 h2⟩

example := C15_fast_matrix_eq_naive naiveSufsort naiveSufsort_sorts [98, 97, 110, 97, 110, 97] (by decide) (by decide) (by decide)

/-- C15, panics: every text containing a zero byte makes the fast transform panic, and so does the empty
text. -/
theorem C15_fast_matrix_zero_panics (sufsort : List UInt8 → List Nat) (text : List UInt8)
    (h0 : 0 ∈ text) : bwtByMatrix sufsort text = .error .assert := by
  have hne : text ≠ [] := by rintro rfl; simp at h0
  obtain ⟨p, hp1, hp2, -⟩ := lyndonConjugate_ok hne
  simp only [bwtByMatrix]
  rw [show assertR (decide (text.length > 0)) = .ok () by
    simp [assertR, List.length_pos_iff.2 hne], ok_bind, hp1, ok_bind, if_pos hp2.le]
  rw [show text.drop p ++ text.take p = rot p text from rfl]
  obtain ⟨i, hi, e⟩ := List.getElem_of_mem ((rot_perm p text).mem_iff.2 h0)
  rw [bwtFromTextBySa_zero (i := i) sufsort (by simp; omega)
    (by rw [List.getElem?_append_left hi, List.getElem?_eq_getElem hi, e])]
  rfl

example := C15_fast_matrix_zero_panics naiveSufsort [98, 0, 97] (by decide)

theorem C15_fast_matrix_empty (sufsort : List UInt8 → List Nat) :
    bwtByMatrix sufsort [] = .error .assert := rfl

/-- Concrete case, with a non-primitive text whose least rotation occurs twice. -/
example : bwtByMatrix naiveSufsort [98, 97, 98, 97] = .ok [98, 98, 97, 97] ∧
    bwtByMatrixNaive ([98, 97, 98, 97] : List UInt8) = .ok [98, 98, 97, 97] := by decide

/-- C16 as claimed: whatever the flags, the tool's output is the rotation-matrix BWT of the text it works
on. -/
def C16_claim (sufsort : List UInt8 → List Nat) : Prop :=
  ∀ (useMatrix noDollar : Bool) (input : List UInt8), input ≠ [] → (∀ x ∈ input, x ≠ 0) →
    input.length < 2147483646 →
    ∃ b, bwtTool sufsort useMatrix noDollar input = .ok b ∧
      IsMatrixBwt (if noDollar then input else input ++ [0]) b

/-- C16 is false of the code for two of the four flag combinations:
`--use-matrix` without `--no-dollar` panics on every zero-free input of 99 bytes or more, because the
appended dollar reaches the zero check of `bwt_by_matrix`. -/
theorem C16_matrix_dollar_panics (sufsort : List UInt8 → List Nat) (input : List UInt8)
    (hlen : 99 ≤ input.length) : bwtTool sufsort true false input = .error .assert := by
  simp only [bwtTool, bwtToolText, bwtToolTransform, Bool.false_eq_true, if_true, if_false]
  rw [if_neg (by simp; omega)]
  exact C15_fast_matrix_zero_panics sufsort _ (by simp)

example := C16_matrix_dollar_panics naiveSufsort (List.replicate 100 97) (by decide)

/-- The claim fails. -/
theorem C16_claim_false (sufsort : List UInt8 → List Nat) : ¬ C16_claim sufsort := by
  intro h
  obtain ⟨b, hb, -⟩ := h true false (List.replicate 99 97) (by simp) (by
    intro x hx; rw [List.eq_of_mem_replicate hx]; decide) (by simp)
  rw [C16_matrix_dollar_panics sufsort _ (by simp)] at hb
  simp at hb

/-- The other failing combination, `--no-dollar` without `--use-matrix`: the suffix-array BWT of `bab`
is not the matrix BWT. -/
theorem C16_nodollar_sa_differs : ∃ b, bwtTool naiveSufsort false true [98, 97, 98] = .ok b ∧
    ¬ IsMatrixBwt [98, 97, 98] b := by
  refine ⟨[98, 97, 98], by decide, ?_⟩
  intro h
  obtain ⟨c, h1, h2⟩ := naive_isMatrixBwt ([98, 97, 98] : List UInt8)
  have h3 : bwtByMatrixNaive ([98, 97, 98] : List UInt8) = .ok [98, 98, 97] := by decide
  rw [h3] at h1
  injection h1 with h1
  subst h1
  have := map_some_inj ((isMatrixBwt_iff.1 h).trans (isMatrixBwt_iff.1 h2).symm)
  exact absurd this (by decide)

/-- C16, the part that holds: the two sensible combinations always succeed, and `--use-matrix` with the
dollar does for inputs shorter than 99 bytes.  (Missing with respect to the claim: the two combinations
refuted above.) -/
theorem C16_tools_partial (sufsort : List UInt8 → List Nat) (hs : SortsSuffixes sufsort)
    (useMatrix noDollar : Bool) (input : List UInt8) (hne : input ≠ []) (h0 : ∀ x ∈ input, x ≠ 0)
    (hlen : input.length < 2147483646)
    (hflags : useMatrix = noDollar ∨ (useMatrix = true ∧ input.length < 99)) :
    ∃ b, bwtTool sufsort useMatrix noDollar input = .ok b ∧
      IsMatrixBwt (if noDollar then input else input ++ [0]) b ∧
      countR sufsort useMatrix noDollar input =
        .ok ((if noDollar then input else input ++ [0]).length, numberOfRuns (sliceReader b)) := by
  have key : ∃ b, bwtTool sufsort useMatrix noDollar input = .ok b ∧
      IsMatrixBwt (if noDollar then input else input ++ [0]) b := by
    cases useMatrix <;> cases noDollar
    · obtain ⟨b, h1, -, h2, -⟩ := C12_bwt_sa_eq_matrix sufsort hs input h0 (by omega)
      exact ⟨b, by simpa [bwtTool, bwtToolText, bwtToolTransform] using h1, by simpa using h2⟩
    · simp at hflags
    · simp at hflags
      obtain ⟨b, h1, h2⟩ := naive_isMatrixBwt (input ++ [0])
      refine ⟨b, ?_, by simpa using h2⟩
      simp only [bwtTool, bwtToolText, bwtToolTransform, Bool.false_eq_true, if_true, if_false]
      rw [if_pos (by simp; omega), h1]
    · obtain ⟨b, h1, h2⟩ := naive_isMatrixBwt input
      refine ⟨b, ?_, by simpa using h2⟩
      simp only [bwtTool, bwtToolText, bwtToolTransform, if_true]
      split
      · exact h1
      · obtain ⟨c, h3, h4, -⟩ := C15_fast_matrix_eq_naive sufsort hs input hne h0 (by omega)
        rw [h1] at h4; injection h4 with h4; subst h4; exact h3
  obtain ⟨b, h1, h2⟩ := key
  refine ⟨b, h1, h2, ?_⟩
  have hl : b.length = (if noDollar then input else input ++ [0]).length :=
    (matrix_last_perm (isMatrixBwt_iff.1 h2)).length_eq
  simp only [countR]
  rw [show bwtToolTransform sufsort useMatrix (bwtToolText noDollar input) = .ok b from h1, ok_bind,
    hl]
  rfl

example := C16_tools_partial naiveSufsort naiveSufsort_sorts true true [98, 97, 110, 97] (by decide) (by decide) (by decide)
  (Or.inl rfl)
example := C16_tools_partial naiveSufsort naiveSufsort_sorts true false [98, 97, 110, 97] (by decide) (by decide) (by decide)
  (Or.inr ⟨rfl, by decide⟩)

example : bwtTool naiveSufsort true true [98, 97, 98] = .ok [98, 98, 97] ∧
    countR naiveSufsort false false [98, 97, 97] = .ok (4, 3) := by decide

end Verif.Props
