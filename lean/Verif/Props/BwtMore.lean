import Verif.Lemmas.BwtNecklace
import Verif.Props.Bbwt
import Verif.Props.Bwt

/-! # C66: all transforms agree on least rotations; C16: what `--no-dollar` writes

The TODO at the end of `src/unfinished/parallel.rs` (lines 455-459) states that for the Lyndon conjugate `L` of a
text the BWT and the BBWT are identical and that the suffix-array BWT of `L$` equals the matrix BWT of `L` after
removing the `$`. -/

namespace Verif.Props

open Verif Spec Model

/-- C66, bijective transform: on every non-empty necklace (not larger than any of its rotations; primitive or
not) the bijective transform is the matrix BWT. -/
theorem C66_bbwt_necklace {α : Type} [LinearOrder α] (L : List α) (hne : L ≠ []) (hL : IsNecklace L) :
    ∃ b, bbwtNaive L = .ok b ∧ bwtByMatrixNaive L = .ok b ∧ IsMatrixBwt L b := by
  obtain ⟨b, h1, h2⟩ := bbwt_necklace hne hL
  obtain ⟨c, h3, h4⟩ := bwtByMatrixNaive_ok L
  have : b = c := map_some_inj (h2.trans h4.symm)
  subst this
  exact ⟨b, h1, h3, isMatrixBwt_iff.2 h2⟩

example := C66_bbwt_necklace [1, 1, 2, 1, 1, 2] (by decide) (by unfold IsNecklace; decide +kernel)

/-- C66, without sentinel: on a zero-free necklace the suffix-array BWT needs no sentinel. -/
theorem C66_sa_necklace (sufsort : List UInt8 → List Nat) (hs : SortsSuffixes sufsort) (L : List UInt8)
    (hne : L ≠ []) (hz : ∀ x ∈ L, x ≠ 0) (hL : IsNecklace L) (hlen : L.length < 2147483648) :
    ∃ b, bwtFromTextBySa sufsort L = .ok b ∧ bwtByMatrixNaive L = .ok b := by
  obtain ⟨w, p, rfl⟩ := (List.eq_nil_or_concat' L).resolve_left hne
  obtain ⟨b, h1, h2⟩ := bwtFromTextBySa_ok hs (w := w) (z := p) (fun x hx => hz x (by simp [hx]))
    (by simp at hlen; omega)
  obtain ⟨c, h3, h4⟩ := bwtByMatrixNaive_ok (w ++ [p])
  have : b = c := by
    apply map_some_inj
    rw [h2, h4, necklace_sa_matrix hz hL (hs _ hlen), List.map_map]
    rfl
  subst this
  exact ⟨b, h1, h3⟩

example := C66_sa_necklace naiveSufsort naiveSufsort_sorts [97, 97, 98] (by decide) (by decide) (by unfold IsNecklace; decide +kernel)
  (by decide)

/-- C66, the TODO: for every non-empty zero-free text, `lyndon_conjugate` returns the start of its least rotation
`L`, and with one and the same `b`: `b` is the matrix BWT of the text and of `L`, the bijective BWT of `L`, the
suffix-array BWT of `L`, and the suffix-array BWT of `L` with sentinel once the zero is removed. -/
theorem C66_lyndon_conjugate_bwts (sufsort : List UInt8 → List Nat) (hs : SortsSuffixes sufsort) (text : List UInt8)
    (hne : text ≠ []) (hz : ∀ x ∈ text, x ≠ 0) (hlen : text.length < 2147483647) :
    ∃ p b c, lyndonConjugate text = .ok p ∧ p < text.length ∧ IsNecklace (rot p text) ∧
      bwtByMatrixNaive text = .ok b ∧ bwtByMatrixNaive (rot p text) = .ok b ∧ bbwtNaive (rot p text) = .ok b ∧
      bwtFromTextBySa sufsort (rot p text) = .ok b ∧
      bwtFromTextBySa sufsort (rot p text ++ [0]) = .ok c ∧ c.erase 0 = b := by
  have hn : 0 < text.length := List.length_pos_iff.2 hne
  obtain ⟨p, hp1, hp2, hp3⟩ := lyndonConjugate_ok hne
  have hLn : IsNecklace (rot p text) := by
    intro i hi
    rw [rot_length] at hi
    rw [rot_rot hp2.le hi.le]
    exact hp3 _ (Nat.mod_lt _ hn)
  have hLz : ∀ x ∈ rot p text, x ≠ 0 := fun x hx => hz x ((rot_perm p text).mem_iff.1 hx)
  have hLl : (rot p text).length = text.length := rot_length
  have hL : rot p text ≠ [] := by rw [← List.length_pos_iff]; omega
  obtain ⟨b, h1, h2⟩ := bwtByMatrix_ok hs hne hz hlen
  obtain ⟨b', g1, g2, -⟩ := C66_bbwt_necklace (rot p text) hL hLn
  obtain ⟨b2, f1, f2⟩ := C66_sa_necklace sufsort hs (rot p text) hL hLz hLn (by omega)
  obtain ⟨b3, e1, e2⟩ := bwtByMatrixNaive_ok text
  obtain ⟨b4, e3, e4⟩ := bwtByMatrixNaive_ok (rot p text)
  have hmat : matrix text = matrix (rot p text) := (matrix_of_conj ⟨p, hp2.le, rfl⟩).symm
  have hb3 : b3 = b := map_some_inj (e2.trans h2.symm)
  have hb4 : b4 = b := map_some_inj (e4.trans (by rw [h2, hmat]))
  subst hb3; subst hb4
  have hb' : b' = b4 := by rw [e3] at g2; injection g2 with h; exact h.symm
  have hb2 : b2 = b4 := by rw [e3] at f2; injection f2 with h; exact h.symm
  subst hb'; subst hb2
  obtain ⟨c, d1, -⟩ := bwtFromTextBySa_ok hs (w := rot p text) (z := 0) hLz (by omega)
  refine ⟨p, b2, c, hp1, hp2, hLn, e1, e3, g1, f1, d1, ?_⟩
  simp only [bwtByMatrix] at h1
  rw [show assertR (decide (text.length > 0)) = .ok () by simp [assertR, hn], ok_bind, hp1, ok_bind,
    if_pos hp2.le, show text.drop p ++ text.take p = rot p text from rfl, d1, ok_bind, removeFirstZero] at h1
  rw [List.erase_eq_eraseIdx]
  have hidx : c.idxOf? 0 = c.findIdx? (fun x => x == 0) := rfl
  rw [hidx]
  cases hfi : c.findIdx? (fun x => x == 0) with
  | none => rw [hfi] at h1; simp at h1
  | some q => rw [hfi] at h1; simp at h1; exact h1

example := C66_lyndon_conjugate_bwts naiveSufsort naiveSufsort_sorts [98, 97, 110, 97, 110, 97] (by decide) (by decide) (by decide)

/-- Concrete case: `babbab`, with the non-primitive least rotation `abbabb`. -/
example : lyndonConjugate ([98, 97, 98, 98, 97, 98] : List UInt8) = .ok 4 ∧
    rot 4 ([98, 97, 98, 98, 97, 98] : List UInt8) = [97, 98, 98, 97, 98, 98] ∧
    bwtByMatrixNaive ([98, 97, 98, 98, 97, 98] : List UInt8) = .ok [98, 98, 98, 98, 97, 97] ∧
    bbwtNaive ([97, 98, 98, 97, 98, 98] : List UInt8) = .ok [98, 98, 98, 98, 97, 97] ∧
    bwtFromTextBySa naiveSufsort [97, 98, 98, 97, 98, 98] = .ok [98, 98, 98, 98, 97, 97] ∧
    bwtFromTextBySa naiveSufsort [97, 98, 98, 97, 98, 98, 0] = .ok [98, 98, 0, 98, 98, 97, 97] := by decide

/-- Without the rotation the bijective BWT is different in general. -/
example : bbwtNaive ([98, 97, 98, 98, 97, 98] : List UInt8) ≠
    bwtByMatrixNaive ([98, 97, 98, 98, 97, 98] : List UInt8) := by decide

/-- C16, the remaining flag combination: what `bwt --no-dollar` (without `--use-matrix`) writes.  It is the
output with sentinel, without its first letter `p` (the last letter of the input), and with `p` in the place of
the zero. -/
theorem C16_nodollar_characterized (sufsort : List UInt8 → List Nat) (hs : SortsSuffixes sufsort)
    (input : List UInt8) (hne : input ≠ []) (h0 : ∀ x ∈ input, x ≠ 0) (hlen : input.length < 2147483646) :
    ∃ p c, input.getLast? = some p ∧ bwtTool sufsort false false input = .ok (p :: c) ∧ c.count 0 = 1 ∧
      bwtTool sufsort false true input = .ok (c.map (fun x => if x = 0 then p else x)) ∧
      countR sufsort false true input =
        .ok (input.length, numberOfRuns (sliceReader (c.map (fun x => if x = 0 then p else x)))) := by
  obtain ⟨w, p, rfl⟩ := (List.eq_nil_or_concat' input).resolve_left hne
  have hp : (w ++ [p]).getLast? = some p := by simp
  obtain ⟨c, h1, h2⟩ := saBwt_without_sentinel hs hp h0 (by omega)
  obtain ⟨b, g1, -, -, g2⟩ := C12_bwt_sa_eq_matrix sufsort hs (w ++ [p]) h0 (by omega)
  have hb : b = p :: c := by rw [h1] at g1; injection g1 with h; exact h.symm
  subst hb
  have hcl : c.length = (w ++ [p]).length := by
    have := g2.length_eq
    simp at this ⊢; omega
  refine ⟨p, c, hp, h1, ?_, h2, ?_⟩
  · have h3 := g2.count_eq 0
    have hw0 : (w ++ [p]).count 0 = 0 := List.count_eq_zero.2 (fun h => h0 0 h rfl)
    rw [List.count_append, hw0, List.count_cons] at h3
    have hp0 : p ≠ 0 := h0 p (by simp)
    simpa [hp0] using h3
  · have : bwtToolTransform sufsort false (bwtToolText true (w ++ [p])) =
        .ok (c.map (fun x => if x = 0 then p else x)) := h2
    simp only [countR, this, ok_bind, List.length_map, hcl]
    rfl

example := C16_nodollar_characterized naiveSufsort naiveSufsort_sorts [98, 97, 98] (by decide) (by decide) (by decide)

/-- Concrete case, and why the flag loses information: `ab` and `ba` give the same output. -/
example : bwtTool naiveSufsort false false [98, 97, 98] = .ok [98, 98, 97, 0] ∧
    bwtTool naiveSufsort false true [98, 97, 98] = .ok [98, 97, 98] ∧
    bwtTool naiveSufsort false true [97, 98] = bwtTool naiveSufsort false true [98, 97] := by decide

end Verif.Props
