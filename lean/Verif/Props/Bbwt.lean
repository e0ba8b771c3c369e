import Verif.Lemmas.BbwtInj
import Verif.Props.Bwt

/-! # Properties C17, C18: bijective Burrows-Wheeler transform -/

namespace Verif.Props

open Verif Spec Model

variable {α : Type} [LinearOrder α]

/-- C17: `bbwt_naive` succeeds on every non-empty text and rearranges it ... -/
theorem C17_bbwt_rearranges (text : List α) (hne : text ≠ []) :
    ∃ b, bbwtNaive text = .ok b ∧ b.Perm text := by
  obtain ⟨b, h⟩ := bbwt_total hne
  exact ⟨b, h, bbwt_perm hne h⟩

example := C17_bbwt_rearranges [2, 1, 3, 1, 3, 1] (by decide)

/-- ... and every non-empty string is the output for exactly one non-empty text. -/
theorem C17_bbwt_bijective (b : List α) (hne : b ≠ []) :
    ∃! t, t ≠ [] ∧ bbwtNaive t = .ok b := by
  obtain ⟨t, h1, h2⟩ := bbwt_surjective hne
  exact ⟨t, ⟨h1, h2⟩, fun s hs => bbwt_injective hs.1 h1 hs.2 h2⟩

example := C17_bbwt_bijective [2, 1, 3, 1, 3, 1] (by decide)

/-- C17, injectivity spelled out. -/
theorem C17_bbwt_injective (s t : List α) (hs : s ≠ []) (ht : t ≠ [])
    (h : bbwtNaive s = bbwtNaive t) : s = t := by
  obtain ⟨b, hb⟩ := bbwt_total hs
  exact bbwt_injective hs ht hb (h ▸ hb)

example (s : List Nat) (hs : s ≠ []) (h : bbwtNaive s = bbwtNaive [2, 1, 3]) : s = [2, 1, 3] :=
  C17_bbwt_injective s [2, 1, 3] hs (by decide) h

/-- C17, empty text: `factors[0]` panics. -/
theorem C17_bbwt_empty : bbwtNaive ([] : List α) = .error .index := by
  simp only [bbwtNaive]
  rw [show duval ([] : List α) = .ok [] from rfl, ok_bind]
  rfl

/-- Rotations are told apart by the bijective transform. -/
example : bbwtNaive [2, 1, 3, 1, 3, 1] = .ok [1, 3, 3, 2, 1, 1] ∧
    bbwtNaive [1, 3, 1, 3, 1, 2] ≠ bbwtNaive [2, 1, 3, 1, 3, 1] := by decide

/-- What the output is: all rotations of all Lyndon factors, sorted by their infinite powers (compared
on any sufficiently long prefix), and their last letters listed. -/
theorem C17_bbwt_table (text : List α) (hne : text ≠ []) (fs : List (List α))
    (hf : IsLyndonFactorization fs text) (N : Nat) (hN : text.length * text.length ≤ N) :
    ∃ (S : List (List α)) (b : List α), bbwtNaive text = .ok b ∧
      S.Perm (fs.flatMap (fun f => (List.range f.length).map (fun i => rot i f))) ∧
      S.Pairwise (fun u v => (power u N).take N ≤ (power v N).take N) ∧
      b.map some = S.map List.getLast? :=
  bbwtNaive_rows hne hf hN

example := C17_bbwt_table [2, 1, 3, 1, 3, 1] (by decide) [[2], [1, 3], [1, 3], [1]] (by decide +kernel) 36 (by decide)

/-- C18: on Lyndon words the bijective transform is the matrix BWT. -/
theorem C18_bbwt_lyndon (text : List α) (h : IsLyndon text) :
    ∃ b, bbwtNaive text = .ok b ∧ bwtByMatrixNaive text = .ok b ∧ IsMatrixBwt text b := by
  obtain ⟨b, h1, h2⟩ := bbwt_lyndon h
  obtain ⟨c, h3, h4⟩ := bwtByMatrixNaive_ok text
  have : b = c := map_some_inj (h2.trans h4.symm)
  subst this
  exact ⟨b, h1, h3, isMatrixBwt_iff.2 h2⟩

example := C18_bbwt_lyndon [1, 1, 2, 1, 3] (by decide +kernel)

example : IsLyndon [1, 1, 2, 1, 3] ∧ bbwtNaive [1, 1, 2, 1, 3] = .ok [3, 1, 2, 1, 1] ∧
    bwtByMatrixNaive [1, 1, 2, 1, 3] = .ok [3, 1, 2, 1, 1] := by decide

end Verif.Props
