import Verif.Lemmas.LexRuns
import Verif.Props.Measures
import Verif.Props.Lz

/-! # C86: the lex-parse is bounded by the runs of the Burrows-Wheeler transform
(`src/bin/count_lexparse.rs`, `src/bin/count_r.rs`) -/

namespace Verif.Props

open Verif Spec Model

/-- A word has at least as many runs as different letters. -/
theorem letters_le_changes (b : List UInt8) : b.toFinset.card ≤ 1 + changes b := by
  classical
  cases hb : b with
  | nil => simp
  | cons c b' =>
    rw [← hb]
    have hc : c ∈ b.toFinset := by rw [hb]; simp
    have h0 : b[0]? = some c := by rw [hb]; rfl
    have : (b.toFinset.erase c).card ≤ changes b := by
      unfold changes
      rw [← List.toFinset_card_of_nodup ((List.nodup_range).filter _)]
      apply Finset.card_le_card_of_injOn (fun x => b.idxOf x - 1)
      · intro x hx
        simp only [Finset.coe_erase, Set.mem_sdiff, Finset.mem_coe, List.mem_toFinset,
          Set.mem_singleton_iff] at hx
        have hl := List.idxOf_lt_length_of_mem hx.1
        have hg : b[b.idxOf x]? = some x := by rw [List.getElem?_eq_getElem hl, List.getElem_idxOf]
        have hp : b.idxOf x ≠ 0 := by
          intro e; rw [e, h0] at hg; exact hx.2 (by simpa using hg.symm)
        simp only [Finset.mem_coe, List.mem_toFinset, List.mem_filter, List.mem_range,
          decide_eq_true_eq]
        refine ⟨by omega, ?_⟩
        rw [show b.idxOf x - 1 + 1 = b.idxOf x by omega, hg]
        intro e
        obtain ⟨q, e'⟩ := List.getElem?_eq_some_iff.1 e
        have := List.not_of_lt_findIdx (xs := b) (p := (· == x)) (i := b.idxOf x - 1)
          (show b.idxOf x - 1 < b.idxOf x by omega)
        simp [e'] at this
      · intro x hx y hy e
        simp only [Finset.coe_erase, Set.mem_sdiff, Finset.mem_coe, List.mem_toFinset,
          Set.mem_singleton_iff] at hx hy
        have pos : ∀ z, z ∈ b → z ≠ c → b.idxOf z ≠ 0 := by
          intro z hz hzc e
          have hl := List.idxOf_lt_length_of_mem hz
          have hg : b[b.idxOf z]? = some z := by rw [List.getElem?_eq_getElem hl, List.getElem_idxOf]
          rw [e, h0] at hg; exact hzc (by simpa using hg.symm)
        have := pos x hx.1 hx.2
        have := pos y hy.1 hy.2
        dsimp only at e
        exact (List.idxOf_inj hx.1).1 (by omega)
    rw [Finset.card_erase_of_mem hc] at this
    have := Finset.card_pos.2 ⟨c, hc⟩
    omega

/-- C86: for every non-empty zero-free text, the number of factors `count_lexparse` reports is at most the number
of runs `count_r` reports plus the number of different letters, and less than twice the number of runs. -/
theorem C86_lexparse_le_runs (sufsort : List UInt8 → List Nat) (hs : SortsSuffixes sufsort)
    (T : List UInt8) (h0 : T ≠ []) (hT : ∀ x ∈ T, x ≠ 0) (hlen : T.length < 2147483647) :
    ∃ (fs : List LZFactor) (r : Nat), countLexparseFactors sufsort T = .ok fs ∧
      countR sufsort false false T = .ok (T.length + 1, r) ∧
      fs.length ≤ r + T.toFinset.card ∧ fs.length < 2 * r := by
  classical
  obtain ⟨fs, phi, h1, h2, h3⟩ := countLexparse_ok hs h0 (by omega)
  obtain ⟨b, g1, g2⟩ := bwtFromTextBySa_ok hs (z := 0) hT hlen
  have hsT := hs T (by omega)
  have hsa := suffixArray_snoc hT hsT
  have heq := (hs (T ++ [0]) (by simp; omega)).unique hsa
  rw [heq] at g2
  have hTl := List.length_pos_iff.2 h0
  have hbl : b.length = T.length + 1 := by
    have := congrArg List.length g2
    rw [List.length_map, List.length_map, hsa.length] at this
    simpa using this
  have hbne : b ≠ [] := by intro h; rw [h] at hbl; simp at hbl
  have hruns := (C28_number_of_runs (sliceReader b)).2.2
  rw [delivered_slice] at hruns
  have hr := hruns hbne
  have k1 := lexparse_length_le hsT h2 fs 0 hTl h3
  have k2 := plcp_zero_card hsT h2 0
  have k3 := irreducible_card h0 hT hsT g2
  have k4 := letters_le_changes b
  unfold cutPositions at k1
  -- the letters of the transform
  have hbs : insert 0 T.toFinset ⊆ b.toFinset := by
    have hlast : (T ++ [(0 : UInt8)]).getLast? = some 0 := by simp
    have hall : ∀ s : Nat, s < T.length + 1 → ∀ c, (0 :: (T ++ [(0 : UInt8)]))[s]? = some c → c ∈ b := by
      intro s hsl c hc
      have hm : s ∈ T.length :: sufsort T := hsa.mem.2 (by simpa using hsl)
      have : (rot s (T ++ [0])).getLast? ∈ b.map some := by
        rw [g2]; exact List.mem_map.2 ⟨s, hm, rfl⟩
      rw [rot_getLast_cons hlast (by simpa using hsl), hc] at this
      simpa using this
    intro c hc
    rw [Finset.mem_insert] at hc
    rw [List.mem_toFinset]
    rcases hc with rfl | hc
    · exact hall 0 (by omega) 0 rfl
    · rw [List.mem_toFinset] at hc
      obtain ⟨i, hi, rfl⟩ := List.mem_iff_getElem.1 hc
      refine hall (i + 1) (by omega) _ ?_
      rw [List.getElem?_cons_succ, List.getElem?_append_left hi, List.getElem?_eq_getElem hi]
  have k5 := Finset.card_le_card hbs
  rw [Finset.card_insert_of_notMem (by rw [List.mem_toFinset]; exact fun h => hT 0 h rfl)] at k5
  refine ⟨fs, numberOfRuns (sliceReader b), h1, ?_, by omega, by omega⟩
  simp only [countR, bwtToolTransform, bwtToolText, Bool.false_eq_true, if_false]
  rw [g1, ok_bind, pure_ok, hbl]

example := C86_lexparse_le_runs naiveSufsort naiveSufsort_sorts [97, 98, 97, 97, 98] (by decide) (by decide) (by decide)

/-- Concrete case: `abaababa` has 4 runs, 2 letters and a lex-parse of 4 factors. -/
example : countR naiveSufsort false false [97, 98, 97, 97, 98, 97, 98, 97] = .ok (9, 4) ∧
    (countLexparseFactors naiveSufsort [97, 98, 97, 97, 98, 97, 98, 97]).map List.length = .ok 4 := by
  decide +kernel

end Verif.Props
