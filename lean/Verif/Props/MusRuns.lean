import Verif.Props.MusLaws
import Verif.Props.Measures
import Verif.Lemmas.TreeSize

/-! # C136: the number of minimal unique substrings is bounded by the runs of the Burrows-Wheeler transform -/

namespace Verif.Props

open Verif Spec Model

/-- The letter in front of a minimal unique substring without its first letter is at a border of a run. -/
theorem mus_border {T : List UInt8} (hT : ∀ x ∈ T, x ≠ 0) {sa : List Nat} (hsa : IsSuffixArray (T ++ [0]) sa) {b : List UInt8}
    (hb : b.map some = sa.map (fun i => (rot i (T ++ [0])).getLast?)) {i l : Nat} (hm : IsMus T i l) :
    ∃ row : Nat, sa[row]? = some (i + 1) ∧ RunBorder b row := by
  obtain ⟨hu, hmin⟩ := isMus_iff_uq.1 hm
  obtain ⟨h0, h1, h2⟩ := hu
  have hn : (T ++ [(0 : UInt8)]).length = T.length + 1 := by simp
  -- the substring as a letter and a word
  have hv : (T.drop i).take l = T[i] :: (T.drop (i + 1)).take (l - 1) := by
    rw [List.drop_eq_getElem_cons (by omega)]
    obtain ⟨l, rfl⟩ := Nat.exists_eq_add_of_le' h0
    rfl
  have hwl : ((T.drop (i + 1)).take (l - 1)).length = l - 1 := by rw [List.length_take, List.length_drop]; omega
  have hw0 : ∀ x ∈ (T.drop (i + 1)).take (l - 1), x ≠ 0 := fun x hx => hT x (List.mem_of_mem_drop (List.mem_of_mem_take hx))
  have hTc : T[i] ≠ 0 := hT _ (List.getElem_mem _)
  have hlast : (T ++ [(0 : UInt8)]).getLast? = some 0 := by simp
  have hbi : ∀ (q s : Nat), sa[q]? = some s → b[q]? = (0 :: (T ++ [0]))[s]? := by
    intro q s hs
    have h1 : (b.map some)[q]? = some ((rot s (T ++ [0])).getLast?) := by
      rw [hb, List.getElem?_map, hs]; rfl
    have hsn : s < (T ++ [(0 : UInt8)]).length := hsa.mem.1 (List.mem_of_getElem? hs)
    rw [rot_getLast_cons hlast hsn, List.getElem?_map] at h1
    cases hbb : b[q]? with
    | none => rw [hbb] at h1; simp at h1
    | some x => rw [hbb] at h1; simpa using h1
  -- a row with the letter and the word belongs to the substring
  have hrow : ∀ q s : Nat, sa[q]? = some s → b[q]? = some T[i] → (T.drop (i + 1)).take (l - 1) <+: (T ++ [0]).drop s → s = i + 1 := by
    intro q s hs hc hp
    rw [hbi q s hs] at hc
    rcases s with _ | s
    · rw [List.getElem?_cons_zero] at hc
      injection hc with hc
      exact absurd hc.symm hTc
    · rw [List.getElem?_cons_succ] at hc
      have hsn : s < (T ++ [(0 : UInt8)]).length := (List.getElem?_eq_some_iff.1 hc).1
      have hocc : OccursAt ((T.drop i).take l) (T ++ [0]) s := by
        refine drop_occ (by omega) ?_
        rw [hv, List.drop_eq_getElem_cons hsn]
        have : (T ++ [(0 : UInt8)])[s] = T[i] := by
          have := List.getElem?_eq_getElem hsn
          rw [hc] at this
          injection this with this
          exact this.symm
        rw [this]
        exact (List.prefix_cons_inj _).2 hp
      rw [occursAt_snoc (by rw [hv]; intro x hx; rcases List.mem_cons.1 hx with rfl | hx; exacts [hTc, hw0 x hx]) (by rw [hv]; simp)] at hocc
      rw [h2 s ((occursAt_take h1).1 hocc)]
  rcases runAttractor_step hsa hb (c := T[i]) (w := (T.drop (i + 1)).take (l - 1)) (j := i) (by rw [List.length_cons, hwl]; omega)
    (by rw [← hv, List.drop_append_of_le_length (by omega)]; exact (List.take_prefix _ _).trans (List.prefix_append _ _)) with h | h
  · obtain ⟨row, s, g1, g2, g3, g4⟩ := h
    exact ⟨row, by rw [g1, hrow row s g1 g3 g4], g2⟩
  · exfalso
    -- the word occurs elsewhere
    have hother : ∃ k, k ≠ i + 1 ∧ k ≤ T.length ∧ (T.drop (i + 1)).take (l - 1) <+: (T ++ [0]).drop k := by
      rcases Nat.eq_zero_or_pos (l - 1) with hl | hl
      · exact ⟨0, by omega, by omega, by rw [hl, List.take_zero]; exact List.nil_prefix⟩
      · have hno := hmin (i + 1) (l - 1) (by omega) (by omega) (by intro e; injection e with e; omega)
        simp only [Uq, hl, true_and, show i + 1 + (l - 1) ≤ T.length by omega, not_forall] at hno
        obtain ⟨k, hk, hne⟩ := hno
        refine ⟨k, hne, by have := hk.1; omega, ?_⟩
        have := ((occursAt_take (show i + 1 + (l - 1) ≤ T.length by omega)).2 hk).2
        rw [List.drop_append_of_le_length (by have := hk.1; omega)]
        exact this.trans (List.prefix_append _ _)
    obtain ⟨k, hk1, hk2, hk3⟩ := hother
    obtain ⟨q, hq⟩ := List.mem_iff_getElem?.1 (hsa.mem.2 (show k < (T ++ [(0 : UInt8)]).length by omega))
    exact hk1 (hrow q k hq (h q k hq hk3) hk3)

theorem getD_of_get {l : List Nat} {q s : Nat} (h : l[q]? = some s) : l.getD q 0 = s := by
  rw [List.getD_eq_getElem?_getD, h]; rfl

section
variable (sufsort : List UInt8 → List Nat) (hs : SortsSuffixes sufsort)
include hs

/-- C136: every minimal unique substring starts at the text position of the first or of the last letter of a run of the Burrows-Wheeler
transform `b` that `bwt` writes: in `b`, the letter at its start is at a place whose left or right neighbour is missing or different. -/
theorem C136_starts (T : List UInt8) (hT : ∀ x ∈ T, x ≠ 0) (hlen : T.length < 2147483647) (mus : List (Nat × Nat))
    (hm : GetMusReturns sufsort T mus) : ∃ b, bwtFromTextBySa sufsort (T ++ [0]) = .ok b ∧ ∀ x ∈ mus, ∃ row : Nat,
      (sufsort (T ++ [0]))[row]? = some (x.1 + 1) ∧ b[row]? = T[x.1]? ∧
        (row = 0 ∨ row + 1 = b.length ∨ b[row]? ≠ b[row - 1]? ∨ b[row]? ≠ b[row + 1]?) := by
  obtain ⟨b, h1, h2⟩ := bwtFromTextBySa_ok hs (z := 0) hT hlen
  refine ⟨b, h1, fun x hx => ?_⟩
  have hM := ((getMus_spec sufsort hs hT hlen).1 hm).2 x.1 x.2 |>.1 hx
  obtain ⟨row, g1, g2⟩ := mus_border hT (hs (T ++ [0]) (by simp; omega)) h2 hM
  refine ⟨row, g1, ?_, g2⟩
  have hb : (b.map some)[row]? = some ((rot (x.1 + 1) (T ++ [0])).getLast?) := by rw [h2, List.getElem?_map, g1]; rfl
  have hx1 : x.1 < T.length := by have := hM.1; have := hM.2.1; omega
  rw [rot_getLast_cons (p := 0) (by simp) (by simp; omega), List.getElem?_map, List.getElem?_cons_succ, List.getElem?_append_left hx1] at hb
  cases hbb : b[row]? with
  | none => rw [hbb] at hb; simp at hb
  | some y => rw [hbb] at hb; simpa using hb

/-- C136: the number of minimal unique substrings of a non-empty text is smaller than twice the number of runs that `count_r` reports for it,
and for its reverse. -/
theorem C136_mus_le_runs (T : List UInt8) (h0 : T ≠ []) (hT : ∀ x ∈ T, x ≠ 0) (hlen : T.length < 2147483647) (mus : List (Nat × Nat))
    (hm : GetMusReturns sufsort T mus) :
    (∃ r, countR sufsort false false T = .ok (T.length + 1, r) ∧ mus.length < 2 * r) ∧
      ∃ r, countR sufsort false false T.reverse = .ok (T.length + 1, r) ∧ mus.length < 2 * r := by
  have key : ∀ (T : List UInt8), T ≠ [] → (∀ x ∈ T, x ≠ 0) → T.length < 2147483647 → ∀ mus, GetMusReturns sufsort T mus →
      ∃ r, countR sufsort false false T = .ok (T.length + 1, r) ∧ mus.length < 2 * r := by
    intro T h0 hT hlen mus hm
    obtain ⟨hpw, hmem⟩ := (getMus_spec sufsort hs hT hlen).1 hm
    obtain ⟨b, h1, h2⟩ := bwtFromTextBySa_ok hs (z := 0) hT hlen
    have hsa := hs (T ++ [0]) (by simp; omega)
    have hsl : (sufsort (T ++ [0])).length = T.length + 1 := hsa.length.trans (by simp)
    have hbl : b.length = T.length + 1 := by
      have := congrArg List.length h2
      rw [List.length_map, List.length_map] at this
      omega
    have hbne : b ≠ [] := by intro h; rw [h] at hbl; simp at hbl
    have hr := (C28_number_of_runs (sliceReader b)).2.2
    rw [delivered_slice] at hr
    have hr := hr hbne
    refine ⟨numberOfRuns (sliceReader b), ?_, ?_⟩
    · simp only [countR, bwtToolTransform, bwtToolText, Bool.false_eq_true, if_false]
      rw [h1, ok_bind, pure_ok, hbl]
    -- the row of the text itself is a border, too
    have hbi : ∀ (q s : Nat), (sufsort (T ++ [0]))[q]? = some s → b[q]? = (0 :: (T ++ [0]))[s]? := by
      intro q s hq
      have h3 : (b.map some)[q]? = some ((rot s (T ++ [0])).getLast?) := by rw [h2, List.getElem?_map, hq]; rfl
      rw [rot_getLast_cons (p := 0) (by simp) (hsa.mem.1 (List.mem_of_getElem? hq)), List.getElem?_map] at h3
      cases hbb : b[q]? with
      | none => rw [hbb] at h3; simp at h3
      | some x => rw [hbb] at h3; simpa using h3
    obtain ⟨z, hz⟩ := List.mem_iff_getElem?.1 (hsa.mem.2 (show 0 < (T ++ [(0 : UInt8)]).length by simp))
    have hzb : RunBorder b z := by
      have hbz := hbi z 0 hz
      rw [List.getElem?_cons_zero] at hbz
      by_cases hz0 : z = 0
      · exact Or.inl hz0
      · refine Or.inr (Or.inr (Or.inl ?_))
        have hzl := (List.getElem?_eq_some_iff.1 hz).1
        obtain ⟨s, hs'⟩ : ∃ s, (sufsort (T ++ [0]))[z - 1]? = some s := ⟨_, List.getElem?_eq_getElem (by omega)⟩
        rw [hbz, hbi _ _ hs']
        have hsn : s < (T ++ [(0 : UInt8)]).length := hsa.mem.1 (List.mem_of_getElem? hs')
        rw [List.length_append, List.length_singleton] at hsn
        rcases s with _ | s
        · have := (List.getElem?_inj (by omega) (hsa.1.nodup_iff.2 List.nodup_range)).1 (hz.trans hs'.symm)
          omega
        · rw [List.getElem?_cons_succ, List.getElem?_append_left (by omega), List.getElem?_eq_getElem (by omega)]
          intro e
          injection e with e
          exact hT _ (List.getElem_mem _) e.symm
    have hsub : 0 :: mus.map (fun x => x.1 + 1) ⊆ (runBorders b).map fun q => (sufsort (T ++ [0])).getD q 0 := by
      intro v hv
      rw [List.mem_map]
      rcases List.mem_cons.1 hv with rfl | hv
      · have hzl := (List.getElem?_eq_some_iff.1 hz).1
        exact ⟨z, mem_runBorders (by omega) hzb, getD_of_get hz⟩
      · obtain ⟨x, hx, rfl⟩ := List.mem_map.1 hv
        obtain ⟨row, g1, g2⟩ := mus_border hT hsa h2 ((hmem x.1 x.2).1 hx)
        have hrl := (List.getElem?_eq_some_iff.1 g1).1
        exact ⟨row, mem_runBorders (by omega) g2, getD_of_get g1⟩
    have hnd : (0 :: mus.map (fun x => x.1 + 1)).Nodup := by
      refine List.nodup_cons.2 ⟨by simp, ?_⟩
      rw [List.Nodup, List.pairwise_map]
      exact hpw.imp fun h e => by omega
    have := (hnd.subperm hsub).length_le
    rw [List.length_map, runBorders_length, List.length_cons, List.length_map] at this
    omega
  refine ⟨key T h0 hT hlen mus hm, ?_⟩
  have := key T.reverse (by simpa using h0) (by simpa using hT) (by simpa using hlen) _ (C132_reverse sufsort hs T hT hlen mus hm)
  simpa using this

end

example := C136_mus_le_runs naiveSufsort naiveSufsort_sorts [97, 98, 97, 97, 98, 97, 98, 97] (by decide) (by decide) (by decide) [(2, 2), (4, 3)]
  ⟨_, _, _, _, rfl, rfl, rfl, rfl, by decide +kernel⟩

example := C136_starts naiveSufsort naiveSufsort_sorts [97, 98, 97, 97, 98, 97, 98, 97] (by decide) (by decide) [(2, 2), (4, 3)]
  ⟨_, _, _, _, rfl, rfl, rfl, rfl, by decide +kernel⟩

/-- Concrete case: the text `a` has one minimal unique substring and its transform two runs. -/
example : countR naiveSufsort false false [97] = .ok (2, 2) ∧ musTool naiveSufsort [97, 0] = .ok [(0, 1)] := by decide +kernel

end Verif.Props
