import Verif.Lemmas.BwtTmD3

namespace Verif

open Spec Model

section
variable {w : List UInt8} (hab : ∀ c ∈ w, IsAb c) (hx : NoXXX w)
include hab hx

/-- The Thue--Morse step for words that end with `bba`. -/
theorem tmD_step_even {w1 : List UInt8} (hw : w = w1 ++ [98, 98, 97]) :
    ∃ sa, seg (w ++ [0]) [0] = [97] ∧ seg (w ++ [0]) [97] = 98 :: sa ∧
    seg (w.flatMap tmMor ++ [0]) [0] = [98] ∧
    seg (w.flatMap tmMor ++ [0]) [97] =
      List.replicate ((seg (w ++ [0]) [97]).count 98) 98 ++ 97 ::
      (List.replicate ((seg (w ++ [0]) [98]).count 98) 98 ++ sa.map complD) ∧
    seg (w.flatMap tmMor ++ [0]) [98] =
      97 :: ((seg (w ++ [0]) [98]).map complD ++
        List.replicate ((seg (w ++ [0]) [97] ++ seg (w ++ [0]) [98]).count 97) 97) ∧
    bw (w ++ [0]) = seg (w ++ [0]) [0] ++ seg (w ++ [0]) [97] ++ seg (w ++ [0]) [98] := by
  have h0 := ab_ne_zero hab
  have hw2 : w = (w1 ++ [98, 98]) ++ [97] := by rw [hw]; simp
  have hcut : ∀ v ∈ matrix (w ++ [0]), ∃ p ∈ [[0], [97], [98]], p <+: v := by
    intro v hv
    obtain ⟨p, s, hw, rfl⟩ := row_dollar.1 hv
    cases s with
    | nil => exact ⟨[0], by simp, ⟨p, rfl⟩⟩
    | cons x s =>
      rcases hab x (by rw [hw]; simp) with rfl | rfl
      · exact ⟨[97], by simp, ⟨_, rfl⟩⟩
      · exact ⟨[98], by simp, ⟨_, rfl⟩⟩
  have hcut2 : ∀ v ∈ matrix (w ++ [0]), ∃ p ∈ [[0], [97, 0], [97, 97], [97, 98], [98]], p <+: v := by
    intro v hv
    obtain ⟨p, s, hw, rfl⟩ := row_dollar.1 hv
    match s with
    | [] => exact ⟨[0], by simp, ⟨p, rfl⟩⟩
    | [x] =>
      rcases hab x (by rw [hw]; simp) with rfl | rfl
      · exact ⟨[97, 0], by simp, ⟨_, rfl⟩⟩
      · exact ⟨[98], by simp, ⟨_, rfl⟩⟩
    | x :: y :: s =>
      rcases hab x (by rw [hw]; simp) with rfl | rfl
      · rcases hab y (by rw [hw]; simp) with rfl | rfl
        · exact ⟨[97, 97], by simp, ⟨_, rfl⟩⟩
        · exact ⟨[97, 98], by simp, ⟨_, rfl⟩⟩
      · exact ⟨[98], by simp, ⟨_, rfl⟩⟩
  have hM := matrix_eq_rowsP (ps := [[0], [97], [98]]) (by decide) hcut
  have hM2 := matrix_eq_rowsP (ps := [[0], [97, 0], [97, 97], [97, 98], [98]]) (by decide) hcut2
  have hB := bw_eq_seg (ps := [[0], [97], [98]]) (by decide) hcut
  simp only [List.flatMap_cons, List.flatMap_nil, List.append_nil] at hM hB hM2
  have mR : ∀ p, ∀ v ∈ rowsP (w ++ [0]) p, v ∈ matrix (w ++ [0]) := fun p v hv => (mem_rowsP.1 hv).1
  have hU := rowsP_dollar (s := [97]) h0 hw2
  have hR0 := rowsP_dollar (p := w) (s := []) h0 (by simp)
  simp only [List.nil_append, List.cons_append] at hU hR0
  set W := w ++ [0] with hW
  -- the rows that begin with `a`
  have hA : rowsP W [97] = rowsP W [97, 0] ++ (rowsP W [97, 97] ++ rowsP W [97, 98]) := by
    have e := hM2
    rw [hM, List.append_cancel_left_eq, ← List.append_assoc, ← List.append_assoc, List.append_cancel_right_eq] at e
    rw [e, List.append_assoc]
  obtain ⟨A', hA'⟩ : ∃ A', rowsP W [97, 97] ++ rowsP W [97, 98] = A' := ⟨_, rfl⟩
  rw [hA'] at hA
  have mA' : ∀ v ∈ A', v ∈ rowsP W [97] := fun v hv => by rw [hA]; simp [hv]
  have sA' : A'.Pairwise (· ≤ ·) := by
    have := rowsP_sorted W [97]
    rw [hA, List.pairwise_append] at this
    exact this.2.1
  have pA' : ∀ v ∈ A', [97, 97] <+: v ∨ [97, 98] <+: v := by
    intro v hv
    rw [← hA'] at hv
    rcases List.mem_append.1 hv with h | h
    · exact Or.inl (mem_rowsP.1 h).2
    · exact Or.inr (mem_rowsP.1 h).2
  let gs : List (List (List UInt8) × List (List UInt8)) :=
    [([[0]], tmImg (rowsP W [0])),
     ([[97, 97]], tmOdds 98 (rowsP W [97])),
     ([[97, 98, 0]], tmImg (rowsP W [97, 0])),
     ([[97, 98, 97, 97]], tmOdds 98 (rowsP W [98])),
     ([[97, 98, 97, 98], [97, 98, 98]], tmImg A'),
     ([[98, 0]], tmOdds 97 (rowsP W [0])),
     ([[98, 97, 97], [98, 97, 98, 97]], tmImg (rowsP W [98])),
     ([[98, 97, 98, 98], [98, 98]], tmOdds 97 (rowsP W [97] ++ rowsP W [98]))]
  have hpf : gs.map Prod.fst = [[[0]], [[97, 97]], [[97, 98, 0]], [[97, 98, 97, 97]], [[97, 98, 97, 98], [97, 98, 98]],
     [[98, 0]], [[98, 97, 97], [98, 97, 98, 97]], [[98, 97, 98, 98], [98, 98]]] := rfl
  have h2 : ∀ g ∈ gs, ∀ r ∈ g.2, ∃ q ∈ g.1, q <+: r := by
    intro g hg
    simp only [gs, List.mem_cons, List.not_mem_nil, or_false] at hg
    rcases hg with rfl | rfl | rfl | rfl | rfl | rfl | rfl | rfl <;> intro r hr <;> obtain ⟨v, hv, rfl⟩ := List.mem_map.1 hr <;> simp only at hv ⊢
    · obtain ⟨hv1, hv2⟩ := mem_rowsP.1 hv
      rcases tmImg_prefix hab hv1 with ⟨h, h'⟩ | ⟨h, -⟩ | ⟨h, -⟩
      · exact ⟨_, by simp, h'⟩
      · rw [prefix_head hv2] at h; exact absurd h (by decide)
      · rw [prefix_head hv2] at h; exact absurd h (by decide)
    · simp only [List.mem_filter, decide_eq_true_eq] at hv
      obtain ⟨hv1, hv2⟩ := mem_rowsP.1 hv.1
      rcases tmOdd_prefix hab hx hv1 hv.2 (Or.inr rfl) with ⟨h, -⟩ | ⟨-, h⟩ | ⟨h, -⟩
      · rw [prefix_head hv2] at h; exact absurd h (by decide)
      · exact ⟨_, by simp [compl], h⟩
      · rw [prefix_head hv2] at h; exact absurd h (by decide)
    · obtain ⟨hv1, hv2⟩ := mem_rowsP.1 hv
      have hv3 : [97] <+: v := List.IsPrefix.trans (by decide) hv2
      rcases tmImg_prefix hab hv1 with ⟨h, -⟩ | ⟨-, ⟨-, h⟩ | ⟨⟨y, hy, h⟩, -⟩⟩ | ⟨h, -⟩
      · rw [prefix_head hv3] at h; exact absurd h (by decide)
      · exact ⟨_, by simp, h⟩
      · have := List.prefix_of_prefix_length_le hv2 h (by simp)
        rcases hy with rfl | rfl <;> exact absurd this (by decide)
      · rw [prefix_head hv3] at h; exact absurd h (by decide)
    · simp only [List.mem_filter, decide_eq_true_eq] at hv
      obtain ⟨hv1, hv2⟩ := mem_rowsP.1 hv.1
      rcases tmOdd_prefix hab hx hv1 hv.2 (Or.inr rfl) with ⟨h, -⟩ | ⟨h, -⟩ | ⟨-, h | h⟩
      · rw [prefix_head hv2] at h; exact absurd h (by decide)
      · rw [prefix_head hv2] at h; exact absurd h (by decide)
      · exact ⟨_, by simp [compl], h⟩
      · exact absurd h (not_suffix_of_last (u := [98]) hw2 (by decide))
    · obtain ⟨hv1, hv2⟩ := mem_rowsP.1 (mA' v hv)
      rcases tmImg_prefix hab hv1 with ⟨h, -⟩ | ⟨-, ⟨h, -⟩ | ⟨-, h | h⟩⟩ | ⟨h, -⟩
      · rw [prefix_head hv2] at h; exact absurd h (by decide)
      · exfalso
        rcases pA' v hv with h' | h' <;> exact absurd (List.prefix_of_prefix_length_le h h' (by simp)) (by decide)
      · exact ⟨_, by simp, h⟩
      · exact ⟨_, by simp, h⟩
      · rw [prefix_head hv2] at h; exact absurd h (by decide)
    · simp only [List.mem_filter, decide_eq_true_eq] at hv
      obtain ⟨hv1, hv2⟩ := mem_rowsP.1 hv.1
      rcases tmOdd_prefix hab hx hv1 hv.2 (Or.inl rfl) with ⟨-, h⟩ | ⟨h, -⟩ | ⟨h, -⟩
      · exact ⟨_, by simp [compl], h⟩
      · rw [prefix_head hv2] at h; exact absurd h (by decide)
      · rw [prefix_head hv2] at h; exact absurd h (by decide)
    · obtain ⟨hv1, hv2⟩ := mem_rowsP.1 hv
      rcases tmImg_prefix hab hv1 with ⟨h, -⟩ | ⟨h, -⟩ | ⟨-, ⟨h, -⟩ | ⟨-, h | h⟩⟩
      · rw [prefix_head hv2] at h; exact absurd h (by decide)
      · rw [prefix_head hv2] at h; exact absurd h (by decide)
      · exfalso
        have := rowsP_dollar_nil (s := [98]) h0 (by decide) (not_suffix_of_last (u := []) hw2 (by decide))
        have hm : v ∈ rowsP W [98, 0] := mem_rowsP.2 ⟨hv1, h⟩
        rw [show ([98, 0] : List UInt8) = [98] ++ [0] from rfl, this] at hm
        simp at hm
      · exact ⟨_, by simp, h⟩
      · exact ⟨_, by simp, h⟩
    · simp only [List.mem_filter, decide_eq_true_eq, List.mem_append] at hv
      have hv1 : v ∈ matrix W := by rcases hv.1 with h | h <;> exact mR _ _ h
      rcases tmOdd_prefix hab hx hv1 hv.2 (Or.inl rfl) with ⟨h, -⟩ | ⟨-, h⟩ | ⟨-, h | h⟩
      · exfalso
        rcases hv.1 with h' | h' <;> rw [prefix_head (mem_rowsP.1 h').2] at h <;> exact absurd h (by decide)
      · exact ⟨_, by simp [compl], h⟩
      · exact ⟨_, by simp [compl], h⟩
      · exfalso
        obtain ⟨t, ht⟩ := h
        rw [hw] at ht
        have := (List.append_inj' (s₁ := t ++ [97]) (t₁ := [97]) (s₂ := w1 ++ [98, 98]) (t₂ := [97]) (by simpa using ht) rfl).1
        have := (List.append_inj' (s₁ := t) (t₁ := [97]) (s₂ := w1 ++ [98]) (t₂ := [98]) (by simpa using this) rfl).2
        exact absurd this (by decide)
  have hR0l : (0 :: w).getLastD 0 = 97 := by rw [hw2, lastD_cons_concat]
  have hm' : matrix (w.flatMap tmMor ++ [0]) = gs.flatMap Prod.snd := by
    rw [← tmD_dollar hab]
    refine matrix_flatMap (fun c hc => tmD_ne ?_) ?_ ?_
    · rcases List.mem_append.1 hc with h | h
      · exact Or.inr (hab c h)
      · exact Or.inl (by simpa using h)
    · have e := tmD_lastRots (L := matrix W) fun v hv => ⟨row_ne hv, row_last hab hv⟩
      refine List.Perm.trans ?_ (e.symm.append_left _)
      have e2 : (matrix W).map (fun v => v.flatMap tmD) = tmImg (rowsP W [0]) ++ (tmImg (rowsP W [97, 0]) ++ tmImg A') ++ tmImg (rowsP W [98]) := by
        conv_lhs => rw [hM, hA]
        simp [tmImg]
      have e3 : tmOdds 98 (rowsP W [0]) = [] := by
        rw [hR0, tmOdds, List.filter_cons, if_neg (by rw [hR0l]; decide)]; rfl
      have e4 : tmOdds 98 (matrix W) = tmOdds 98 (rowsP W [97]) ++ tmOdds 98 (rowsP W [98]) := by
        conv_lhs => rw [hM, tmOdds_append, e3, List.nil_append, tmOdds_append]
      have e5 : tmOdds 97 (matrix W) = tmOdds 97 (rowsP W [0]) ++ tmOdds 97 (rowsP W [97] ++ rowsP W [98]) := by
        conv_lhs => rw [hM, tmOdds_append]
      rw [e2, e4, e5, List.perm_iff_count]
      intro r
      simp only [gs, List.flatMap_cons, List.flatMap_nil, List.append_nil, List.count_append]
      omega
    · refine groups_sorted ?_ h2 (by rw [hpf]; decide)
      intro g hg
      simp only [gs, List.mem_cons, List.not_mem_nil, or_false] at hg
      rcases hg with rfl | rfl | rfl | rfl | rfl | rfl | rfl | rfl
      · exact tmImg_sorted hab (rowsP_sorted W _) (mR _)
      · exact tmOdds_sorted hab _ (rowsP_sorted W _) (mR _)
      · exact tmImg_sorted hab (rowsP_sorted W _) (mR _)
      · exact tmOdds_sorted hab _ (rowsP_sorted W _) (mR _)
      · exact tmImg_sorted hab sA' fun v hv => mR _ _ (mA' v hv)
      · exact tmOdds_sorted hab _ (rowsP_sorted W _) (mR _)
      · exact tmImg_sorted hab (rowsP_sorted W _) (mR _)
      · refine tmOdds_sorted hab _ ?_ ?_
        · have := matrix_sorted W
          rw [hM, List.pairwise_append] at this
          exact this.2.1
        · intro v hv
          rcases List.mem_append.1 hv with h | h <;> exact mR _ _ h
  have hUl : (seg W [97, 0]) = [98] := by
    rw [seg, hU, List.map_singleton,
      show (97 :: 0 :: (w1 ++ [98, 98])) = (97 :: 0 :: (w1 ++ [98])) ++ [98] by simp, lastD_concat]
  have hs0 : seg W [0] = [97] := by rw [seg, hR0, List.map_singleton, hR0l]
  refine ⟨A'.map fun v => v.getLastD 0, hs0, ?_, ?_, ?_, ?_, by rw [hB]; simp⟩
  · rw [seg, hA, List.map_append]
    have : (rowsP W [97, 0]).map (fun v => v.getLastD 0) = [98] := hUl
    rw [this]; rfl
  · rw [seg, rowsP_groups hm' h2 (by rw [hpf]; decide)]
    have e : (gs.filter fun g => g.1.all fun q => ([0] : List UInt8).isPrefixOf q) = [([[0]], tmImg (rowsP W [0]))] := rfl
    rw [e]
    simp only [List.flatMap_cons, List.flatMap_nil, List.append_nil]
    rw [tmImg, tmImg_last hab (mR _)]
    have : (rowsP W [0]).map (fun v => v.getLastD 0) = [97] := hs0
    rw [this]; rfl
  · rw [seg, rowsP_groups hm' h2 (by rw [hpf]; decide)]
    have e : (gs.filter fun g => g.1.all fun q => ([97] : List UInt8).isPrefixOf q) =
      [([[97, 97]], tmOdds 98 (rowsP W [97])),
     ([[97, 98, 0]], tmImg (rowsP W [97, 0])),
     ([[97, 98, 97, 97]], tmOdds 98 (rowsP W [98])),
     ([[97, 98, 97, 98], [97, 98, 98]], tmImg A')] := rfl
    rw [e]
    simp only [List.flatMap_cons, List.flatMap_nil, List.append_nil, List.map_append]
    rw [tmImg, tmImg_last hab (mR _), tmOdds_last, tmOdds_last, tmImg, tmImg_last hab fun v hv => mR _ _ (mA' v hv)]
    have : (rowsP W [97, 0]).map (fun v => v.getLastD 0) = [98] := hUl
    rw [this]; rfl
  · rw [seg, rowsP_groups hm' h2 (by rw [hpf]; decide)]
    have e : (gs.filter fun g => g.1.all fun q => ([98] : List UInt8).isPrefixOf q) =
     [([[98, 0]], tmOdds 97 (rowsP W [0])),
     ([[98, 97, 97], [98, 97, 98, 97]], tmImg (rowsP W [98])),
     ([[98, 97, 98, 98], [98, 98]], tmOdds 97 (rowsP W [97] ++ rowsP W [98]))] := rfl
    rw [e]
    simp only [List.flatMap_cons, List.flatMap_nil, List.append_nil, List.map_append]
    rw [tmImg, tmImg_last hab (mR _), tmOdds_last, tmOdds_last, List.map_append]
    have : (rowsP W [0]).map (fun v => v.getLastD 0) = [97] := hs0
    rw [this]; rfl

end

end Verif
