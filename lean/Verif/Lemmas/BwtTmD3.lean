import Verif.Lemmas.BwtTmD2

namespace Verif

open Spec Model

theorem not_suffix_of_last {w : List UInt8} {p : List UInt8} {x y : UInt8} {u : List UInt8} (h : w = p ++ [x]) (hne : y ≠ x) :
    ¬ (u ++ [y]) <:+ w := by
  rintro ⟨t, ht⟩
  rw [h, ← List.append_assoc] at ht
  have := (List.append_inj' ht rfl).2
  simp at this
  exact hne this

theorem rows_head0 {w v : List UInt8} (h0 : 0 ∉ w) (hv : v ∈ matrix (w ++ [0])) (h : v.headD 1 = 0) : v = 0 :: w := by
  obtain ⟨p, s, hw, rfl⟩ := row_dollar.1 hv
  cases s with
  | nil => simp [hw]
  | cons x s => simp at h; subst h; exact absurd (by simp [hw]) h0

theorem prefix_head {x : UInt8} {v : List UInt8} (h : [x] <+: v) : v.headD 1 = x := by
  obtain ⟨t, rfl⟩ := h; rfl

/-- The image of a group of rows. -/
def tmImg (L : List (List UInt8)) : List (List UInt8) := L.map fun v => v.flatMap tmD

theorem tmImg_append (L M : List (List UInt8)) : tmImg (L ++ M) = tmImg L ++ tmImg M := by simp [tmImg]

section
variable {w : List UInt8} (hab : ∀ c ∈ w, IsAb c) (hx : NoXXX w)
include hab hx

/-- The Thue--Morse step for words that end with `aab`. -/
theorem tmD_step_odd {w1 : List UInt8} (hw : w = w1 ++ [97, 97, 98]) :
    seg (w.flatMap tmMor ++ [0]) [0] = (seg (w ++ [0]) [0]).map complD ∧
    seg (w.flatMap tmMor ++ [0]) [97] =
      List.replicate ((bw (w ++ [0])).count 98) 98 ++ (seg (w ++ [0]) [97]).map complD ∧
    seg (w.flatMap tmMor ++ [0]) [98] =
      (seg (w ++ [0]) [98]).map complD ++ List.replicate ((bw (w ++ [0])).count 97) 97 ∧
    bw (w ++ [0]) = seg (w ++ [0]) [0] ++ seg (w ++ [0]) [97] ++ seg (w ++ [0]) [98] := by
  have h0 := ab_ne_zero hab
  have hw2 : w = (w1 ++ [97, 97]) ++ [98] := by rw [hw]; simp
  have hcut : ∀ v ∈ matrix (w ++ [0]), ∃ p ∈ [[0], [97], [98]], p <+: v := by
    intro v hv
    obtain ⟨p, s, hw, rfl⟩ := row_dollar.1 hv
    cases s with
    | nil => exact ⟨[0], by simp, ⟨p, rfl⟩⟩
    | cons x s =>
      rcases hab x (by rw [hw]; simp) with rfl | rfl
      · exact ⟨[97], by simp, ⟨_, rfl⟩⟩
      · exact ⟨[98], by simp, ⟨_, rfl⟩⟩
  have hM := matrix_eq_rowsP (ps := [[0], [97], [98]]) (by decide) hcut
  have hB := bw_eq_seg (ps := [[0], [97], [98]]) (by decide) hcut
  simp only [List.flatMap_cons, List.flatMap_nil, List.append_nil] at hM hB
  have mR : ∀ p, ∀ v ∈ rowsP (w ++ [0]) p, v ∈ matrix (w ++ [0]) := fun p v hv => (mem_rowsP.1 hv).1
  set W := w ++ [0] with hW
  let gs : List (List (List UInt8) × List (List UInt8)) :=
    [([[0]], tmImg (rowsP W [0])),
     ([[97, 0], [97, 97], [97, 98, 97, 97]], tmOdds 98 (matrix W)),
     ([[97, 98, 97, 98], [97, 98, 98]], tmImg (rowsP W [97])),
     ([[98, 97, 0], [98, 97, 97], [98, 97, 98, 97]], tmImg (rowsP W [98])),
     ([[98, 97, 98, 98], [98, 98]], tmOdds 97 (matrix W))]
  have hpf : gs.map Prod.fst = [[[0]], [[97, 0], [97, 97], [97, 98, 97, 97]], [[97, 98, 97, 98], [97, 98, 98]],
     [[98, 97, 0], [98, 97, 97], [98, 97, 98, 97]], [[98, 97, 98, 98], [98, 98]]] := rfl
  have h2 : ∀ g ∈ gs, ∀ r ∈ g.2, ∃ q ∈ g.1, q <+: r := by
    intro g hg
    simp only [gs, List.mem_cons, List.not_mem_nil, or_false] at hg
    rcases hg with rfl | rfl | rfl | rfl | rfl <;> intro r hr <;> obtain ⟨v, hv, rfl⟩ := List.mem_map.1 hr <;> simp only at hv ⊢
    · obtain ⟨hv1, hv2⟩ := mem_rowsP.1 hv
      rcases tmImg_prefix hab hv1 with ⟨h, h'⟩ | ⟨h, -⟩ | ⟨h, -⟩
      · exact ⟨_, by simp, h'⟩
      · rw [prefix_head hv2] at h; exact absurd h (by decide)
      · rw [prefix_head hv2] at h; exact absurd h (by decide)
    · simp only [List.mem_filter, decide_eq_true_eq] at hv
      rcases tmOdd_prefix hab hx hv.1 hv.2 (Or.inr rfl) with ⟨-, h⟩ | ⟨-, h⟩ | ⟨-, h | h⟩
      · exact ⟨_, by simp [compl], h⟩
      · exact ⟨_, by simp [compl], h⟩
      · exact ⟨_, by simp [compl], h⟩
      · exfalso
        obtain ⟨t, ht⟩ := h
        rw [hw] at ht
        have := (List.append_inj' (s₁ := t ++ [98]) (t₁ := [98]) (s₂ := w1 ++ [97, 97]) (t₂ := [98]) (by simpa using ht) rfl).1
        have := (List.append_inj' (s₁ := t) (t₁ := [98]) (s₂ := w1 ++ [97]) (t₂ := [97]) (by simpa using this) rfl).2
        exact absurd this (by decide)
    · obtain ⟨hv1, hv2⟩ := mem_rowsP.1 hv
      rcases tmImg_prefix hab hv1 with ⟨h, -⟩ | ⟨-, ⟨h, -⟩ | ⟨-, h | h⟩⟩ | ⟨h, -⟩
      · rw [prefix_head hv2] at h; exact absurd h (by decide)
      · exfalso
        have := rowsP_dollar_nil (s := [97]) h0 (by decide) (not_suffix_of_last (u := []) hw2 (by decide))
        have hm : v ∈ rowsP W [97, 0] := mem_rowsP.2 ⟨hv1, h⟩
        rw [show ([97, 0] : List UInt8) = [97] ++ [0] from rfl, this] at hm
        simp at hm
      · exact ⟨_, by simp, h⟩
      · exact ⟨_, by simp, h⟩
      · rw [prefix_head hv2] at h; exact absurd h (by decide)
    · obtain ⟨hv1, hv2⟩ := mem_rowsP.1 hv
      rcases tmImg_prefix hab hv1 with ⟨h, -⟩ | ⟨h, -⟩ | ⟨-, ⟨-, h⟩ | ⟨-, h | h⟩⟩
      · rw [prefix_head hv2] at h; exact absurd h (by decide)
      · rw [prefix_head hv2] at h; exact absurd h (by decide)
      · exact ⟨_, by simp, h⟩
      · exact ⟨_, by simp, h⟩
      · exact ⟨_, by simp, h⟩
    · simp only [List.mem_filter, decide_eq_true_eq] at hv
      rcases tmOdd_prefix hab hx hv.1 hv.2 (Or.inl rfl) with ⟨h, -⟩ | ⟨-, h⟩ | ⟨-, h | h⟩
      · exfalso
        have := rows_head0 h0 hv.1 h
        have e := hv.2
        rw [this, hw2, lastD_cons_concat] at e
        exact absurd e (by decide)
      · exact ⟨_, by simp [compl], h⟩
      · exact ⟨_, by simp [compl], h⟩
      · exact absurd h (not_suffix_of_last (u := [97]) hw2 (by decide))
  have hm' : matrix (w.flatMap tmMor ++ [0]) = gs.flatMap Prod.snd := by
    rw [← tmD_dollar hab]
    refine matrix_flatMap (fun c hc => tmD_ne ?_) ?_ ?_
    · rcases List.mem_append.1 hc with h | h
      · exact Or.inr (hab c h)
      · exact Or.inl (by simpa using h)
    · have e := tmD_lastRots (L := matrix W) fun v hv => ⟨row_ne hv, row_last hab hv⟩
      refine List.Perm.trans ?_ (e.symm.append_left _)
      have e2 : (matrix W).map (fun v => v.flatMap tmD) = tmImg (rowsP W [0]) ++ tmImg (rowsP W [97]) ++ tmImg (rowsP W [98]) := by
        conv_lhs => rw [hM]
        simp [tmImg]
      rw [e2, List.perm_iff_count]
      intro r
      simp only [gs, List.flatMap_cons, List.flatMap_nil, List.append_nil, List.count_append]
      omega
    · refine groups_sorted ?_ h2 (by rw [hpf]; decide)
      intro g hg
      simp only [gs, List.mem_cons, List.not_mem_nil, or_false] at hg
      rcases hg with rfl | rfl | rfl | rfl | rfl
      · exact tmImg_sorted hab (rowsP_sorted W _) (mR _)
      · exact tmOdds_sorted hab _ (matrix_sorted W) fun v hv => hv
      · exact tmImg_sorted hab (rowsP_sorted W _) (mR _)
      · exact tmImg_sorted hab (rowsP_sorted W _) (mR _)
      · exact tmOdds_sorted hab _ (matrix_sorted W) fun v hv => hv
  refine ⟨?_, ?_, ?_, by rw [hB]; simp⟩
  · rw [seg, rowsP_groups hm' h2 (by rw [hpf]; decide)]
    have e : (gs.filter fun g => g.1.all fun q => ([0] : List UInt8).isPrefixOf q) = [([[0]], tmImg (rowsP W [0]))] := rfl
    rw [e]
    simp only [List.flatMap_cons, List.flatMap_nil, List.append_nil]
    rw [tmImg, tmImg_last hab (mR _)]; rfl
  · rw [seg, rowsP_groups hm' h2 (by rw [hpf]; decide)]
    have e : (gs.filter fun g => g.1.all fun q => ([97] : List UInt8).isPrefixOf q) = [([[97, 0], [97, 97], [97, 98, 97, 97]], tmOdds 98 (matrix W)),
     ([[97, 98, 97, 98], [97, 98, 98]], tmImg (rowsP W [97]))] := rfl
    rw [e]
    simp only [List.flatMap_cons, List.flatMap_nil, List.append_nil, List.map_append]
    rw [tmImg, tmImg_last hab (mR _), tmOdds_last]; rfl
  · rw [seg, rowsP_groups hm' h2 (by rw [hpf]; decide)]
    have e : (gs.filter fun g => g.1.all fun q => ([98] : List UInt8).isPrefixOf q) = [([[98, 97, 0], [98, 97, 97], [98, 97, 98, 97]], tmImg (rowsP W [98])),
     ([[98, 97, 98, 98], [98, 98]], tmOdds 97 (matrix W))] := rfl
    rw [e]
    simp only [List.flatMap_cons, List.flatMap_nil, List.append_nil, List.map_append]
    rw [tmImg, tmImg_last hab (mR _), tmOdds_last]; rfl

end

end Verif
