import Verif.Lemmas.Lexparse
import Verif.Lemmas.RunAttractor
import Verif.Lemmas.BwtNecklace
import Mathlib.Data.Finset.Card
import Mathlib.Order.Interval.Finset.Nat

/-! # The lex-parse has at most as many factors as runs and letters together -/

namespace Verif
open Spec Model

/-- Longest common prefix with the preceding suffix. -/
def plcpAt (t : List UInt8) (phi : List Nat) (p : Nat) : Nat := lcpLen (t.drop (phi.getD p 0)) (t.drop p)

/-- Position `p` and the preceding suffix are preceded by the same letter. -/
def Reducible (t : List UInt8) (sa : List Nat) (p : Nat) : Prop :=
  ∃ r q : Nat, sa[r + 1]? = some p ∧ sa[r]? = some q ∧ 0 < p ∧ 0 < q ∧ t[p - 1]? = t[q - 1]?

section
variable {t : List UInt8} {sa phi : List Nat}

theorem drop_pred {p : Nat} (h0 : 0 < p) {c : UInt8} (hc : t[p - 1]? = some c) :
    t.drop (p - 1) = c :: t.drop p := by
  obtain ⟨q, e⟩ := List.getElem?_eq_some_iff.1 hc
  rw [List.drop_eq_getElem_cons q, e, show p - 1 + 1 = p by omega]

theorem reducible_step (hs : IsSuffixArray t sa) (hphi : IsPhi sa phi) {p : Nat} (h : Reducible t sa p) :
    plcpAt t phi (p - 1) = plcpAt t phi p + 1 := by
  obtain ⟨r, q, h1, h2, hp0, hq0, hpq⟩ := h
  obtain ⟨hr1, e1⟩ := List.getElem?_eq_some_iff.1 h1
  obtain ⟨hr, e2⟩ := List.getElem?_eq_some_iff.1 h2
  have hp : p < t.length := e1 ▸ hs.lt hr1
  have hq : q < t.length := e2 ▸ hs.lt hr
  obtain ⟨c, hc⟩ : ∃ c, t[p - 1]? = some c := ⟨_, List.getElem?_eq_getElem (by omega)⟩
  have dp := drop_pred hp0 hc
  have dq := drop_pred hq0 (hpq ▸ hc)
  have hlt : t.drop q < t.drop p := by
    have := (hs.lt_iff hr hr1).2 (by omega)
    rwa [e1, e2] at this
  obtain ⟨a, ha, ea⟩ := hs.rank (show p - 1 < t.length by omega)
  obtain ⟨b, hb, eb⟩ := hs.rank (show q - 1 < t.length by omega)
  have hlt' : t.drop (q - 1) < t.drop (p - 1) := by
    rw [dp, dq, cons_lt_cons]; exact Or.inr ⟨rfl, hlt⟩
  have hba : b < a := by
    rw [← ea, ← eb] at hlt'; exact (hs.lt_iff hb ha).1 hlt'
  have hab : a = b + 1 := by
    by_contra hne
    have hx : b + 1 < sa.length := by omega
    have g1 := (hs.lt_iff hb hx).2 (by omega)
    have g2 := (hs.lt_iff hx ha).2 (by omega)
    rw [eb] at g1; rw [ea] at g2
    have hxl := hs.lt hx
    generalize sa[b + 1] = x at g1 g2 hxl
    have hpre : [c] <+: t.drop x :=
      prefix_between (x := t.drop (q - 1)) (z := t.drop (p - 1)) (by rw [dq]; exact ⟨_, rfl⟩)
        (by rw [dp]; exact ⟨_, rfl⟩) g1.le g2.le
    obtain ⟨y, hy⟩ := hpre
    have hy' : t.drop (x + 1) = y := by
      rw [← List.tail_drop, ← hy]; rfl
    rw [← hy] at g1 g2
    rw [dq, List.singleton_append, cons_lt_cons] at g1
    rw [dp, List.singleton_append, cons_lt_cons] at g2
    have g1 : t.drop q < t.drop (x + 1) := by
      rcases g1 with g | g
      · exact absurd g (lt_irrefl _)
      · rw [hy']; exact g.2
    have g2 : t.drop (x + 1) < t.drop p := by
      rcases g2 with g | g
      · exact absurd g (lt_irrefl _)
      · rw [hy']; exact g.2
    rcases Nat.lt_or_ge (x + 1) t.length with hx1 | hx1
    · obtain ⟨k, hk, ek⟩ := hs.rank hx1
      rw [← ek, ← e1] at g2
      rw [← ek, ← e2] at g1
      have := (hs.lt_iff hr hk).1 g1
      have := (hs.lt_iff hk hr1).1 g2
      omega
    · rw [List.drop_eq_nil_of_le hx1] at g1
      exact absurd g1 (by simp)
  subst hab
  have s1 := hphi.step (b + 1) (by omega) ha
  have s2 := hphi.step (r + 1) (by omega) hr1
  simp only [Nat.add_sub_cancel] at s1 s2
  rw [ea, eb] at s1
  rw [e1, e2] at s2
  simp only [plcpAt, List.getD_eq_getElem?_getD, s1, s2, Option.getD_some]
  rw [dp, dq, lcpLen, if_pos rfl]

theorem reducible_chain (hs : IsSuffixArray t sa) (hphi : IsPhi sa phi) (i d : Nat)
    (h : ∀ p, i < p → p ≤ i + d → Reducible t sa p) : plcpAt t phi i = plcpAt t phi (i + d) + d := by
  induction d with
  | zero => rfl
  | succ d ih =>
    rw [ih (fun p h1 h2 => h p h1 (by omega))]
    have := reducible_step hs hphi (h (i + (d + 1)) (by omega) (by omega))
    rw [show i + (d + 1) - 1 = i + d by omega] at this
    rw [this]; omega

open Classical in
/-- The positions in `(i, n)` that are irreducible or share nothing with the preceding suffix. -/
noncomputable def cutPositions (t : List UInt8) (sa phi : List Nat) (i : Nat) : Nat :=
  ((Finset.Ioo i t.length).filter (fun p => ¬ Reducible t sa p)).card +
    ((Finset.Ioo i t.length).filter (fun p => plcpAt t phi p = 0)).card

theorem lexparse_length_le (hs : IsSuffixArray t sa) (hphi : IsPhi sa phi) :
    ∀ (fs : List LZFactor) (i : Nat), i < t.length → LexParse t phi i fs →
      fs.length ≤ 1 + cutPositions t sa phi i := by
  classical
  intro fs
  induction fs with
  | nil => intro i _ _; simp
  | cons f fs ih =>
    rintro i hi ⟨h1, ⟨a, ha, hl⟩, h2⟩
    have hfl : f.len = plcpAt t phi i := by
      rw [hl, plcpAt, List.getD_eq_getElem?_getD, ha]; rfl
    have hpos : 0 < factorLength f := by rw [factorLength]; split_ifs <;> omega
    rcases Nat.lt_or_ge (i + factorLength f) t.length with hj | hj
    · have hih := ih _ hj h2
      have hsub : Finset.Ioo (i + factorLength f) t.length ⊆ Finset.Ioo i t.length := by
        intro x hx; rw [Finset.mem_Ioo] at hx ⊢; omega
      have m1 := Finset.card_le_card (Finset.filter_subset_filter (fun p => ¬ Reducible t sa p) hsub)
      have m2 := Finset.card_le_card (Finset.filter_subset_filter (fun p => plcpAt t phi p = 0) hsub)
      have key : (∃ p, i < p ∧ p ≤ i + factorLength f ∧ ¬ Reducible t sa p) ∨
          plcpAt t phi (i + factorLength f) = 0 := by
        by_contra hcon
        push Not at hcon
        have hch := reducible_chain hs hphi i (factorLength f) (fun p a b => hcon.1 p a b)
        rw [factorLength] at hch hcon
        split_ifs at hch hcon <;> omega
      rw [List.length_cons]
      unfold cutPositions at hih ⊢
      rcases key with ⟨p, p1, p2, p3⟩ | hz
      · have : ((Finset.Ioo (i + factorLength f) t.length).filter (fun p => ¬ Reducible t sa p)).card <
            ((Finset.Ioo i t.length).filter (fun p => ¬ Reducible t sa p)).card := by
          apply Finset.card_lt_card
          refine Finset.ssubset_iff_subset_ne.2 ⟨Finset.filter_subset_filter _ hsub, fun e => ?_⟩
          have : p ∈ (Finset.Ioo i t.length).filter (fun p => ¬ Reducible t sa p) := by
            rw [Finset.mem_filter, Finset.mem_Ioo]; exact ⟨by omega, p3⟩
          rw [← e, Finset.mem_filter, Finset.mem_Ioo] at this
          omega
        omega
      · have : ((Finset.Ioo (i + factorLength f) t.length).filter (fun p => plcpAt t phi p = 0)).card <
            ((Finset.Ioo i t.length).filter (fun p => plcpAt t phi p = 0)).card := by
          apply Finset.card_lt_card
          refine Finset.ssubset_iff_subset_ne.2 ⟨Finset.filter_subset_filter _ hsub, fun e => ?_⟩
          have : i + factorLength f ∈ (Finset.Ioo i t.length).filter (fun p => plcpAt t phi p = 0) := by
            rw [Finset.mem_filter, Finset.mem_Ioo]; exact ⟨by omega, hz⟩
          rw [← e, Finset.mem_filter, Finset.mem_Ioo] at this
          omega
        omega
    · cases fs with
      | nil => simp
      | cons g gs =>
        obtain ⟨-, ⟨a', ha', -⟩, -⟩ := h2
        have := (List.getElem?_eq_some_iff.1 ha').1
        rw [hphi.len, hs.length] at this
        omega

/-- Suffixes sharing nothing with the preceding suffix start with different letters. -/
theorem plcp_zero_card (hs : IsSuffixArray t sa) (hphi : IsPhi sa phi) (i : Nat) :
    ((Finset.Ioo i t.length).filter (fun p => plcpAt t phi p = 0)).card ≤ t.toFinset.card := by
  apply Finset.card_le_card_of_injOn (fun p => t.getD p 0)
  · intro p hp
    simp only [Finset.coe_filter, Finset.mem_Ioo, Set.mem_ofPred_eq] at hp
    simp only [List.coe_toFinset, Set.mem_ofPred_eq, List.getD_eq_getElem?_getD,
      List.getElem?_eq_getElem hp.1.2, Option.getD_some]
    exact List.getElem_mem _
  · have main : ∀ p q, p < t.length → q < t.length → plcpAt t phi q = 0 → t.drop p < t.drop q →
        t.getD p 0 ≠ t.getD q 0 := by
      intro p q hp hq hz hlt heq
      obtain ⟨a, ha, rfl⟩ := hs.rank hp
      obtain ⟨b, hb, rfl⟩ := hs.rank hq
      have hab := (hs.lt_iff ha hb).1 hlt
      have st := hphi.step b (by omega) hb
      simp only [plcpAt, List.getD_eq_getElem?_getD, st, Option.getD_some] at hz
      have hb1 : b - 1 < sa.length := by omega
      have hx := hs.lt hb1
      have d1 : t.drop sa[a] = t[sa[a]] :: t.drop (sa[a] + 1) := List.drop_eq_getElem_cons hp
      have d2 : t.drop sa[b] = t[sa[b]] :: t.drop (sa[b] + 1) := List.drop_eq_getElem_cons hq
      simp only [List.getD_eq_getElem?_getD, List.getElem?_eq_getElem hp, List.getElem?_eq_getElem hq,
        Option.getD_some] at heq
      have hle : t.drop sa[a] ≤ t.drop sa[b - 1] := by
        rcases Nat.eq_or_lt_of_le (show a ≤ b - 1 by omega) with e | e
        · subst e; exact le_rfl
        · exact ((hs.lt_iff ha hb1).2 e).le
      have hpre : [t[sa[b]]] <+: t.drop sa[b - 1] :=
        prefix_between (x := t.drop sa[a]) (z := t.drop sa[b]) (by rw [d1, heq]; exact ⟨_, rfl⟩)
          (by rw [d2]; exact ⟨_, rfl⟩) hle ((hs.lt_iff hb1 hb).2 (by omega)).le
      obtain ⟨y, hy⟩ := hpre
      rw [← hy, d2, List.singleton_append, lcpLen, if_pos rfl] at hz
      omega
    intro p hp q hq heq
    simp only [Finset.coe_filter, Finset.mem_Ioo, Set.mem_ofPred_eq] at hp hq
    dsimp only at heq
    rcases lt_trichotomy (t.drop p) (t.drop q) with h | h | h
    · exact absurd heq (main p q hp.1.2 hq.1.2 hq.2 h)
    · exact drop_injOn hp.1.2.le hq.1.2.le h
    · exact absurd heq.symm (main q p hq.1.2 hp.1.2 hp.2 h)

end

/-- The suffix array of a zero-free text with its sentinel. -/
theorem suffixArray_snoc {T : List UInt8} {sa : List Nat} (hT : ∀ x ∈ T, x ≠ 0) (hs : IsSuffixArray T sa) :
    IsSuffixArray (T ++ [0]) (T.length :: sa) := by
  have hd : ∀ a, a ≤ T.length → (T ++ [(0 : UInt8)]).drop a = T.drop a ++ [0] := by
    intro a ha; rw [List.drop_append_of_le_length ha]
  refine ⟨?_, ?_⟩
  · rw [List.length_append, List.length_singleton, List.range_succ]
    exact (List.Perm.cons _ hs.1).trans (List.perm_append_singleton _ _).symm
  · rw [List.pairwise_cons]
    refine ⟨?_, ?_⟩
    · intro a ha
      have ha' := hs.mem.1 ha
      rw [hd _ le_rfl, hd _ ha'.le]
      refine snoc_zero_lt hT (List.drop_suffix _ _) ?_
      rw [List.drop_length, List.drop_eq_getElem_cons ha']
      exact List.nil_lt_cons _ _
    · refine hs.2.imp_of_mem ?_
      intro a b ha hb hab
      rw [hd _ (hs.mem.1 ha).le, hd _ (hs.mem.1 hb).le]
      exact snoc_zero_lt hT (List.drop_suffix _ _) hab

open Classical in
/-- Irreducible positions are starts of runs of the transform. -/
theorem irreducible_card {T b : List UInt8} {sa : List Nat} (h0 : T ≠ []) (hT : ∀ x ∈ T, x ≠ 0)
    (hs : IsSuffixArray T sa)
    (hb : b.map some = (T.length :: sa).map (fun i => (rot i (T ++ [0])).getLast?)) :
    ((Finset.Ioo 0 T.length).filter (fun p => ¬ Reducible T sa p)).card ≤ changes b := by
  have hlast : (T ++ [(0 : UInt8)]).getLast? = some 0 := by simp
  have hsl := hs.length
  have hTl := List.length_pos_iff.2 h0
  have hbl : b.length = T.length + 1 := by
    have := congrArg List.length hb
    simpa [hsl] using this
  have hbi : ∀ (i s : Nat), (T.length :: sa)[i]? = some s → s ≤ T.length → b[i]? = (0 :: T)[s]? := by
    intro i s hi hsn
    have h1 : (b.map some)[i]? = some ((rot s (T ++ [0])).getLast?) := by
      rw [hb, List.getElem?_map, hi]; rfl
    rw [rot_getLast_cons hlast (by simp; omega), List.getElem?_map] at h1
    have e : (0 :: (T ++ [(0 : UInt8)]))[s]? = (0 :: T)[s]? := by
      rw [← List.cons_append, List.getElem?_append_left (by simp; omega)]
    cases hbb : b[i]? with
    | none => rw [hbb] at h1; simp at h1
    | some x => rw [hbb] at h1; rw [← e]; simpa using h1
  -- the ranks of the letters
  have hrank : ∀ p, p < T.length → ∃ r : Nat, sa[r]? = some p := by
    intro p hp; exact List.mem_iff_getElem?.1 (hs.mem.2 hp)
  let C : Finset Nat := (Finset.range (b.length - 1)).filter (fun i => b[i]? ≠ b[i + 1]?)
  have hC : C.card = changes b := by
    unfold changes
    rw [← List.toFinset_card_of_nodup ((List.nodup_range).filter _)]
    congr 1
    ext i
    simp [C]
  obtain ⟨r0, hr0⟩ := hrank 0 hTl
  have hr0C : r0 ∈ C := by
    have hr0l := (List.getElem?_eq_some_iff.1 hr0).1
    have e1 : b[r0 + 1]? = some 0 := by
      rw [hbi (r0 + 1) 0 (by simpa using hr0) (by omega)]; rfl
    have e2 : b[r0]? ≠ some 0 := by
      have hex : ∃ s : Nat, (T.length :: sa)[r0]? = some s ∧ 0 < s ∧ s ≤ T.length := by
        cases r0 with
        | zero => exact ⟨T.length, rfl, hTl, le_rfl⟩
        | succ r =>
          have hr : r < sa.length := by omega
          refine ⟨sa[r], by simp [List.getElem?_eq_getElem hr], ?_, (hs.lt hr).le⟩
          rcases Nat.eq_zero_or_pos sa[r] with e | e
          · exfalso
            obtain ⟨q, e'⟩ := List.getElem?_eq_some_iff.1 hr0
            have := (List.getElem_inj (perm_range_nodup hs.1)).1 (e.trans e'.symm)
            omega
          · exact e
      obtain ⟨s, g1, g2, g3⟩ := hex
      rw [hbi _ _ g1 g3]
      obtain ⟨s, rfl⟩ : ∃ k, s = k + 1 := ⟨s - 1, by omega⟩
      rw [List.getElem?_cons_succ]
      intro h
      exact hT 0 (List.mem_of_getElem? h) rfl
    rw [Finset.mem_filter, Finset.mem_range]
    exact ⟨by omega, by rw [e1]; exact e2⟩
  rw [← hC]
  have hinj : ((Finset.Ioo 0 T.length).filter (fun p => ¬ Reducible T sa p)).card ≤
      (insert 0 (C.erase r0)).card := by
    apply Finset.card_le_card_of_injOn (fun p => sa.idxOf p)
    · intro p hp
      simp only [Finset.coe_filter, Finset.mem_Ioo, Set.mem_ofPred_eq] at hp
      obtain ⟨⟨hp0, hpn⟩, hirr⟩ := hp
      have hmem := hs.mem.2 hpn
      have hlt := List.idxOf_lt_length_of_mem hmem
      have hget : sa[sa.idxOf p]? = some p := by
        rw [List.getElem?_eq_getElem hlt, List.getElem_idxOf]
      show sa.idxOf p ∈ (↑(insert 0 (C.erase r0)) : Set Nat)
      rw [Finset.mem_coe, Finset.mem_insert]
      rcases Nat.eq_zero_or_pos (sa.idxOf p) with h | hpos
      · exact Or.inl h
      · right
        rw [Finset.mem_erase, Finset.mem_filter, Finset.mem_range]
        refine ⟨?_, by omega, ?_⟩
        · intro e; rw [e, hr0] at hget
          simp only [Option.some.injEq] at hget; omega
        · generalize sa.idxOf p = r at *
          obtain ⟨r, rfl⟩ : ∃ k, r = k + 1 := ⟨r - 1, by omega⟩
          have hr : r < sa.length := by omega
          have hq := hs.lt hr
          rw [hbi (r + 1 + 1) p (by simpa using hget) hpn.le,
            hbi (r + 1) sa[r] (by simp [List.getElem?_eq_getElem hr]) hq.le]
          intro e
          obtain ⟨p, rfl⟩ : ∃ k, p = k + 1 := ⟨p - 1, by omega⟩
          rw [List.getElem?_cons_succ] at e
          cases hqq : sa[r] with
          | zero =>
            rw [hqq] at e
            exact hT 0 (List.mem_of_getElem? (e.symm.trans rfl)) rfl
          | succ q =>
            rw [hqq, List.getElem?_cons_succ] at e
            exact hirr ⟨r, q + 1, hget, by rw [List.getElem?_eq_getElem hr, hqq], by omega, by omega, e.symm⟩
    · intro p hp q hq e
      simp only [Finset.coe_filter, Finset.mem_Ioo, Set.mem_ofPred_eq] at hp hq
      exact (List.idxOf_inj (hs.mem.2 hp.1.2)).1 e
  refine hinj.trans ((Finset.card_insert_le _ _).trans ?_)
  rw [Finset.card_erase_of_mem hr0C]
  have : 0 < C.card := Finset.card_pos.2 ⟨_, hr0C⟩
  omega

end Verif
