import Verif.Lemmas.SuffixTree
import Mathlib.Data.Finset.Card

/-! # The size of the suffix tree -/

namespace Verif

open Spec

variable {α : Type}

theorem Spec.OccursAt.prefix {u v T : List α} {j : Nat} (h : OccursAt v T j) (hu : u <+: v) : OccursAt u T j :=
  ⟨by have := h.1; have := hu.length_le; omega, hu.trans h.2⟩

theorem drop_occ {T : List α} {u : List α} {j : Nat} (hj : j ≤ T.length) (h : u <+: T.drop j) : OccursAt u T j :=
  ⟨by have := h.length_le; rw [List.length_drop] at this; omega, h⟩

section
variable {T : List α} {sa : List Nat} {L : List (TreeEdge α)} (h : IsSuffixTree T sa L)
include h

theorem tree_stem_lower {x : TreeEdge α} (hx : x ∈ L) : x.stem <+: x.lower := (h.lower x hx _ (List.prefix_refl _)).1 fun _ hj => hj

theorem tree_ext {x : TreeEdge α} (hx : x ∈ L) {j : Nat} (hj : OccursAt x.stem T j) : OccursAt x.lower T j :=
  (h.lower x hx _ (tree_stem_lower h hx)).2 (List.prefix_refl _) j hj

/-- A stem that occurs wherever another one does is not longer. -/
theorem tree_stem_le {x y : TreeEdge α} (hy : y ∈ L) (hp : x.stem <+: y.lower)
    (ho : ∀ j, OccursAt x.stem T j → OccursAt y.stem T j) : y.stem.length ≤ x.stem.length := by
  by_contra hlt
  have e : y.stem.length = y.upper.length + 1 := by simp [TreeEdge.stem]
  obtain ⟨-, j, h1, h2⟩ := (h.forks y.upper y.letter).1 ⟨y, hy, rfl, rfl⟩
  have hu : x.stem <+: y.upper := List.prefix_of_prefix_length_le hp
    ((List.prefix_append _ _).trans (tree_stem_lower h hy)) (by omega)
  exact h2 (ho j (h1.prefix hu))

/-- Two edges whose stems occur at the same places and lie on one path are the same. -/
theorem tree_eq {x y : TreeEdge α} (hx : x ∈ L) (hy : y ∈ L) (hxy : x.stem <+: y.lower) (hyx : y.stem <+: x.lower)
    (ho : ∀ j, OccursAt x.stem T j ↔ OccursAt y.stem T j) : x = y := by
  have h1 := tree_stem_le h hy hxy fun j => (ho j).1
  have h2 := tree_stem_le h hx hyx fun j => (ho j).2
  have e : x.stem = y.stem := by
    refine (List.prefix_of_prefix_length_le hxy (tree_stem_lower h hy) (by omega)).eq_of_length (by omega)
  exact List.inj_on_of_nodup_map h.once hx hy e

theorem tree_eq_of_lower {x y : TreeEdge α} (hx : x ∈ L) (hy : y ∈ L) (e : x.lower = y.lower) : x = y :=
  tree_eq h hx hy (e ▸ tree_stem_lower h hx) (e ▸ tree_stem_lower h hy) fun j =>
    ⟨fun hj => (e ▸ tree_ext h hx hj).prefix (tree_stem_lower h hy), fun hj => (e ▸ tree_ext h hy hj).prefix (tree_stem_lower h hx)⟩

/-- Every suffix is the word of a node. -/
theorem tree_suffix {i : Nat} (hi : i < T.length) : ∃ x ∈ L, x.lower = T.drop i := by
  classical
  set s := T.drop i with hs
  have hsl : s.length = T.length - i := by rw [hs, List.length_drop]
  have hocc : ∀ m, m ≤ s.length → OccursAt (s.take m) T i := fun m _ => drop_occ (by omega) (List.take_prefix _ _)
  -- the longest proper prefix at which the text forks
  let P := fun m => ∃ a, s.take (m + 1) = s.take m ++ [a] ∧ Forks T (s.take m) a
  have hstep : ∀ m, m < s.length → ∃ a, s.take (m + 1) = s.take m ++ [a] := fun m hm => ⟨s[m], (List.take_append_getElem hm).symm⟩
  have h0 : P 0 := by
    obtain ⟨a, ha⟩ := hstep 0 (by omega)
    refine ⟨a, ha, ?_, T.length, drop_occ le_rfl (List.nil_prefix), fun hc => ?_⟩
    · rw [← ha]
      have := hocc 1 (by omega)
      exact (List.take_prefix _ _).isInfix.trans (List.drop_suffix _ _).isInfix
    · have := hc.1
      simp at this
  have hex : ∃ m, m < s.length ∧ P m ∧ ∀ m', m < m' → m' < s.length → ¬ P m' := by
    have : ∀ d m, m + d = s.length → m < s.length → P m → ∃ m, m < s.length ∧ P m ∧ ∀ m', m < m' → m' < s.length → ¬ P m' := by
      intro d
      induction d using Nat.strong_induction_on with
      | _ d ih =>
        intro m hd hm hP
        by_cases hn : ∃ m', m < m' ∧ m' < s.length ∧ P m'
        · obtain ⟨m', g1, g2, g3⟩ := hn
          exact ih (s.length - m') (by omega) m' (by omega) g2 g3
        · exact ⟨m, hm, hP, fun m' g1 g2 g3 => hn ⟨m', g1, g2, g3⟩⟩
    exact this _ 0 (Nat.zero_add _) (by omega) h0
  obtain ⟨m, hm, ⟨a, ha, hf⟩, hmax⟩ := hex
  obtain ⟨x, hx, e1, e2⟩ := (h.forks _ _).2 hf
  have hst : x.stem = s.take (m + 1) := by rw [TreeEdge.stem, e1, e2, ha]
  refine ⟨x, hx, ?_⟩
  -- every occurrence of the stem is one of the suffix
  have hall : ∀ d, m + 1 + d ≤ s.length → ∀ j, OccursAt x.stem T j → OccursAt (s.take (m + 1 + d)) T j := by
    intro d
    induction d with
    | zero => intro _ j hj; rwa [Nat.add_zero, ← hst]
    | succ d ih =>
      intro hd j hj
      obtain ⟨b, hb⟩ := hstep (m + 1 + d) (by omega)
      by_contra hno
      refine hmax (m + 1 + d) (by omega) (by omega) ⟨b, hb, ?_, j, ih (by omega) j hj, fun hc => hno ?_⟩
      · rw [← hb]
        exact (List.take_prefix _ _).isInfix.trans (List.drop_suffix _ _).isInfix
      · rw [← Nat.add_assoc, hb]; exact hc
  have hsl' : s.take (m + 1 + (s.length - (m + 1))) = s := List.take_of_length_le (by omega)
  have hps : x.stem <+: s := hst ▸ List.take_prefix _ _
  have g1 : s <+: x.lower := (h.lower x hx _ hps).1 fun j hj => by
    have := hall (s.length - (m + 1)) (by omega) j hj
    rwa [hsl'] at this
  have g2 := tree_ext h hx (j := i) (drop_occ (by omega) hps)
  exact (g2.2.eq_of_length_le g1.length_le)

theorem tree_lower_bound : T.length ≤ L.length := by
  classical
  have hsub : ((List.range T.length).map fun i => T.drop i) ⊆ L.map TreeEdge.lower := by
    intro v hv
    obtain ⟨i, hi, rfl⟩ := List.mem_map.1 hv
    obtain ⟨x, hx, e⟩ := tree_suffix h (List.mem_range.1 hi)
    exact List.mem_map.2 ⟨x, hx, e⟩
  have hnd : ((List.range T.length).map fun i => T.drop i).Nodup := by
    refine List.Nodup.map_on (fun i hi j hj e => ?_) List.nodup_range
    have := congrArg List.length e
    simp only [List.length_drop, List.mem_range] at this hi hj
    omega
  have := (hnd.subperm hsub).length_le
  simpa using this

end

/-- The entries `r` and `r + 1` belong to the interval and go on with different letters after the word of the node. -/
def SplitAt (T : List α) (sa : List Nat) (x : TreeEdge α) (r : Nat) : Prop :=
  x.first ≤ r ∧ r < x.last ∧ ∃ (h1 : r + 1 < sa.length) (c : α), OccursAt (x.lower ++ [c]) T sa[r + 1] ∧
      ¬ OccursAt (x.lower ++ [c]) T sa[r]

theorem split_inj {T : List α} {sa : List Nat} {L : List (TreeEdge α)} (h : IsSuffixTree T sa L) {x y : TreeEdge α} (hx : x ∈ L) (hy : y ∈ L)
    {r : Nat} (sx : SplitAt T sa x r) (sy : SplitAt T sa y r) : x = y := by
  obtain ⟨g1, g2, g3, c, g4, g5⟩ := sx
  obtain ⟨k1, k2, k3, d, k4, k5⟩ := sy
  have ox := (h.interval x hx r (by omega)).1 ⟨g1, by omega⟩
  have oy := (h.interval y hy r (by omega)).1 ⟨k1, by omega⟩
  have oy1 := (h.interval y hy (r + 1) (by omega)).1 ⟨by omega, by omega⟩
  have ox1 := (h.interval x hx (r + 1) (by omega)).1 ⟨by omega, by omega⟩
  have hlen : x.lower.length = y.lower.length := by
    rcases Nat.lt_trichotomy x.lower.length y.lower.length with hl | hl | hl
    · have := List.prefix_of_prefix_length_le g4.2 oy1.2 (by simp; omega)
      exact absurd (oy.prefix this) g5
    · exact hl
    · have := List.prefix_of_prefix_length_le k4.2 ox1.2 (by simp; omega)
      exact absurd (ox.prefix this) k5
  exact tree_eq_of_lower h hx hy ((List.prefix_of_prefix_length_le ox.2 oy.2 (by omega)).eq_of_length hlen)

section
variable {T : List UInt8} {sa : List Nat} {L : List (TreeEdge UInt8)} (h : IsSuffixTree T sa L) (hT : ∀ x ∈ T, x ≠ 0)
  (hs : IsSuffixArray (T ++ [0]) sa)
include h hT hs

omit h in
theorem sa_zero (h0 : 0 < sa.length) : sa[0] = T.length := by
  have hmem : T.length ∈ sa := hs.1.mem_iff.2 (by simp)
  obtain ⟨q, hq, e⟩ := List.getElem_of_mem hmem
  rcases Nat.eq_zero_or_pos q with rfl | hq0
  · exact e
  · have hlt := List.pairwise_iff_getElem.1 hs.2 0 q h0 hq hq0
    rw [e, List.drop_left] at hlt
    have hm : sa[0] < (T ++ [0]).length := List.mem_range.1 (hs.1.mem_iff.1 (List.getElem_mem h0))
    rw [List.length_append, List.length_singleton] at hm
    by_contra hne
    rw [List.drop_append_of_le_length (by omega), List.drop_eq_getElem_cons (by omega), List.cons_append, List.cons_lt_cons_iff] at hlt
    rcases hlt with hlt | ⟨hlt, -⟩
    · exact absurd hlt (by have : ¬ T[sa[0]] < 0 := by
                             intro hc; exact absurd (UInt8.lt_iff_toNat_lt.1 hc) (by simp)
                           exact this)
    · exact hT _ (List.getElem_mem _) hlt

omit hT hs in
theorem tree_lower_ne {x : TreeEdge UInt8} (hx : x ∈ L) : 0 < x.lower.length := by
  have := (tree_stem_lower h hx).length_le
  simp [TreeEdge.stem] at this
  omega

theorem tree_first_pos {x : TreeEdge UInt8} (hx : x ∈ L) : 1 ≤ x.first := by
  by_contra hn
  obtain ⟨r1, r2⟩ := h.range x hx
  have := (h.interval x hx x.first (by omega)).1 ⟨le_rfl, r1⟩
  have h1 := this.1
  have h2 := sa_zero hT hs (show 0 < sa.length by omega)
  have h3 := tree_lower_ne h hx
  simp only [show x.first = 0 by omega] at h1
  omega

/-- In an interval of more than one entry some neighbours go on with different letters after the word of the node. -/
theorem tree_split {x : TreeEdge UInt8} (hx : x ∈ L) (hlt : x.first < x.last) :
    ∃ r, SplitAt T sa x r := by
  obtain ⟨r1, r2⟩ := h.range x hx
  by_contra hno
  have key : ∀ c d, ∀ (hd : x.first + d ≤ x.last), OccursAt (x.lower ++ [c]) T (sa[x.first + d]'(by omega)) →
      ∀ e, ∀ (he : e ≤ d), OccursAt (x.lower ++ [c]) T (sa[x.first + e]'(by omega)) := by
    intro c d
    induction d with
    | zero => intro hd ho e he; simpa only [show e = 0 by omega] using ho
    | succ d ih =>
      intro hd ho e he
      rcases Nat.lt_or_ge e (d + 1) with hl | hl
      · refine ih (by omega) ?_ e (by omega)
        by_contra hn
        exact hno ⟨x.first + d, by omega, by omega, by omega, c, ho, hn⟩
      · simpa only [show e = d + 1 by omega] using ho
  have hlast : OccursAt x.lower T sa[x.last] := (h.interval x hx x.last r2).1 ⟨r1, le_rfl⟩
  have hfirst : OccursAt x.lower T (sa[x.first]'(by omega)) := (h.interval x hx x.first (by omega)).1 ⟨le_rfl, r1⟩
  have l1 := hlast.1
  have l2 := hfirst.1
  by_cases hend : sa[x.last] + x.lower.length = T.length
  · -- the last entry is a suffix of the text, the first one is not
    have hsrt := List.pairwise_iff_getElem.1 hs.2 x.first x.last (by omega) r2 hlt
    have hne : sa[x.first]'(by omega) ≠ sa[x.last] := fun e => by rw [e] at hsrt; exact lt_irrefl _ hsrt
    have e1 : (T ++ [0]).drop sa[x.last] = x.lower ++ [0] := by
      rw [List.drop_append_of_le_length (by omega)]
      rw [hlast.2.eq_of_length (by rw [List.length_drop]; omega)]
    obtain ⟨c, z, e2⟩ : ∃ c z, T.drop (sa[x.first]'(by omega)) = x.lower ++ c :: z := by
      obtain ⟨z, hz⟩ := hfirst.2
      rcases z with _ | ⟨c, z⟩
      · have := congrArg List.length hz
        rw [List.length_append, List.length_drop, List.length_nil] at this
        omega
      · exact ⟨c, z, hz.symm⟩
    rw [e1, List.drop_append_of_le_length (by omega), e2, List.append_assoc] at hsrt
    have hc : c ∈ T := (List.drop_suffix _ _).subset (by rw [e2]; simp)
    have : ∀ u : List UInt8, u ++ (c :: z ++ [0]) < u ++ [0] → False := by
      intro u
      induction u with
      | nil =>
        intro hl
        rw [List.nil_append, List.nil_append, List.cons_append, List.cons_lt_cons_iff] at hl
        rcases hl with hl | ⟨hl, -⟩
        · exact absurd (UInt8.lt_iff_toNat_lt.1 hl) (by simp)
        · exact hT c hc hl
      | cons b u ih =>
        intro hl
        have hl : b :: (u ++ (c :: z ++ [0])) < b :: (u ++ [0]) := hl
        rw [List.cons_lt_cons_iff] at hl
        rcases hl with hl | ⟨-, hl⟩
        · exact lt_irrefl _ hl
        · exact ih hl
    exact this _ hsrt
  · -- every entry goes on with the letter of the last one
    obtain ⟨c, hc⟩ : ∃ c, OccursAt (x.lower ++ [c]) T sa[x.last] := by
      obtain ⟨z, hz⟩ := hlast.2
      rcases z with _ | ⟨c, z⟩
      · have := congrArg List.length hz
        rw [List.length_append, List.length_drop, List.length_nil] at this
        omega
      · exact ⟨c, drop_occ (by omega) ⟨z, by rw [List.append_assoc]; exact hz⟩⟩
    have hall := key c (x.last - x.first) (by omega) (by simpa only [show x.first + (x.last - x.first) = x.last by omega] using hc)
    have hp := (h.lower x hx (x.lower ++ [c]) ((tree_stem_lower h hx).trans (List.prefix_append _ _))).1 (by
      intro j hj
      have hj1 := hj.1
      have hjl := tree_ext h hx hj
      have hmem : j ∈ sa := hs.1.mem_iff.2 (by rw [List.mem_range, List.length_append, List.length_singleton]; omega)
      obtain ⟨q, hq, e⟩ := List.getElem_of_mem hmem
      obtain ⟨q1, q2⟩ := (h.interval x hx q hq).2 (e ▸ hjl)
      have := hall (q - x.first) (by omega)
      simpa only [show x.first + (q - x.first) = q by omega, e] using this)
    have := hp.length_le
    simp at this

theorem tree_upper_bound : L.length + 1 ≤ 2 * T.length ∨ T = [] := by
  classical
  rcases List.eq_nil_or_concat' T with rfl | hTne
  · exact Or.inr rfl
  refine Or.inl ?_
  have hn : sa.length = T.length + 1 := by rw [hs.1.length_eq]; simp
  -- a number for every edge
  let code := fun x : TreeEdge UInt8 => if hx : x ∈ L ∧ x.first < x.last then T.length + (tree_split h hT hs hx.1 hx.2).choose else x.first
  have hcode : ∀ x ∈ L, 1 ≤ code x ∧ code x < 2 * T.length := by
    intro x hx
    obtain ⟨r1, r2⟩ := h.range x hx
    have hf := tree_first_pos h hT hs hx
    simp only [code]
    split
    · rename_i hc
      obtain ⟨g1, g2, -⟩ := (tree_split h hT hs hc.1 hc.2).choose_spec
      omega
    · have : 0 < T.length := by obtain ⟨a, b, rfl⟩ := hTne; simp
      omega
  have hinj : ∀ x ∈ L, ∀ y ∈ L, code x = code y → x = y := by
    intro x hx y hy e
    obtain ⟨r1, r2⟩ := h.range x hx
    obtain ⟨q1, q2⟩ := h.range y hy
    have hfx := tree_first_pos h hT hs hx
    have hfy := tree_first_pos h hT hs hy
    simp only [code] at e
    split at e <;> split at e
    · rename_i hcx hcy
      have er : (tree_split h hT hs hcx.1 hcx.2).choose = (tree_split h hT hs hcy.1 hcy.2).choose := by omega
      exact split_inj h hx hy (tree_split h hT hs hcx.1 hcx.2).choose_spec (er ▸ (tree_split h hT hs hcy.1 hcy.2).choose_spec)
    · rename_i hcx hcy
      obtain ⟨g1, -⟩ := (tree_split h hT hs hcx.1 hcx.2).choose_spec
      omega
    · rename_i hcx hcy
      obtain ⟨g1, -⟩ := (tree_split h hT hs hcy.1 hcy.2).choose_spec
      omega
    · rename_i hcx hcy
      have e1 : x.first = x.last := by
        by_contra hne
        exact hcx ⟨hx, by omega⟩
      have e2 : y.first = y.last := by
        by_contra hne
        exact hcy ⟨hy, by omega⟩
      have ox := (h.interval x hx x.first (by omega)).1 ⟨le_rfl, r1⟩
      have oy := (h.interval y hy x.first (by omega)).1 ⟨by omega, by omega⟩
      have only : ∀ z ∈ L, z.first = x.first → z.last = x.first → ∀ j, OccursAt z.stem T j ↔ j = sa[x.first]'(by omega) := by
        intro z hz ez ez' j
        have oz := (h.interval z hz x.first (by omega)).1 ⟨by omega, by omega⟩
        constructor
        · intro hj
          have hj1 := hj.1
          have hmem : j ∈ sa := hs.1.mem_iff.2 (by rw [List.mem_range, List.length_append, List.length_singleton]; omega)
          obtain ⟨q, hq, eq⟩ := List.getElem_of_mem hmem
          obtain ⟨q1, q2⟩ := (h.interval z hz q hq).2 (eq ▸ tree_ext h hz hj)
          rw [← eq]
          simp only [show q = x.first by omega]
        · rintro rfl
          exact oz.prefix (tree_stem_lower h hz)
      have hlow : x.lower = y.lower := by
        rcases Nat.le_total x.lower.length y.lower.length with hl | hl
        · have hp := List.prefix_of_prefix_length_le ox.2 oy.2 hl
          refine hp.eq_of_length_le ?_
          exact ((h.lower x hx y.lower ((tree_stem_lower h hx).trans hp)).1 fun j hj => by
            rw [(only x hx rfl e1.symm j).1 hj]; exact oy).length_le
        · have hp := List.prefix_of_prefix_length_le oy.2 ox.2 hl
          refine (hp.eq_of_length_le ?_).symm
          exact ((h.lower y hy x.lower ((tree_stem_lower h hy).trans hp)).1 fun j hj => by
            rw [(only y hy e.symm (by omega) j).1 hj]; exact ox).length_le
      exact tree_eq_of_lower h hx hy hlow
  have hnd : (L.map code).Nodup := h.once.of_map.map_on fun x hx y hy => hinj x hx y hy
  have hsub : L.map code ⊆ (List.range (2 * T.length)).tail := by
    intro v hv
    obtain ⟨x, hx, rfl⟩ := List.mem_map.1 hv
    obtain ⟨c1, c2⟩ := hcode x hx
    rw [List.tail_range, List.mem_range'_1]
    omega
  have := (hnd.subperm hsub).length_le
  rw [List.length_map, List.length_tail, List.length_range] at this
  have : 0 < T.length := by obtain ⟨a, b, rfl⟩ := hTne; simp
  omega

end

end Verif
