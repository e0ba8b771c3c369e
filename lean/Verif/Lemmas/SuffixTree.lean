import Verif.Lemmas.Attractor
import Verif.Spec.SuffixTree

/-! # The edges of `lcp_intervals` are the edges of the suffix tree -/

namespace Verif

open Spec Model

/-- The edge of the suffix tree an edge of `lcp_intervals` stands for. -/
def treeEdge (T : List UInt8) (sa : List Nat) (nodes : List LCPInterval) (e : SuffixEdge) : TreeEdge UInt8 :=
  ⟨(T.drop (sa.getD (ndAt nodes e.child).begin 0)).take (ndAt nodes e.parent).depth, e.label,
    (T.drop (sa.getD (ndAt nodes e.child).begin 0)).take (ndAt nodes e.child).depth,
    (ndAt nodes e.child).begin, (ndAt nodes e.child).end_⟩

variable {T : List UInt8} {sa lcp : List Nat} {nodes : List LCPInterval}

theorem occursAt_eq_take {v t : List UInt8} {j : Nat} (h : OccursAt v t j) : v = (t.drop j).take v.length :=
  List.prefix_iff_eq_take.1 h.2

/-- common prefixes of suffixes and occurrences in the text without the sentinel -/
theorem lcR_iff (hT : ∀ x ∈ T, x ≠ 0) (A : TreeCtx (T ++ [0]) sa lcp) {r q l : Nat} (hr : r < T.length + 1) (hq : q < T.length + 1)
    (hl : sa.getD q 0 + l ≤ T.length) :
    l ≤ lcR (T ++ [0]) sa r q ↔ OccursAt ((T.drop (sa.getD q 0)).take l) T (sa.getD r 0) := by
  have hS : (T ++ [(0 : UInt8)]).length = T.length + 1 := by simp
  have hr' := A.hsa r (by omega)
  have hq' := A.hsa q (by omega)
  rcases Nat.eq_zero_or_pos l with rfl | hpos
  · simp only [List.take_zero, OccursAt, List.length_nil, Nat.add_zero, List.nil_prefix, and_true, Nat.zero_le, true_iff]; omega
  · have hsub : ((T ++ [(0 : UInt8)]).drop (sa.getD q 0)).take l = (T.drop (sa.getD q 0)).take l := by
      rw [List.drop_append_of_le_length (by omega), List.take_append_of_le_length (by rw [List.length_drop]; omega)]
    have hne : (T.drop (sa.getD q 0)).take l ≠ [] := by
      intro h
      have := congrArg List.length h
      rw [List.length_take, List.length_drop, List.length_nil] at this
      omega
    rw [lcR, ← occ_iff_lcp hq'.le hr'.le, ← occursAt_take (by omega), hsub,
      occursAt_snoc (fun z hz => hT z (List.mem_of_mem_drop (List.mem_of_mem_take hz))) hne]

/-- The word-level facts about `lcp_intervals`. -/
structure TreeFacts (T : List UInt8) (sa : List Nat) (nodes : List LCPInterval) (E : List SuffixEdge) : Prop where
  tree : IsSuffixTree T sa (E.map (treeEdge T sa nodes))
  bound : ∀ e ∈ E, e.parent < nodes.length ∧ e.child < nodes.length ∧
    sa.getD (ndAt nodes e.child).begin 0 + (ndAt nodes e.child).depth ≤ T.length ∧
    (ndAt nodes e.parent).depth < (ndAt nodes e.child).depth
  stem : ∀ e ∈ E, (treeEdge T sa nodes e).stem =
    (T.drop (sa.getD (ndAt nodes e.child).begin 0)).take ((ndAt nodes e.parent).depth + 1)
  stemAt : ∀ e ∈ E, ∀ r, r < T.length + 1 → (((ndAt nodes e.child).begin ≤ r ∧ r ≤ (ndAt nodes e.child).end_) ↔
    OccursAt (treeEdge T sa nodes e).stem T (sa.getD r 0))

theorem treeFacts (hT : ∀ x ∈ T, x ≠ 0) (hs : IsSuffixArray (T ++ [0]) sa) (A : TreeCtx (T ++ [0]) sa lcp)
    {E : List SuffixEdge}
    (t5 : ∀ e ∈ E, e.parent < nodes.length ∧ e.child < nodes.length ∧
      EdgeOK (T ++ [0]).length (lcR (T ++ [0]) sa) (sdR (T ++ [0]) sa) (ndAt nodes e.parent).depth (ndAt nodes e.child))
    (t6 : ∀ r l, r < (T ++ [(0 : UInt8)]).length → 0 < l → l ≤ sdR (T ++ [0]) sa r → CoveredBy (ndAt nodes) E r l)
    (t7 : ∀ v, v < nodes.length → (ndAt nodes v).begin < (T ++ [(0 : UInt8)]).length ∧
      NodeOK (T ++ [(0 : UInt8)]).length (lcR (T ++ [0]) sa) (sdR (T ++ [0]) sa) (ndAt nodes v))
    (t8 : ∀ e ∈ E, (ndAt nodes e.parent).depth ≤ lcR (T ++ [0]) sa (ndAt nodes e.parent).begin (ndAt nodes e.child).begin ∧
      e.label = lbR (T ++ [0]) sa (ndAt nodes e.child).begin (ndAt nodes e.parent).depth)
    (t9 : E.Pairwise fun e e' => ¬ ((ndAt nodes e.parent).depth = (ndAt nodes e'.parent).depth ∧
      (ndAt nodes e.child).begin = (ndAt nodes e'.child).begin)) : TreeFacts T sa nodes E := by
  have hS : (T ++ [(0 : UInt8)]).length = T.length + 1 := by simp
  have hsl := hs.length
  rw [hS] at t5 t7 hsl
  have hrank : ∀ j, j ≤ T.length → ∃ r, r < T.length + 1 ∧ sa.getD r 0 = j := by
    intro j hj
    obtain ⟨r, hr, hrp⟩ := hs.rank (show j < (T ++ [(0 : UInt8)]).length by omega)
    exact ⟨r, by omega, by rw [getD_of_lt hr]; exact hrp⟩
  have hsd : ∀ r, sdR (T ++ [0]) sa r = T.length - sa.getD r 0 := by intro r; simp [sdR]
  have hbd : ∀ e ∈ E, e.parent < nodes.length ∧ e.child < nodes.length ∧
      sa.getD (ndAt nodes e.child).begin 0 + (ndAt nodes e.child).depth ≤ T.length ∧
      (ndAt nodes e.parent).depth < (ndAt nodes e.child).depth := by
    intro e he
    obtain ⟨k0, k0', k1, k2, k3, k4, k5⟩ := t5 e he
    have := A.hsa (ndAt nodes e.child).begin (by omega)
    rw [hsd] at k4
    exact ⟨k0, k0', by omega, k1⟩
  have hstem : ∀ e ∈ E, (treeEdge T sa nodes e).stem =
      (T.drop (sa.getD (ndAt nodes e.child).begin 0)).take ((ndAt nodes e.parent).depth + 1) := by
    intro e he
    obtain ⟨-, -, h1, h2⟩ := hbd e he
    rw [TreeEdge.stem, treeEdge]
    dsimp only
    rw [(t8 e he).2, lbR, List.take_add_one, List.getElem?_drop, List.getElem?_eq_getElem (by omega)]
    congr 1
    rw [List.getD_eq_getElem?_getD (i := _ + _), List.getElem?_append_left (by omega), List.getElem?_eq_getElem (by omega)]
    rfl
  -- occurrences of the beginnings of the lower word
  have hocc : ∀ e ∈ E, ∀ l, (ndAt nodes e.parent).depth < l → l ≤ (ndAt nodes e.child).depth → ∀ r, r < T.length + 1 →
      (((ndAt nodes e.child).begin ≤ r ∧ r ≤ (ndAt nodes e.child).end_) ↔
        OccursAt ((T.drop (sa.getD (ndAt nodes e.child).begin 0)).take l) T (sa.getD r 0)) := by
    intro e he l hl1 hl2 r hr
    obtain ⟨-, -, k1, k2, k3, k4, k5⟩ := t5 e he
    obtain ⟨-, -, h1, h2⟩ := hbd e he
    rw [← k5 l hl1 hl2 r hr, lcR_iff hT A hr (by omega) (by omega)]
  have hstemAt : ∀ e ∈ E, ∀ r, r < T.length + 1 → (((ndAt nodes e.child).begin ≤ r ∧ r ≤ (ndAt nodes e.child).end_) ↔
      OccursAt (treeEdge T sa nodes e).stem T (sa.getD r 0)) := by
    intro e he r hr
    rw [hstem e he]
    exact hocc e he _ (Nat.lt_succ_self _) (hbd e he).2.2.2 r hr
  have hlt : ∀ {a l : Nat}, a + l ≤ T.length → ((T.drop a).take l).length = l := by
    intro a l h; rw [List.length_take, List.length_drop]; omega
  refine ⟨⟨?_, ?_, ?_, ?_, ?_⟩, hbd, hstem, hstemAt⟩
  · rw [List.map_map, List.Nodup, List.pairwise_map]
    refine t9.imp_of_mem ?_
    intro e e' he he' hne heq
    apply hne
    simp only [Function.comp] at heq
    obtain ⟨-, -, h1, h2⟩ := hbd e he
    obtain ⟨-, -, h1', h2'⟩ := hbd e' he'
    obtain ⟨-, -, k1, k2, k3, -⟩ := t5 e he
    obtain ⟨-, -, k1', k2', k3', -⟩ := t5 e' he'
    have hle : (ndAt nodes e.parent).depth = (ndAt nodes e'.parent).depth := by
      have := congrArg List.length heq
      rw [hstem e he, hstem e' he', hlt (by omega), hlt (by omega)] at this
      omega
    refine ⟨hle, ?_⟩
    have g1 := (hstemAt e' he' _ (show (ndAt nodes e.child).begin < T.length + 1 by omega)).2 (by
      rw [← heq]; exact (hstemAt e he _ (by omega)).1 ⟨le_rfl, k2⟩)
    have g2 := (hstemAt e he _ (show (ndAt nodes e'.child).begin < T.length + 1 by omega)).2 (by
      rw [heq]; exact (hstemAt e' he' _ (by omega)).1 ⟨le_rfl, k2'⟩)
    omega
  · intro u a
    constructor
    · rintro ⟨x, hx, rfl, rfl⟩
      obtain ⟨e, he, rfl⟩ := List.mem_map.1 hx
      obtain ⟨k0, k0', k1, k2, k3, k4, k5⟩ := t5 e he
      obtain ⟨-, -, h1, h2⟩ := hbd e he
      obtain ⟨p1, p2⟩ := t7 e.parent k0
      have hnear := (t8 e he).1
      have hst := hstem e he
      rw [TreeEdge.stem] at hst
      refine ⟨?_, ?_⟩
      · rw [hst]
        exact (List.take_prefix _ _).isInfix.trans (List.drop_suffix _ _).isInfix
      · rw [hst]
        have hdp : sa.getD (ndAt nodes e.child).begin 0 + (ndAt nodes e.parent).depth ≤ T.length := by omega
        have hdp1 : sa.getD (ndAt nodes e.child).begin 0 + ((ndAt nodes e.parent).depth + 1) ≤ T.length := by omega
        rcases p2 with p2 | ⟨r, r', q1, q2, q3, q4, q5⟩
        · refine ⟨sa.getD (ndAt nodes e.parent).begin 0, ?_, ?_⟩
          · exact (lcR_iff hT A p1 (by omega) hdp).1 hnear
          · rintro ⟨g1, -⟩
            rw [hlt hdp1] at g1
            rw [hsd] at p2
            omega
        · have o1 : (ndAt nodes e.parent).depth ≤ lcR (T ++ [0]) sa r (ndAt nodes e.child).begin := A.C.trans _ _ _ _ q4 hnear
          have o2 : (ndAt nodes e.parent).depth ≤ lcR (T ++ [0]) sa r' (ndAt nodes e.child).begin := A.C.trans _ _ _ _ q5 hnear
          by_cases h : (ndAt nodes e.parent).depth + 1 ≤ lcR (T ++ [0]) sa r (ndAt nodes e.child).begin
          · refine ⟨sa.getD r' 0, (lcR_iff hT A q2 (by omega) hdp).1 o2, ?_⟩
            rw [← lcR_iff hT A q2 (by omega) hdp1]
            intro h'
            have := A.C.trans _ _ _ _ h (by rw [A.C.symm]; exact h')
            omega
          · refine ⟨sa.getD r 0, (lcR_iff hT A q1 (by omega) hdp).1 o1, ?_⟩
            rw [← lcR_iff hT A q1 (by omega) hdp1]
            exact h
    · rintro ⟨⟨x, y, hxy⟩, j, hj1, hj2⟩
      have hxl : x.length + (u.length + 1) ≤ T.length := by
        rw [← hxy]; simp
      have hvt : u ++ [a] = (T.drop x.length).take (u.length + 1) := by
        rw [← hxy, List.append_assoc, List.drop_left, List.take_left' (by simp)]
      obtain ⟨r, hr, hrd⟩ := hrank x.length (by omega)
      obtain ⟨e, he, c1, c2, c3, c4⟩ := t6 r (u.length + 1) (by omega) (by omega) (by rw [hsd, hrd]; omega)
      obtain ⟨-, -, h1, h2⟩ := hbd e he
      have g := (hocc e he _ c1 c2 r hr).1 ⟨c3, c4⟩
      rw [hrd] at g
      have g2 := occursAt_eq_take g
      rw [hlt (by omega), ← hvt] at g2
      have hu : (T.drop (sa.getD (ndAt nodes e.child).begin 0)).take u.length = u := by
        have := congrArg (List.take u.length) g2
        rwa [List.take_take, Nat.min_eq_left (by omega), List.take_left' rfl] at this
      have hdp : (ndAt nodes e.parent).depth = u.length := by
        by_contra hne
        obtain ⟨r2, hr2, hrd2⟩ := hrank j (by have := hj1.1; omega)
        have := (hocc e he u.length (by omega) (by omega) r2 hr2).2 (by rw [hu, hrd2]; exact hj1)
        have := (hocc e he (u.length + 1) c1 c2 r2 hr2).1 this
        rw [g2, hrd2] at this
        exact hj2 this
      have hst := hstem e he
      rw [hdp, g2, TreeEdge.stem] at hst
      refine ⟨_, List.mem_map.2 ⟨e, he, rfl⟩, ?_⟩
      have := List.append_inj' hst rfl
      exact ⟨this.1, by simpa using this.2⟩
  · intro z hz v hv
    obtain ⟨e, he, rfl⟩ := List.mem_map.1 hz
    obtain ⟨k0, k0', k1, k2, k3, k4, k5⟩ := t5 e he
    obtain ⟨-, -, h1, h2⟩ := hbd e he
    have hvl : (ndAt nodes e.parent).depth + 1 ≤ v.length := by
      have := hv.length_le
      rwa [hstem e he, hlt (by omega)] at this
    constructor
    · intro hall
      have hb := hall _ ((hstemAt e he _ (show (ndAt nodes e.child).begin < T.length + 1 by omega)).1 ⟨le_rfl, k2⟩)
      have hvt := occursAt_eq_take hb
      have hle : v.length ≤ (ndAt nodes e.child).depth := by
        by_contra hgt
        obtain ⟨p1, p2⟩ := t7 e.child k0'
        have hb1 := hb.1
        rcases p2 with p2 | ⟨r, r', q1, q2, q3, q4, q5⟩
        · rw [hsd] at p2
          omega
        · have key : ∀ r, r < T.length + 1 → (ndAt nodes e.child).depth ≤ lcR (T ++ [0]) sa r (ndAt nodes e.child).begin →
              v.length ≤ lcR (T ++ [0]) sa r (ndAt nodes e.child).begin := by
            intro r hr hd
            have := (k5 _ k1 le_rfl r (by omega)).1 hd
            have := hall _ ((hstemAt e he r hr).1 this)
            rw [lcR_iff hT A hr (by omega) hb1, ← hvt]
            exact this
          have := A.C.trans _ _ _ _ (key r q1 q4) (by rw [A.C.symm]; exact key r' q2 q5)
          omega
      rw [hvt]
      show _ <+: (T.drop _).take _
      exact List.take_prefix_take_left hle
    · intro hpre j hj
      have hle : v.length ≤ (ndAt nodes e.child).depth := by
        have := hpre.length_le
        rwa [treeEdge, hlt h1] at this
      have hvt : v = (T.drop (sa.getD (ndAt nodes e.child).begin 0)).take v.length := by
        have := List.prefix_iff_eq_take.1 hpre
        rw [treeEdge] at this
        dsimp only at this
        rwa [List.take_take, Nat.min_eq_left hle] at this
      obtain ⟨r, hr, hrd⟩ := hrank j (by have := hj.1; omega)
      rw [← hrd] at hj ⊢
      have := (hstemAt e he r hr).2 hj
      rw [hvt]
      exact (hocc e he _ (by omega) hle r hr).1 this
  · intro z hz r hr
    obtain ⟨e, he, rfl⟩ := List.mem_map.1 hz
    have := hocc e he _ (hbd e he).2.2.2 le_rfl r (by omega)
    rw [getD_of_lt hr] at this
    exact this
  · intro z hz
    obtain ⟨e, he, rfl⟩ := List.mem_map.1 hz
    obtain ⟨k0, k0', k1, k2, k3, k4, k5⟩ := t5 e he
    exact ⟨k2, by rw [hsl]; exact k3⟩

/-- The steps of `is_attractor` before the checking loop, and what each round of the loop does. -/
theorem attractor_steps {sufsort : List UInt8 → List Nat} (hsort : SortsSuffixes sufsort)
    {T : List UInt8} (hT : ∀ x ∈ T, x ≠ 0) (hlen : T.length < 2147483647) {attr : List Nat}
    (hattr : ∀ p ∈ attr, p ≤ T.length) :
    ∃ phi plcp lcp nodes E lbl bits d,
      assertR (decide ((T ++ [(0 : UInt8)]).length > 0)) = .ok () ∧
      forEach attr () (fun p _ => assertR (decide (p < (T ++ [(0 : UInt8)]).length))) = .ok () ∧
      computePhi (sufsort (T ++ [0])) = .ok phi ∧ computePlcp (T ++ [0]) phi = .ok plcp ∧
      computeLcp plcp (sufsort (T ++ [0])) = .ok lcp ∧
      lcpIntervals (T ++ [0]) (sufsort (T ++ [0])) lcp = .ok (nodes, E ++ [⟨0, lbl, 1⟩]) ∧
      forEach attr (List.replicate (T ++ [(0 : UInt8)]).length false) (fun p v => wr v p true) = .ok bits ∧
      attractorDistances (T ++ [(0 : UInt8)]).length (sufsort (T ++ [0])) bits = .ok d ∧
      TreeFacts T (sufsort (T ++ [0])) nodes E ∧ PostOrder (E.map (treeEdge T (sufsort (T ++ [0])) nodes)) ∧ 2 ≤ nodes.length ∧ ndAt nodes 1 = ⟨0, 0, T.length⟩ ∧ lbl = 0 ∧
      (∀ e ∈ E, ∀ st, (¬ Uncovered T attr (treeEdge T (sufsort (T ++ [0])) nodes e).stem ∧
          checkEdge (T ++ [0]) (sufsort (T ++ [0])) d nodes e st = .ok st) ∨
        (Uncovered T attr (treeEdge T (sufsort (T ++ [0])) nodes e).stem ∧
          checkEdge (T ++ [0]) (sufsort (T ++ [0])) d nodes e st =
            if utf8Valid (treeEdge T (sufsort (T ++ [0])) nodes e).stem then
              .ok (false, st.2 ++ [(treeEdge T (sufsort (T ++ [0])) nodes e).stem])
            else .error .unwrap)) ∧
      ∀ st, checkEdge (T ++ [0]) (sufsort (T ++ [0])) d nodes ⟨0, lbl, 1⟩ st =
        if attr = [] then .ok (false, st.2 ++ [[0]]) else .ok st := by
  classical
  have hS : (T ++ [(0 : UInt8)]).length = T.length + 1 := by simp
  have hs := hsort (T ++ [0]) (by omega)
  have hsl := hs.length
  obtain ⟨phi, plcp, lcp, g1, g2, g3, g4, g5, g6, g7, g8, g9⟩ := lcpChain hs (by omega) (by omega)
  have A : TreeCtx (T ++ [0]) (sufsort (T ++ [0])) lcp :=
    treeCtx_build hT hs ⟨by omega, fun i h hi => g8 i h hi⟩
  obtain ⟨nodes, edges, t1, ⟨E, lbl, rfl, t2, t3, t4, t5, t6, t7, t8, t9, t10, t11⟩⟩ := lcpIntervals_ok A
  have F := treeFacts hT hs A t5 t6 t7 t8 t9
  obtain ⟨bits, b1, b2, b3⟩ := bits_ok (n := T.length + 1) attr (fun p hp => by have := hattr p hp; omega)
  obtain ⟨d, d1, d2, d3⟩ := distances_ok (n := T.length + 1) (sa := sufsort (T ++ [0])) (attr := attr)
    (by omega) (by rw [← hS]; exact A.hsa) (fun p hp => by have := hattr p hp; omega) b2 b3
  have hassert : forEach attr () (fun p _ => assertR (decide (p < (T ++ [(0 : UInt8)]).length))) = .ok () := by
    obtain ⟨u, hu, -⟩ := forEach_inv (fun _ _ => True) (l := attr) (s := ())
      (body := fun p _ => assertR (decide (p < (T ++ [(0 : UInt8)]).length))) trivial (by
        intro pre x post _ hl _
        refine ⟨(), ?_, trivial⟩
        have := hattr x (by rw [hl]; simp)
        simp only [assertR]
        rw [if_pos (by simp only [decide_eq_true_eq]; omega)])
    exact hu
  set sa := sufsort (T ++ [0]) with hsadef
  have hsa0 : sa.getD 0 0 = T.length := by
    have h0 := A.C.zero
    simp only [sdR] at h0
    have := A.hsa 0 (by omega)
    omega
  have hcov : ∀ (r l : Nat), r < T.length + 1 → l ≤ T.length + 1 →
      (d.getD r 0 < l ↔ ∃ p ∈ attr, sa.getD r 0 ≤ p ∧ p < sa.getD r 0 + l) := fun r l hr hl => (d3 r hr).2 l hl
  have hlbl : lbl = 0 := by
    rw [t10, lbR, hsa0]
    simp
  refine ⟨phi, plcp, lcp, nodes, E, lbl, bits, d, by simp [assertR], hassert, g1, g3, g6, t1, by rw [hS]; exact b1,
    by rw [hS]; exact d1, F, ?_, t2, by rw [t4, hS]; rfl, hlbl, ?_, ?_⟩
  · rw [PostOrder, List.pairwise_map]
    refine t11.imp_of_mem ?_
    intro x y hx hy hxy
    have f1 := (F.bound x hx).2.2.1
    have f2 := (F.bound y hy).2.2.1
    simp only [treeEdge, List.length_take, List.length_drop]
    omega
  · intro e he st
    obtain ⟨f1, f2, f3, f4⟩ := F.bound e he
    obtain ⟨-, -, k1, k2, k3, k4, k5⟩ := t5 e he
    have hst := F.stem e he
    have hsb := A.hsa (ndAt nodes e.child).begin (by omega)
    have hword : edgeWord (T ++ [0]) sa nodes e = (treeEdge T sa nodes e).stem := by
      rw [hst, edgeWord, hS, Nat.min_eq_left (by omega), Nat.add_sub_cancel_left, List.drop_append_of_le_length (by omega),
        List.take_append_of_le_length (by rw [List.length_drop]; omega)]
    have hlen' : (treeEdge T sa nodes e).stem.length = (ndAt nodes e.parent).depth + 1 := by
      rw [hst, List.length_take, List.length_drop]; omega
    have hP : (∃ r, (ndAt nodes e.child).begin ≤ r ∧ r ≤ (ndAt nodes e.child).end_ ∧ d.getD r 0 < (ndAt nodes e.parent).depth + 1) ↔
        ¬ Uncovered T attr (treeEdge T sa nodes e).stem := by
      constructor
      · rintro ⟨r, r1, r2, r3⟩ hun
        obtain ⟨p, hp, p1, p2⟩ := (hcov r _ (by omega) (by omega)).1 r3
        exact hun.2.2 _ ((F.stemAt e he r (by omega)).1 ⟨r1, r2⟩) p hp ⟨p1, by rw [hlen']; exact p2⟩
      · intro hun
        by_contra hno
        apply hun
        refine ⟨by intro h; rw [h] at hlen'; simp at hlen', ?_, ?_⟩
        · rw [hst]
          exact (List.take_prefix _ _).isInfix.trans (List.drop_suffix _ _).isInfix
        · rintro j hj p hp ⟨p1, p2⟩
          apply hno
          obtain ⟨r, hr, hrj⟩ := hs.rank (show j < (T ++ [(0 : UInt8)]).length by have := hj.1; omega)
          have hrd : sa.getD r 0 = j := by rw [getD_of_lt hr]; exact hrj
          obtain ⟨r1, r2⟩ := (F.stemAt e he r (by omega)).2 (by rw [hrd]; exact hj)
          rw [hlen'] at p2
          exact ⟨r, r1, r2, (hcov r _ (by omega) (by omega)).2 ⟨p, hp, by omega, by omega⟩⟩
    rcases checkEdge_ok (S := T ++ [0]) (sa := sa) (d := d) (e := e) (nodes := nodes) hS (by omega) (by omega)
      (by rw [← hS]; exact A.hsa) d2 f1 f2 k2 (by omega) (by omega) st with ⟨k1, k2⟩ | ⟨k1, k2⟩
    · exact Or.inl ⟨hP.1 k1, k2⟩
    · refine Or.inr ⟨?_, by rw [k2, hword]⟩
      by_contra hun
      obtain ⟨r, r1, r2, r3⟩ := hP.2 hun
      have := k1 r r1 r2
      omega
  · intro st
    have hw : edgeWord (T ++ [0]) sa nodes ⟨0, lbl, 1⟩ = [0] := by
      rw [edgeWord]
      dsimp only
      rw [t3, t4]
      dsimp only
      rw [hsa0, hS]
      simp
    have hP : (∃ r, (ndAt nodes 1).begin ≤ r ∧ r ≤ (ndAt nodes 1).end_ ∧ d.getD r 0 < (ndAt nodes 0).depth + 1) ↔ attr ≠ [] := by
      rw [t4, t3]
      dsimp only
      constructor
      · rintro ⟨r, r1, r2, r3⟩ rfl
        obtain ⟨p, hp, -⟩ := (hcov r _ (by omega) (by omega)).1 r3
        simp at hp
      · intro hne
        obtain ⟨p, attr', rfl⟩ := List.exists_cons_of_ne_nil hne
        have hpl := hattr p (by simp)
        obtain ⟨r, hr, hrp⟩ := hs.rank (show p < (T ++ [(0 : UInt8)]).length by omega)
        have hrd : sa.getD r 0 = p := by rw [getD_of_lt hr]; exact hrp
        exact ⟨r, by omega, by omega, (hcov r _ (by omega) (by omega)).2 ⟨p, by simp, by omega, by omega⟩⟩
    rcases checkEdge_ok (S := T ++ [0]) (sa := sa) (d := d) (e := ⟨0, lbl, 1⟩) (nodes := nodes) hS (by omega) (by omega)
      (by rw [← hS]; exact A.hsa) d2 (by dsimp only; omega) (by dsimp only; omega) (by dsimp only; rw [t4]; simp)
      (by dsimp only; rw [t4]; simp) (by dsimp only; omega) st with ⟨k1, k2⟩ | ⟨k1, k2⟩
    · rw [if_neg (hP.1 k1)]
      exact k2
    · rw [if_pos, k2, hw]
      · rfl
      · by_contra hne
        obtain ⟨r, r1, r2, r3⟩ := hP.2 hne
        have := k1 r r1 r2
        dsimp only at this
        omega

theorem isSuffixTree_mem {α : Type} {T : List α} {sa : List Nat} {L L' : List (TreeEdge α)} (h : IsSuffixTree T sa L)
    (h' : IsSuffixTree T sa L') {x : TreeEdge α} (hx : x ∈ L) : x ∈ L' := by
  obtain ⟨y, hy, e1, e2⟩ := (h'.forks x.upper x.letter).2 ((h.forks _ _).1 ⟨x, hx, rfl, rfl⟩)
  have hst : x.stem = y.stem := by rw [TreeEdge.stem, TreeEdge.stem, e1, e2]
  have hxl := (h.lower x hx _ (List.prefix_refl _)).1 (fun _ hj => hj)
  have hyl := (h'.lower y hy _ (List.prefix_refl _)).1 (fun _ hj => hj)
  have h1 : x.lower <+: y.lower := (h'.lower y hy _ (hst ▸ hxl)).1 (by
    rw [← hst]; exact (h.lower x hx _ hxl).2 (List.prefix_refl _))
  have h2 : y.lower <+: x.lower := (h.lower x hx _ (hst ▸ hyl)).1 (by
    rw [hst]; exact (h'.lower y hy _ hyl).2 (List.prefix_refl _))
  have e3 : x.lower = y.lower := h1.eq_of_length (le_antisymm h1.length_le h2.length_le)
  obtain ⟨r1, r2⟩ := h.range x hx
  obtain ⟨q1, q2⟩ := h'.range y hy
  have key : ∀ r, r < sa.length → ((x.first ≤ r ∧ r ≤ x.last) ↔ (y.first ≤ r ∧ r ≤ y.last)) := by
    intro r hr
    rw [h.interval x hx r hr, h'.interval y hy r hr, e3]
  have k1 := (key x.first (by omega)).1 ⟨le_rfl, r1⟩
  have k2 := (key x.last r2).1 ⟨r1, le_rfl⟩
  have k3 := (key y.first (by omega)).2 ⟨le_rfl, q1⟩
  have k4 := (key y.last q2).2 ⟨q1, le_rfl⟩
  have : x = y := by
    obtain ⟨a, b, c, d, e⟩ := x
    obtain ⟨a', b', c', d', e'⟩ := y
    simp only at e1 e2 e3 k1 k2 k3 k4
    rw [← e1, ← e2, e3, show d = d' by omega, show e = e' by omega]
  exact this ▸ hy

theorem suffixTree_unique {α : Type} {T : List α} {sa : List Nat} {L L' : List (TreeEdge α)} (h : IsSuffixTree T sa L)
    (h' : IsSuffixTree T sa L') (p : PostOrder L) (p' : PostOrder L') : L = L' := by
  refine List.Perm.eq_of_pairwise ?_ p p' ?_
  · intro a b _ _ h1 h2
    omega
  · rw [List.perm_ext_iff_of_nodup h.once.of_map h'.once.of_map]
    exact fun a => ⟨isSuffixTree_mem h h', isSuffixTree_mem h' h⟩

end Verif
