import Verif.Lemmas.LcpTree

/-! # `lcp_intervals` computes the suffix-tree edges -/

namespace Verif

open Spec Model

/-- lcp of the suffixes of two ranks -/
def lcR (S : List UInt8) (sa : List Nat) (r q : Nat) : Nat :=
  lcpLen (S.drop (sa.getD r 0)) (S.drop (sa.getD q 0))

/-- leaf depth (suffix length without the sentinel) -/
def sdR (S : List UInt8) (sa : List Nat) (r : Nat) : Nat := S.length - 1 - sa.getD r 0

/-- letter at a depth of the suffix of a rank -/
def lbR (S : List UInt8) (sa : List Nat) (r d : Nat) : UInt8 := S.getD (sa.getD r 0 + d) 0

structure TreeCtx (S : List UInt8) (sa lcp : List Nat) : Prop where
  C : LcCtx S.length (lcR S sa) (sdR S sa)
  hsl : sa.length = S.length
  hsa : ∀ r, r < S.length → sa.getD r 0 < S.length
  hlcp : ∀ i, 0 < i → i < S.length → lcp[i]? = some (lcR S sa (i - 1) i)

variable {S : List UInt8} {sa lcp : List Nat}

theorem TreeCtx.rdsa (A : TreeCtx S sa lcp) {r : Nat} (hr : r < S.length) :
    rd sa r = .ok (sa.getD r 0) := by
  have : r < sa.length := by rw [A.hsl]; exact hr
  rw [rd_ok this]; simp [this]

theorem LInv.label (A : TreeCtx S sa lcp) {q c : Nat} {st : List Nat} {nodes : List LCPInterval}
    {edges : List SuffixEdge} {v0 : Nat} (h : LInv S.length (lcR S sa) (sdR S sa) (lbR S sa) q v0 st nodes edges)
    (hc : c < nodes.length) {d : Nat} (hd : d ≤ (ndAt nodes c).depth) :
    rd sa (ndAt nodes c).begin = .ok (sa.getD (ndAt nodes c).begin 0) ∧
    sa.getD (ndAt nodes c).begin 0 + d < S.length ∧
    rd S (sa.getD (ndAt nodes c).begin 0 + d) = .ok (lbR S sa (ndAt nodes c).begin d) := by
  obtain ⟨h1, h2, -⟩ := h.nds c hc
  have h3 := A.hsa _ h1
  have h4 : sa.getD (ndAt nodes c).begin 0 + d < S.length := by
    simp only [sdR] at h2; omega
  exact ⟨A.rdsa h1, h4, by rw [rd_ok h4, lbR, List.getD_eq_getElem?_getD (i := _ + d), List.getElem?_eq_getElem h4, Option.getD_some]⟩

theorem lcpPop_none {q v : Nat} {rest : List Nat} {nodes : List LCPInterval} {edges : List SuffixEdge}
    (hv : v < nodes.length) :
    lcpPop S sa q ⟨nodes, v :: rest, edges, none⟩ =
      .ok ⟨nodes.set v { ndAt nodes v with end_ := q }, rest, edges, some v⟩ := by
  simp only [lcpPop]
  rw [ndAt_get hv, ok_bind, wr_ok hv, ok_bind]
  rfl

theorem lcpPop_child (A : TreeCtx S sa lcp) {e q c v : Nat} {rest : List Nat} {nodes : List LCPInterval}
    {edges : List SuffixEdge} (h : LInv S.length (lcR S sa) (sdR S sa) (lbR S sa) q c (c :: v :: rest) nodes edges)
    (hlt : (ndAt nodes v).depth ≤ (ndAt nodes c).depth) :
    lcpPop S sa e ⟨nodes, v :: rest, edges, some c⟩ =
      .ok ⟨nodes.set v { ndAt nodes v with end_ := e }, rest,
        edges ++ [⟨v, lbR S sa (ndAt nodes c).begin (ndAt nodes v).depth, c⟩], some v⟩ := by
  have hv := h.bound v (by simp)
  have hc := h.bound c (by simp)
  have hne : c ≠ v := by
    have := h.nodup
    rw [List.nodup_cons] at this
    exact fun h' => this.1 (by simp [h'])
  obtain ⟨h1, -, h2⟩ := h.label A hc hlt
  simp only [lcpPop]
  rw [ndAt_get hv, ok_bind, wr_ok hv, ok_bind, if_neg hne, ndAt_get (by simpa using hc),
    ndAt_set_ne (fun h => hne h.symm), ok_bind, h1, ok_bind, h2]
  rfl

/-- State of the popping loops with a pending child. -/
def Pend (S : List UInt8) (sa : List Nat) (q : Nat) (s : LcpState) : Prop :=
  ∃ c v rest, s.child = some c ∧ s.path = v :: rest ∧
    LInv S.length (lcR S sa) (sdR S sa) (lbR S sa) q c (c :: v :: rest) s.nodes s.edges ∧
    (ndAt s.nodes v).depth < (ndAt s.nodes c).depth ∧ (ndAt s.nodes c).end_ = q

/-- State of the popping loops without a pending child. -/
def Fresh (S : List UInt8) (sa : List Nat) (q : Nat) (s : LcpState) : Prop :=
  ∃ v rest, s.path = v :: rest ∧ LInv S.length (lcR S sa) (sdR S sa) (lbR S sa) q v (v :: rest) s.nodes s.edges ∧
    (ndAt s.nodes v).depth = sdR S sa q

/-- All but the root are closed. -/
def AtRoot (S : List UInt8) (sa : List Nat) (q : Nat) (s : LcpState) : Prop :=
  s.child = some 1 ∧ s.path = [0] ∧
    LInv S.length (lcR S sa) (sdR S sa) (lbR S sa) q 1 [1, 0] s.nodes s.edges ∧
    (ndAt s.nodes 1).end_ = q

theorem after_pop {q v : Nat} {rest : List Nat} {nodes : List LCPInterval} {edges : List SuffixEdge}
    (h : LInv S.length (lcR S sa) (sdR S sa) (lbR S sa) q v (v :: rest) nodes edges)
    (hend : (ndAt nodes v).end_ = q) :
    ((ndAt nodes v).depth = 0 ∧ AtRoot S sa q ⟨nodes, rest, edges, some v⟩) ∨
      Pend S sa q ⟨nodes, rest, edges, some v⟩ := by
  have hs := h.stk
  cases rest with
  | nil => exact absurd hs (by simp [StkOK])
  | cons u rest =>
    rcases hs with ⟨rfl, rfl, rfl, h1, -⟩ | ⟨h1, -⟩
    · exact Or.inl ⟨h1, rfl, rfl, h, hend⟩
    · exact Or.inr ⟨v, u, rest, rfl, rfl, h, h1, hend⟩

/-- Popping without a pending child. -/
theorem pop_fresh {q v : Nat} {rest : List Nat} {nodes : List LCPInterval} {edges : List SuffixEdge}
    (h : LInv S.length (lcR S sa) (sdR S sa) (lbR S sa) q v (v :: rest) nodes edges) :
    ∃ s', lcpPop S sa q ⟨nodes, v :: rest, edges, none⟩ = .ok s' ∧ s'.path = rest ∧
      s'.child = some v ∧ (ndAt s'.nodes v).depth = (ndAt nodes v).depth ∧
      (((ndAt nodes v).depth = 0 ∧ AtRoot S sa q s') ∨ Pend S sa q s') := by
  have hv := h.bound v (by simp)
  refine ⟨_, lcpPop_none hv, rfl, rfl, by rw [ndAt_set_eq hv], ?_⟩
  have := after_pop (h.set (e := q) (v := v) (by simp)) (by rw [ndAt_set_eq hv])
  rwa [ndAt_set_eq hv] at this

/-- Popping with a pending child. -/
theorem pop_pend (A : TreeCtx S sa lcp) {q c v : Nat} {rest : List Nat} {nodes : List LCPInterval}
    {edges : List SuffixEdge} (h : LInv S.length (lcR S sa) (sdR S sa) (lbR S sa) q c (c :: v :: rest) nodes edges)
    (hlt : (ndAt nodes v).depth < (ndAt nodes c).depth) (hend : (ndAt nodes c).end_ = q)
    (hnext : ∀ r, q < r → r < S.length → lcR S sa r q ≤ (ndAt nodes v).depth) :
    ∃ s', lcpPop S sa q ⟨nodes, v :: rest, edges, some c⟩ = .ok s' ∧ s'.path = rest ∧
      s'.child = some v ∧ (ndAt s'.nodes v).depth = (ndAt nodes v).depth ∧
      (((ndAt nodes v).depth = 0 ∧ AtRoot S sa q s') ∨ Pend S sa q s') := by
  have hv := h.bound v (by simp)
  have hne : v ≠ c := by
    have := h.nodup
    rw [List.nodup_cons] at this
    exact fun h' => this.1 (by simp [h'])
  have e := lcpPop_child A (e := q) h hlt.le
  refine ⟨_, e, rfl, rfl, by rw [ndAt_set_eq hv], ?_⟩
  have h2 := h.set (e := q) (v := v) (by simp)
  have h3 := h2.edge A.C (by rw [ndAt_set_eq hv, ndAt_set_ne hne]; exact hlt)
    (by rw [ndAt_set_ne hne]; exact hend) (by rw [ndAt_set_eq hv]; exact hnext)
    (label := lbR S sa (ndAt nodes c).begin (ndAt nodes v).depth) (by rw [ndAt_set_eq hv, ndAt_set_ne hne])
  have := after_pop h3 (by rw [ndAt_set_eq hv])
  rwa [ndAt_set_eq hv] at this

theorem topDepth_ok {nodes : List LCPInterval} {v : Nat} {rest : List Nat} {edges : List SuffixEdge}
    {ch : Option Nat} (hv : v < nodes.length) :
    topDepth ⟨nodes, v :: rest, edges, ch⟩ = .ok (ndAt nodes v).depth := by
  simp only [topDepth]
  rw [ndAt_get hv, ok_bind]; rfl

/-- One iteration of the main loop. -/
theorem lcpIter_ok (A : TreeCtx S sa lcp) {q : Nat} (hq : q + 1 < S.length) {s : LcpState}
    (h : Fresh S sa q s) : ∃ s', lcpIter S sa lcp (q + 1) s = .ok s' ∧ Fresh S sa (q + 1) s' := by
  set ci := lcR S sa q (q + 1) with hci
  have hlcp : lcp[q + 1]? = some ci := by rw [A.hlcp (q + 1) (by omega) hq]; rfl
  have hciq : ci ≤ sdR S sa q := by
    have := A.C.ne (q + 1) q hq (by omega) (by omega)
    rwa [A.C.symm] at this
  have hright : ∀ r, q < r → r < S.length → lcR S sa r q ≤ ci := by
    intro r h1 h2
    rw [A.C.symm, A.C.between q (q + 1) r (by omega) (by omega) h2]
    omega
  obtain ⟨v, rest, hp, hL, hd⟩ := h
  -- the popping loop
  obtain ⟨s1, e1, hI, hc1⟩ := whileLoop_inv
    (fun s : LcpState => (s.child = none ∧ Fresh S sa q s) ∨
      (Pend S sa q s ∧ ∃ c, s.child = some c ∧ ci < (ndAt s.nodes c).depth))
    (fun s => s.path.length)
    (fuel := s.path.length + 1)
    (cond := fun s => do let d ← topDepth s; pure (decide (ci < d)))
    (body := lcpPop S sa (q + 1 - 1)) (s := { s with child := none })
    (Or.inl ⟨rfl, v, rest, hp, hL, hd⟩) (by simp) (by
      rintro ⟨nodes, path, edges, child⟩ hI
      rw [show q + 1 - 1 = q by omega]
      rcases hI with ⟨rfl, v, rest, rfl, hL, hd⟩ | ⟨⟨c, v, rest, rfl, rfl, hL, hlt, hend⟩, c', hc', hgt⟩
      · dsimp only at hL hd ⊢
        rw [topDepth_ok (hL.bound v (by simp)), ok_bind]
        by_cases hcd : ci < (ndAt nodes v).depth
        · right
          refine ⟨by simp [hcd, pure_ok], ?_⟩
          obtain ⟨s', g1, g2, g3, g4, g5⟩ := pop_fresh hL
          refine ⟨s', g1, Or.inr ⟨?_, v, g3, by rw [g4]; exact hcd⟩, by rw [g2]; simp⟩
          rcases g5 with g5 | g5
          · omega
          · exact g5
        · left; simp [hcd, pure_ok]
      · dsimp only at hc' hL hlt hend hgt ⊢
        obtain rfl : c = c' := by simpa using hc'
        rw [topDepth_ok (hL.bound v (by simp)), ok_bind]
        by_cases hcd : ci < (ndAt nodes v).depth
        · right
          refine ⟨by simp [hcd, pure_ok], ?_⟩
          obtain ⟨s', g1, g2, g3, g4, g5⟩ := pop_pend A hL hlt hend (fun r h1 h2 => by
            have := hright r h1 h2; omega)
          refine ⟨s', g1, Or.inr ⟨?_, v, g3, by rw [g4]; exact hcd⟩, by rw [g2]; simp⟩
          rcases g5 with g5 | g5
          · omega
          · exact g5
        · left; simp [hcd, pure_ok])
  simp only [lcpIter]
  rw [rd_some hlcp, ok_bind, e1, ok_bind]
  have hp1 := A.rdsa hq
  have hp2 := A.hsa (q + 1) hq
  -- the part that pushes the leaf
  have hleaf : ∀ (nodes : List LCPInterval) (v : Nat) (rest : List Nat) (edges : List SuffixEdge)
      (ch : Option Nat), LInv S.length (lcR S sa) (sdR S sa) (lbR S sa) q v (v :: rest) nodes edges →
      (ndAt nodes v).depth = ci →
      ∃ s' : LcpState, (do
        let p ← rd sa (q + 1)
        assertR (decide (p + S.length - p - 1 < S.length))
        let d1 ← usub S.length p
        let d2 ← usub d1 1
        pure (⟨nodes ++ [(⟨d2, q + 1, q + 1⟩ : LCPInterval)], nodes.length :: v :: rest, edges, ch⟩ : LcpState)) =
          .ok s' ∧ Fresh S sa (q + 1) s' := by
    intro nodes v rest edges ch hL hd
    have hn := hL.leaf A.C hq hd
    rw [hp1, ok_bind]
    simp only [assertR]
    rw [if_pos (by simp; omega), ok_bind, usub_ok (by omega), ok_bind, usub_ok (by omega), ok_bind]
    refine ⟨_, rfl, ?_⟩
    refine ⟨nodes.length, v :: rest, rfl, ?_, ?_⟩
    · have e : S.length - sa.getD (q + 1) 0 - 1 = sdR S sa (q + 1) := by simp only [sdR]; omega
      rw [e]; exact hn
    · dsimp only
      rw [ndAt_new]; simp only [sdR]; omega
  rcases s1 with ⟨nodes, path, edges, child⟩
  rcases hI with ⟨rfl, v, rest, rfl, hL, hd⟩ | ⟨⟨c, v, rest, rfl, rfl, hL, hlt, hend⟩, c', hc', hgt⟩
  · dsimp only at hL hd hc1 ⊢
    have htop := topDepth_ok (rest := rest) (edges := edges) (ch := none) (hL.bound v (by simp))
    rw [htop, ok_bind] at hc1
    simp only [pure_ok, Except.ok.injEq, decide_eq_false_iff_not, not_lt] at hc1
    rw [htop, ok_bind, if_neg (by omega), pure_bind', pure_bind']
    exact hleaf nodes v rest edges none hL (by omega)
  · dsimp only at hc' hL hlt hend hgt hc1 ⊢
    obtain rfl : c = c' := by simpa using hc'
    have hcb := hL.bound c (by simp)
    have htop := topDepth_ok (rest := rest) (edges := edges) (ch := some c) (hL.bound v (by simp))
    rw [htop, ok_bind] at hc1
    simp only [pure_ok, Except.ok.injEq, decide_eq_false_iff_not, not_lt] at hc1
    rw [htop, ok_bind]
    by_cases hcd : ci > (ndAt nodes v).depth
    · rw [if_pos hcd]
      obtain ⟨l1, l2, -⟩ := hL.label A hcb hgt.le
      rw [ndAt_get hcb, ok_bind, l1, ok_bind]
      simp only [assertR]
      rw [if_pos (by simp only [decide_eq_true_eq]; omega), ok_bind]
      have hI := hL.insert A.C (d := ci) (e := S.length) hcd hgt hq hci
      have hcb2 := hI.bound c (by simp)
      have hcn : ndAt (nodes ++ [⟨ci, (ndAt nodes c).begin, S.length⟩]) c = ndAt nodes c := ndAt_append hcb
      have hwb := hI.bound nodes.length (by simp)
      have hwn : ndAt (nodes ++ [⟨ci, (ndAt nodes c).begin, S.length⟩]) nodes.length =
        ⟨ci, (ndAt nodes c).begin, S.length⟩ := ndAt_new
      obtain ⟨m1, -, m2⟩ := hI.label A hcb2 (d := ci) (by rw [hcn]; exact hgt.le)
      rw [pure_bind']
      dsimp only
      rw [ndAt_get hcb2, ok_bind, m1, ok_bind, topDepth_ok hwb, ok_bind, hwn]
      dsimp only
      rw [m2, ok_bind]
      have hE := hI.edge A.C (by rw [hwn, hcn]; exact hgt) (by rw [hcn]; exact hend)
        (by rw [hwn]; exact hright) rfl
      rw [hwn] at hE
      exact hleaf _ _ _ _ _ hE (by rw [hwn])
    · have hci' : ci = (ndAt nodes v).depth := by omega
      rw [if_neg hcd, pure_bind']
      obtain ⟨m1, -, m2⟩ := hL.label A hcb (d := (ndAt nodes v).depth) hlt.le
      dsimp only
      rw [ndAt_get hcb, ok_bind, m1, ok_bind, htop, ok_bind, m2, ok_bind]
      have hE := hL.edge A.C hlt hend (by rw [← hci']; exact hright) rfl
      exact hleaf _ _ _ _ _ hE hci'.symm

/-- What `lcp_intervals` returns. -/
structure TreeOK (S : List UInt8) (sa : List Nat) (nodes : List LCPInterval) (edges : List SuffixEdge) :
    Prop where
  /-- the last edge leads from the root to the leaf of the empty suffix, which stands for the root -/
  split : ∃ E lbl, edges = E ++ [⟨0, lbl, 1⟩] ∧ 2 ≤ nodes.length ∧ (ndAt nodes 0).depth = 0 ∧
    ndAt nodes 1 = ⟨0, 0, S.length - 1⟩ ∧
    (∀ e ∈ E, e.parent < nodes.length ∧ e.child < nodes.length ∧
      EdgeOK S.length (lcR S sa) (sdR S sa) (ndAt nodes e.parent).depth (ndAt nodes e.child)) ∧
    (∀ r l, r < S.length → 0 < l → l ≤ sdR S sa r → CoveredBy (ndAt nodes) E r l) ∧
    (∀ v, v < nodes.length → (ndAt nodes v).begin < S.length ∧ NodeOK S.length (lcR S sa) (sdR S sa) (ndAt nodes v)) ∧
    (∀ e ∈ E, (ndAt nodes e.parent).depth ≤ lcR S sa (ndAt nodes e.parent).begin (ndAt nodes e.child).begin ∧
      e.label = lbR S sa (ndAt nodes e.child).begin (ndAt nodes e.parent).depth) ∧
    (E.Pairwise fun e e' => ¬ ((ndAt nodes e.parent).depth = (ndAt nodes e'.parent).depth ∧
      (ndAt nodes e.child).begin = (ndAt nodes e'.child).begin)) ∧
    lbl = lbR S sa 0 0 ∧
    (E.Pairwise fun e e' => (ndAt nodes e.child).end_ < (ndAt nodes e'.child).end_ ∨
      ((ndAt nodes e.child).end_ = (ndAt nodes e'.child).end_ ∧ (ndAt nodes e'.child).depth < (ndAt nodes e.child).depth))

theorem lcpIntervals_ok (A : TreeCtx S sa lcp) :
    ∃ nodes edges, lcpIntervals S sa lcp = .ok (nodes, edges) ∧ TreeOK S sa nodes edges := by
  have hpos := A.C.pos
  have hsa0 := A.hsa 0 hpos
  obtain ⟨s1, e1, hF⟩ := forRange_inv (fun i s => Fresh S sa (i - 1) s) (lo := 1) (hi := S.length)
    (s := (⟨[⟨0, 0, S.length - 1⟩, ⟨sdR S sa 0, 0, 0⟩], [1, 0], [], none⟩ : LcpState))
    (body := lcpIter S sa lcp) (by omega)
    ⟨1, [0], rfl, LInv.init A.C, by simp [ndAt]⟩
    (fun i s h1 h2 hI => by
      obtain ⟨q, rfl⟩ : ∃ q, i = q + 1 := ⟨i - 1, by omega⟩
      exact lcpIter_ok A h2 hI)
  simp only [lcpIntervals]
  rw [A.rdsa hpos, ok_bind, usub_ok (by omega), ok_bind, usub_ok (by omega), ok_bind, usub_ok (by omega),
    ok_bind]
  have e : S.length - sa.getD 0 0 - 1 = sdR S sa 0 := by simp only [sdR]; omega
  rw [e, e1, ok_bind]
  have hnone : ∀ q, q = S.length - 1 → ∀ d r, q < r → r < S.length → lcR S sa r q ≤ d := by
    intro q hq d r h1 h2; omega
  obtain ⟨v, rest, hp, hL, hd⟩ := hF
  obtain ⟨s2, e2, hI, hc2⟩ := whileLoop_inv
    (fun s : LcpState => (s.child = none ∧ Fresh S sa (S.length - 1) s) ∨ Pend S sa (S.length - 1) s ∨
      AtRoot S sa (S.length - 1) s ∨
      (s.path = [] ∧ TreeOK S sa s.nodes s.edges ∧
        ∀ v, v < s.nodes.length → (ndAt s.nodes v).begin < S.length ∧
          (ndAt s.nodes v).depth ≤ sdR S sa (ndAt s.nodes v).begin ∧ (ndAt s.nodes v).end_ < S.length))
    (fun s => s.path.length)
    (fuel := s1.path.length + 1) (cond := fun s => pure (decide (s.path ≠ [])))
    (body := lcpPop S sa (S.length - 1)) (s := { s1 with child := none })
    (Or.inl ⟨rfl, v, rest, hp, hL, hd⟩) (by simp) (by
      rintro ⟨nodes, path, edges, child⟩ hI
      rcases hI with ⟨rfl, v, rest, rfl, hL, hd⟩ | ⟨c, v, rest, rfl, rfl, hL, hlt, hend⟩ |
        ⟨rfl, rfl, hL, hend⟩ | ⟨rfl, hT⟩
      · right
        refine ⟨rfl, ?_⟩
        obtain ⟨s', g1, g2, g3, g4, g5⟩ := pop_fresh hL
        refine ⟨s', g1, ?_, by rw [g2]; simp⟩
        rcases g5 with g5 | g5
        · exact Or.inr (Or.inr (Or.inl g5.2))
        · exact Or.inr (Or.inl g5)
      · right
        refine ⟨rfl, ?_⟩
        obtain ⟨s', g1, g2, g3, g4, g5⟩ := pop_pend A hL hlt hend (hnone _ rfl _)
        refine ⟨s', g1, ?_, by rw [g2]; simp⟩
        rcases g5 with g5 | g5
        · exact Or.inr (Or.inr (Or.inl g5.2))
        · exact Or.inr (Or.inl g5)
      · right
        refine ⟨rfl, ?_⟩
        dsimp only at hL hend
        have hd : (ndAt nodes 1).depth = 0 ∧ (ndAt nodes 1).begin = 0 ∧ (ndAt nodes 0).depth = 0 := by
          rcases hL.stk with ⟨-, -, -, a, b, c, -⟩ | ⟨-, -, -, h⟩
          · exact ⟨a, b, c⟩
          · exact absurd h (by simp [StkOK])
        have g := lcpPop_child A (e := S.length - 1) hL (by omega)
        refine ⟨_, g, Or.inr (Or.inr (Or.inr ⟨rfl, ⟨edges, _, rfl, ?_, ?_, ?_, ?_, ?_, ?_, ?_, ?_, ?_, ?_⟩, ?_⟩)), by simp⟩
        · have := hL.bound 1 (by simp); rw [List.length_set]; omega
        · rw [ndAt_set_eq (hL.bound 0 (by simp))]; exact hd.2.2
        · dsimp only; rw [ndAt_set_ne (by decide)]
          rcases hn1 : ndAt nodes 1 with ⟨d, b, e⟩
          rw [hn1] at hd hend
          simp only at hd hend
          rw [hd.1, hd.2.1, hend]
        · intro x hx
          have h2 := hL.set (e := S.length - 1) (v := 0) (by simp)
          obtain ⟨k1, k2, k3, k4⟩ := h2.hedges x hx
          exact ⟨k1, k2, k4⟩
        · intro r l hr hl1 hl2
          have h2 := hL.set (e := S.length - 1) (v := 0) (by simp)
          refine h2.cov r l (by omega) hl2 (Or.inr ?_)
          rw [ndAt_set_ne (by decide), hd.1]; exact hl1
        · intro w hw
          have h2 := hL.set (e := S.length - 1) (v := 0) (by simp)
          exact ⟨(h2.nds w hw).1, h2.nok w hw⟩
        · exact (hL.set (e := S.length - 1) (v := 0) (by simp)).near
        · exact (hL.set (e := S.length - 1) (v := 0) (by simp)).pw
        · rw [hd.2.1, hd.2.2]
        · exact (hL.set (e := S.length - 1) (v := 0) (by simp)).ord
        · intro w hw
          have h2 := hL.set (e := S.length - 1) (v := 0) (by simp)
          obtain ⟨k1, k2, k3⟩ := h2.nds w hw
          refine ⟨k1, k2, ?_⟩
          rcases k3 with k3 | k3
          · exact k3
          · simp only [List.mem_cons, List.not_mem_nil, or_false] at k3
            rcases k3 with rfl | rfl
            · dsimp only; rw [ndAt_set_ne (by decide), hend]; omega
            · dsimp only; rw [ndAt_set_eq (hL.bound 0 (by simp))]; simp only; omega
      · left; rfl)
  rw [e2, ok_bind]
  have hpath : s2.path = [] := by simpa [pure_ok] using hc2
  rcases hI with ⟨-, v, rest, h, -⟩ | ⟨c, v, rest, -, h, -⟩ | ⟨-, h, -⟩ | ⟨-, hT, hN⟩
  · rw [h] at hpath; cases hpath
  · rw [h] at hpath; cases hpath
  · rw [h] at hpath; cases hpath
  · have hall : forEach s2.nodes () (fun nd _ => do
        assertR (decide (nd.begin < S.length))
        assertR (decide (nd.end_ < S.length))
        let p ← rd sa nd.begin
        assertR (decide (p + nd.depth < S.length))) = .ok () := by
      obtain ⟨u, hu, -⟩ := forEach_inv (fun _ _ => True) (l := s2.nodes) (s := ())
        (body := fun nd _ => do
          assertR (decide (nd.begin < S.length))
          assertR (decide (nd.end_ < S.length))
          let p ← rd sa nd.begin
          assertR (decide (p + nd.depth < S.length))) trivial (by
          intro pre x post _ hl _
          have hx : ndAt s2.nodes pre.length = x := by simp [ndAt, hl]
          obtain ⟨k1, k2, k3⟩ := hN pre.length (by rw [hl]; simp)
          rw [hx] at k1 k2 k3
          have h3 := A.hsa _ k1
          simp only [sdR] at k2
          refine ⟨(), ?_, trivial⟩
          simp only [assertR]
          rw [if_pos (by simpa using k1), ok_bind, if_pos (by simpa using k3), ok_bind, A.rdsa k1, ok_bind,
            if_pos (by simp only [decide_eq_true_eq]; omega)])
      exact hu
    rw [hall, ok_bind]
    exact ⟨s2.nodes, s2.edges, rfl, hT⟩

end Verif
