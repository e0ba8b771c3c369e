import Verif.Lemmas.Lz
import Verif.Model.Attractor

/-! # The suffix-tree edges computed by `lcp_intervals`

The invariant is stated over abstract longest-common-prefix lengths `lc r q` of the suffixes of rank `r`
and `q` and leaf depths `sd q`. -/

namespace Verif

open Spec Model

/-- What is used of the suffix and lcp arrays of a sentinel-terminated text of length `n`. -/
structure LcCtx (n : Nat) (lc : Nat → Nat → Nat) (sd : Nat → Nat) : Prop where
  pos : 0 < n
  symm : ∀ r q, lc r q = lc q r
  between : ∀ r q p, r ≤ q → q ≤ p → p < n → lc r p = min (lc r q) (lc q p)
  trans : ∀ r q p l, l ≤ lc r q → l ≤ lc q p → l ≤ lc r p
  self : ∀ q, q < n → lc q q = sd q + 1
  ne : ∀ r q, r < n → q < n → r ≠ q → lc r q ≤ sd q
  strict : ∀ q, q + 1 < n → lc q (q + 1) < sd (q + 1)
  zero : sd 0 = 0

/-- node lookup -/
def ndAt (nodes : List LCPInterval) (v : Nat) : LCPInterval := nodes.getD v default

theorem ndAt_get {nodes : List LCPInterval} {v : Nat} (h : v < nodes.length) :
    rd nodes v = .ok (ndAt nodes v) := by
  rw [rd_ok h]; simp [ndAt, h]

theorem ndAt_append {nodes : List LCPInterval} {v : Nat} {x : LCPInterval} (h : v < nodes.length) :
    ndAt (nodes ++ [x]) v = ndAt nodes v := by
  simp [ndAt, List.getElem?_append_left h]

theorem ndAt_new {nodes : List LCPInterval} {x : LCPInterval} :
    ndAt (nodes ++ [x]) nodes.length = x := by
  simp [ndAt]

theorem ndAt_set_ne {nodes : List LCPInterval} {v w : Nat} {x : LCPInterval} (h : v ≠ w) :
    ndAt (nodes.set v x) w = ndAt nodes w := by
  simp [ndAt, List.getElem?_set_ne h]

theorem ndAt_set_eq {nodes : List LCPInterval} {v : Nat} {x : LCPInterval} (h : v < nodes.length) :
    ndAt (nodes.set v x) v = x := by
  simp [ndAt, h]

/-- The stack describes, for the suffix of rank `q`, where the block of ranks sharing its first `l`
letters begins. -/
def StkOK (nd : Nat → LCPInterval) (lc : Nat → Nat → Nat) (sd : Nat → Nat) (q : Nat) : List Nat → Prop
  | [] => False
  | [_] => False
  | v :: u :: rest =>
    (v = 1 ∧ u = 0 ∧ rest = [] ∧ (nd 1).depth = 0 ∧ (nd 1).begin = 0 ∧ (nd 0).depth = 0 ∧ (nd 0).begin = 0) ∨
    ((nd u).depth < (nd v).depth ∧ (nd v).depth ≤ sd q ∧
      (∀ l, (nd u).depth < l → l ≤ (nd v).depth → ∀ r, r ≤ q → (l ≤ lc r q ↔ (nd v).begin ≤ r)) ∧
      StkOK nd lc sd q (u :: rest))

/-- An edge (parent depth `dp`, child interval `c`) covers the lengths `dp < l ≤ c.depth`. -/
def EdgeOK (n : Nat) (lc : Nat → Nat → Nat) (sd : Nat → Nat) (dp : Nat) (c : LCPInterval) : Prop :=
  dp < c.depth ∧ c.begin ≤ c.end_ ∧ c.end_ < n ∧ c.depth ≤ sd c.begin ∧
    ∀ l, dp < l → l ≤ c.depth → ∀ r, r < n → (l ≤ lc r c.begin ↔ c.begin ≤ r ∧ r ≤ c.end_)

/-- Length `l` at rank `r` lies on an edge. -/
def CoveredBy (nd : Nat → LCPInterval) (edges : List SuffixEdge) (r l : Nat) : Prop :=
  ∃ e ∈ edges, (nd e.parent).depth < l ∧ l ≤ (nd e.child).depth ∧ (nd e.child).begin ≤ r ∧
    r ≤ (nd e.child).end_

/-- A node is a leaf (its word is a suffix of the text) or two suffixes that begin with its word part there. -/
def NodeOK (n : Nat) (lc : Nat → Nat → Nat) (sd : Nat → Nat) (c : LCPInterval) : Prop :=
  c.depth = sd c.begin ∨
    ∃ r r', r < n ∧ r' < n ∧ lc r r' = c.depth ∧ c.depth ≤ lc r c.begin ∧ c.depth ≤ lc r' c.begin

/-- `lb r d` is the letter at depth `d` of the suffix of rank `r`. -/
structure LInv (n : Nat) (lc : Nat → Nat → Nat) (sd : Nat → Nat) (lb : Nat → Nat → UInt8) (q : Nat) (v0 : Nat) (st : List Nat)
    (nodes : List LCPInterval) (edges : List SuffixEdge) : Prop where
  hq : q < n
  hhd : st.head? = some v0
  nodup : st.Nodup
  bound : ∀ v ∈ st, v < nodes.length
  stk : StkOK (ndAt nodes) lc sd q st
  hedges : ∀ e ∈ edges, e.parent < nodes.length ∧ e.child < nodes.length ∧ e.child ∉ st ∧
    EdgeOK n lc sd (ndAt nodes e.parent).depth (ndAt nodes e.child)
  cov : ∀ r l, r ≤ q → l ≤ sd r → (lc r q < l ∨ (ndAt nodes v0).depth < l) →
    CoveredBy (ndAt nodes) edges r l
  nds : ∀ v, v < nodes.length → (ndAt nodes v).begin < n ∧ (ndAt nodes v).depth ≤ sd (ndAt nodes v).begin ∧
    ((ndAt nodes v).end_ < n ∨ v ∈ st)
  nok : ∀ v, v < nodes.length → NodeOK n lc sd (ndAt nodes v)
  near : ∀ e ∈ edges, (ndAt nodes e.parent).depth ≤ lc (ndAt nodes e.parent).begin (ndAt nodes e.child).begin ∧
    e.label = lb (ndAt nodes e.child).begin (ndAt nodes e.parent).depth
  fin : ∀ e ∈ edges, (ndAt nodes e.child).begin ≤ q ∧
    (lc (ndAt nodes e.child).begin q ≤ (ndAt nodes e.parent).depth ∨
      (ndAt nodes v0).depth ≤ (ndAt nodes e.parent).depth)
  pw : edges.Pairwise fun e e' => ¬ ((ndAt nodes e.parent).depth = (ndAt nodes e'.parent).depth ∧
    (ndAt nodes e.child).begin = (ndAt nodes e'.child).begin)
  endq : ∀ e ∈ edges, (ndAt nodes e.child).end_ < q ∨
    ((ndAt nodes e.child).end_ = q ∧ (ndAt nodes v0).depth < (ndAt nodes e.child).depth)
  ord : edges.Pairwise fun e e' => (ndAt nodes e.child).end_ < (ndAt nodes e'.child).end_ ∨
    ((ndAt nodes e.child).end_ = (ndAt nodes e'.child).end_ ∧ (ndAt nodes e'.child).depth < (ndAt nodes e.child).depth)

variable {n : Nat} {lc : Nat → Nat → Nat} {sd : Nat → Nat} {lb : Nat → Nat → UInt8}

theorem StkOK.congr {nd nd' : Nat → LCPInterval} {q : Nat} {st : List Nat}
    (h : ∀ v ∈ st, (nd' v).depth = (nd v).depth ∧ (nd' v).begin = (nd v).begin)
    (hs : StkOK nd lc sd q st) : StkOK nd' lc sd q st := by
  induction st with
  | nil => exact hs
  | cons v st ih =>
    cases st with
    | nil => exact hs
    | cons u rest =>
      have hv := h v (by simp)
      have hu := h u (by simp)
      rcases hs with ⟨rfl, rfl, h3, h4, h5, h6, h7⟩ | ⟨h1, h2, h3, h4⟩
      · exact Or.inl ⟨rfl, rfl, h3, by rw [hv.1]; exact h4, by rw [hv.2]; exact h5,
          by rw [hu.1]; exact h6, by rw [hu.2]; exact h7⟩
      · refine Or.inr ⟨by rw [hu.1, hv.1]; exact h1, by rw [hv.1]; exact h2, ?_,
          ih (fun v hv => h v (by simp [hv])) h4⟩
        intro l hl1 hl2 r hr
        rw [hu.1] at hl1
        rw [hv.1] at hl2
        rw [hv.2]
        exact h3 l hl1 hl2 r hr

/-- Every stack node of positive depth begins at or before `q`. -/
theorem StkOK.next (C : LcCtx n lc sd) {nd : Nat → LCPInterval} {q c : Nat} {st : List Nat} (hq : q + 1 < n)
    (hc : c = lc q (q + 1)) {v : Nat} (hv : st.head? = some v) (hd : (nd v).depth ≤ c)
    (hs : StkOK nd lc sd q st) : StkOK nd lc sd (q + 1) st := by
  induction st generalizing v with
  | nil => exact hs
  | cons w st ih =>
    simp at hv
    subst hv
    cases st with
    | nil => exact hs
    | cons u rest =>
      rcases hs with h | ⟨h1, h2, h3, h4⟩
      · exact Or.inl h
      · have hne := C.ne q (q + 1) (by omega) hq (by omega)
        refine Or.inr ⟨h1, by omega, ?_, ih (v := u) rfl (by omega) h4⟩
        intro l hl1 hl2 r hr
        rcases Nat.lt_or_ge q r with hqr | hqr
        · obtain rfl : r = q + 1 := by omega
          rw [C.self _ hq]
          have : (nd w).begin ≤ q := (h3 l hl1 hl2 q (le_refl _)).1 (by
            rw [C.self _ (by omega)]; omega)
          constructor <;> intro _ <;> omega
        · rw [C.between r q (q + 1) hqr (by omega) hq, ← hc, ← h3 l hl1 hl2 r hqr]
          omega

/-- Changing the `end` of a stack node. -/
theorem LInv.set {q v0 v e : Nat} {st : List Nat} {nodes : List LCPInterval} {edges : List SuffixEdge}
    (h : LInv n lc sd lb q v0 st nodes edges) (hv : v ∈ st) :
    LInv n lc sd lb q v0 st (nodes.set v { ndAt nodes v with end_ := e }) edges := by
  have hvb := h.bound v hv
  have hdb : ∀ w, (ndAt (nodes.set v { ndAt nodes v with end_ := e }) w).depth = (ndAt nodes w).depth ∧
      (ndAt (nodes.set v { ndAt nodes v with end_ := e }) w).begin = (ndAt nodes w).begin := by
    intro w
    by_cases hw : v = w
    · subst hw; rw [ndAt_set_eq hvb]; exact ⟨rfl, rfl⟩
    · rw [ndAt_set_ne hw]; exact ⟨rfl, rfl⟩
  refine ⟨h.hq, h.hhd, h.nodup, by simpa using h.bound, h.stk.congr (fun w _ => hdb w), ?_, ?_, ?_, ?_, ?_, ?_, ?_, ?_, ?_⟩
  · intro x hx
    obtain ⟨h1, h2, h3, h4⟩ := h.hedges x hx
    refine ⟨by simpa, by simpa, h3, ?_⟩
    have hne : v ≠ x.child := fun h' => h3 (h' ▸ hv)
    rw [(hdb _).1, ndAt_set_ne hne]; exact h4
  · intro r l hr hl hlt
    rw [(hdb v0).1] at hlt
    obtain ⟨x, hx, h1, h2, h3, h4⟩ := h.cov r l hr hl hlt
    have hne : v ≠ x.child := fun h' => (h.hedges x hx).2.2.1 (h' ▸ hv)
    exact ⟨x, hx, by rw [(hdb _).1]; exact h1, by rw [ndAt_set_ne hne]; exact h2,
      by rw [ndAt_set_ne hne]; exact h3, by rw [ndAt_set_ne hne]; exact h4⟩
  · intro w hw
    rw [List.length_set] at hw
    obtain ⟨h1, h2, h3⟩ := h.nds w hw
    rw [(hdb w).1, (hdb w).2]
    refine ⟨h1, h2, ?_⟩
    by_cases hvw : v = w
    · right; exact hvw ▸ hv
    · rw [ndAt_set_ne hvw]; exact h3
  · intro w hw
    rw [List.length_set] at hw
    simp only [NodeOK, (hdb w).1, (hdb w).2]
    exact h.nok w hw
  · intro x hx
    simp only [(hdb _).1, (hdb _).2]
    exact h.near x hx
  · intro x hx
    simp only [(hdb _).1, (hdb _).2]
    exact h.fin x hx
  · simp only [(hdb _).1, (hdb _).2]
    exact h.pw
  · intro x hx
    have hne : v ≠ x.child := fun h' => (h.hedges x hx).2.2.1 (h' ▸ hv)
    rw [(hdb v0).1, ndAt_set_ne hne]
    exact h.endq x hx
  · refine h.ord.imp_of_mem ?_
    intro x y hx hy hxy
    have hne : v ≠ x.child := fun h' => (h.hedges x hx).2.2.1 (h' ▸ hv)
    have hne' : v ≠ y.child := fun h' => (h.hedges y hy).2.2.1 (h' ▸ hv)
    rw [ndAt_set_ne hne, ndAt_set_ne hne']
    exact hxy

/-- The top edge of the stack is a correct edge once nothing to the right shares more than the parent. -/
theorem LInv.edgeOK (C : LcCtx n lc sd) {q c v : Nat} {st : List Nat} {nodes : List LCPInterval}
    {edges : List SuffixEdge} (h : LInv n lc sd lb q c (c :: v :: st) nodes edges)
    (hbase : (ndAt nodes v).depth < (ndAt nodes c).depth) (hend : (ndAt nodes c).end_ = q)
    (hnext : ∀ r, q < r → r < n → lc r q ≤ (ndAt nodes v).depth) :
    EdgeOK n lc sd (ndAt nodes v).depth (ndAt nodes c) := by
  rcases h.stk with hb | ⟨h1, h2, h3, h4⟩
  · exfalso
    obtain ⟨rfl, rfl, -, hb1, -, hb2, -⟩ := hb
    omega
  · have hq := h.hq
    have hbq : (ndAt nodes c).begin ≤ q := (h3 _ h1 (le_refl _) q (le_refl _)).1 (by
      rw [C.self _ hq]; omega)
    have hb : ∀ l, (ndAt nodes v).depth < l → l ≤ (ndAt nodes c).depth → l ≤ lc (ndAt nodes c).begin q :=
      fun l hl1 hl2 => (h3 l hl1 hl2 _ hbq).2 (le_refl _)
    refine ⟨h1, by omega, by omega, (h.nds c (h.bound c (by simp))).2.1, ?_⟩
    intro l hl1 hl2 r hr
    rw [hend]
    constructor
    · intro hlr
      have hrq : l ≤ lc r q := C.trans _ _ _ _ hlr (hb l hl1 hl2)
      by_cases hq' : r ≤ q
      · exact ⟨(h3 l hl1 hl2 r hq').1 hrq, hq'⟩
      · have := hnext r (by omega) hr
        omega
    · rintro ⟨hr1, hr2⟩
      exact C.trans _ _ _ _ ((h3 l hl1 hl2 r hr2).2 hr1) (by rw [C.symm]; exact hb l hl1 hl2)

/-- Connecting the top of the stack to the element below and dropping it. -/
theorem LInv.edge (C : LcCtx n lc sd) {q c v : Nat} {st : List Nat} {nodes : List LCPInterval}
    {edges : List SuffixEdge} (h : LInv n lc sd lb q c (c :: v :: st) nodes edges)
    (hbase : (ndAt nodes v).depth < (ndAt nodes c).depth) (hend : (ndAt nodes c).end_ = q)
    (hnext : ∀ r, q < r → r < n → lc r q ≤ (ndAt nodes v).depth) {label : UInt8}
    (hlab : label = lb (ndAt nodes c).begin (ndAt nodes v).depth) :
    LInv n lc sd lb q v (v :: st) nodes (edges ++ [⟨v, label, c⟩]) := by
  have hE := h.edgeOK C hbase hend hnext
  have hnd := h.nodup
  rw [List.nodup_cons] at hnd
  have hq := h.hq
  refine ⟨hq, rfl, hnd.2, fun w hw => h.bound w (by simp [List.mem_cons] at hw ⊢; tauto), ?_, ?_, ?_, ?_, h.nok, ?_, ?_, ?_, ?_, ?_⟩
  · rcases h.stk with hb | ⟨-, -, -, h4⟩
    · exfalso
      obtain ⟨rfl, rfl, -, hb1, -, hb2, -⟩ := hb
      omega
    · exact h4
  · intro x hx
    rcases List.mem_append.1 hx with hx | hx
    · obtain ⟨h1, h2, h3, h4⟩ := h.hedges x hx
      exact ⟨h1, h2, fun h' => h3 (List.mem_cons_of_mem _ h'), h4⟩
    · rw [List.mem_singleton] at hx
      subst hx
      exact ⟨h.bound v (by simp), h.bound c (by simp), hnd.1, hE⟩
  · intro r l hr hl hlt
    by_cases hcase : lc r q < l ∨ (ndAt nodes c).depth < l
    · obtain ⟨x, hx, hh⟩ := h.cov r l hr hl hcase
      exact ⟨x, List.mem_append_left _ hx, hh⟩
    · rw [not_or, not_lt, not_lt] at hcase
      have hlv : (ndAt nodes v).depth < l := by omega
      refine ⟨⟨v, label, c⟩, List.mem_append_right _ (List.mem_singleton.2 rfl), hlv, hcase.2, ?_, by rw [hend]; exact hr⟩
      rcases h.stk with hb | ⟨h1, h2, h3, h4⟩
      · exfalso
        obtain ⟨rfl, rfl, -, hb1, -, hb2, -⟩ := hb
        omega
      · exact (h3 l hlv hcase.2 r hr).1 hcase.1
  · intro w hw
    obtain ⟨h1, h2, h3⟩ := h.nds w hw
    refine ⟨h1, h2, ?_⟩
    rcases h3 with h3 | h3
    · exact Or.inl h3
    · rcases List.mem_cons.1 h3 with rfl | h3
      · left; rw [hend]; exact hq
      · exact Or.inr h3
  · intro x hx
    rcases List.mem_append.1 hx with hx | hx
    · exact h.near x hx
    · rw [List.mem_singleton] at hx
      subst hx
      refine ⟨?_, hlab⟩
      rcases h.stk with hb | ⟨h1, h2, h3, h4⟩
      · exfalso
        obtain ⟨rfl, rfl, -, hb1, -, hb2, -⟩ := hb
        omega
      · have hbq : (ndAt nodes c).begin ≤ q := (h3 _ h1 (le_refl _) q (le_refl _)).1 (by
          rw [C.self _ hq]; omega)
        have hcq := (h3 _ h1 (le_refl _) _ hbq).2 (le_refl _)
        dsimp only
        cases st with
        | nil => exact absurd h4 (by simp [StkOK])
        | cons u st =>
          rcases h4 with ⟨rfl, rfl, -, hb1, -⟩ | ⟨k1, k2, k3, -⟩
          · omega
          · have hvq : (ndAt nodes v).begin ≤ q := (k3 _ k1 (le_refl _) q (le_refl _)).1 (by
              rw [C.self _ hq]; omega)
            refine C.trans _ _ _ _ ((k3 _ k1 (le_refl _) _ hvq).2 (le_refl _)) ?_
            rw [C.symm]; omega
  · intro x hx
    rcases List.mem_append.1 hx with hx | hx
    · obtain ⟨k1, k2⟩ := h.fin x hx
      exact ⟨k1, by omega⟩
    · rw [List.mem_singleton] at hx
      subst hx
      obtain ⟨k1, k2, k3, k4, k5⟩ := hE
      exact ⟨by dsimp only; omega, Or.inr le_rfl⟩
  · rw [List.pairwise_append]
    refine ⟨h.pw, List.pairwise_singleton _ _, ?_⟩
    intro x hx y hy
    rw [List.mem_singleton] at hy
    subst hy
    dsimp only
    rintro ⟨g1, g2⟩
    obtain ⟨k1, k2⟩ := h.fin x hx
    rw [g1, g2] at k2
    rcases k2 with k2 | k2
    · obtain ⟨k1, k2', k3, k4, k5⟩ := hE
      rw [hend] at k5 k2'
      have := (k5 _ (Nat.lt_succ_self _) hbase q hq).2 ⟨k2', le_rfl⟩
      rw [C.symm] at this
      omega
    · omega
  · intro x hx
    rcases List.mem_append.1 hx with hx | hx
    · have := h.endq x hx
      omega
    · rw [List.mem_singleton] at hx
      subst hx
      exact Or.inr ⟨hend, hbase⟩
  · rw [List.pairwise_append]
    refine ⟨h.ord, List.pairwise_singleton _ _, ?_⟩
    intro x hx y hy
    rw [List.mem_singleton] at hy
    subst hy
    dsimp only
    have := h.endq x hx
    omega

/-- Inserting an internal node below the pending child. -/
theorem LInv.insert (C : LcCtx n lc sd) {q c v d e : Nat} {st : List Nat} {nodes : List LCPInterval}
    {edges : List SuffixEdge} (h : LInv n lc sd lb q c (c :: v :: st) nodes edges)
    (h1 : (ndAt nodes v).depth < d) (h2 : d < (ndAt nodes c).depth) (hq1 : q + 1 < n) (hdl : d = lc q (q + 1)) :
    LInv n lc sd lb q c (c :: nodes.length :: v :: st)
      (nodes ++ [⟨d, (ndAt nodes c).begin, e⟩]) edges := by
  have hold : ∀ w, w < nodes.length → ndAt (nodes ++ [⟨d, (ndAt nodes c).begin, e⟩]) w = ndAt nodes w :=
    fun w hw => ndAt_append hw
  have hc := h.bound c (by simp)
  have hv := h.bound v (by simp)
  have hq := h.hq
  refine ⟨hq, rfl, ?_, ?_, ?_, ?_, ?_, ?_, ?_, ?_, ?_, ?_, ?_, ?_⟩
  · have hnd := h.nodup
    rw [List.nodup_cons] at hnd ⊢
    refine ⟨?_, ?_⟩
    · rw [List.mem_cons]
      rintro (h' | h')
      · omega
      · exact hnd.1 h'
    · rw [List.nodup_cons]
      exact ⟨fun h' => by have := h.bound _ (List.mem_cons_of_mem _ h'); omega, hnd.2⟩
  · intro w hw
    rw [List.length_append, List.length_singleton]
    rcases List.mem_cons.1 hw with rfl | hw
    · omega
    · rcases List.mem_cons.1 hw with rfl | hw
      · omega
      · have := h.bound w (List.mem_cons_of_mem _ hw); omega
  · rcases h.stk with hb | ⟨g1, g2, g3, g4⟩
    · exfalso
      obtain ⟨rfl, rfl, -, hb1, -, hb2, -⟩ := hb
      omega
    · refine Or.inr ⟨?_, ?_, ?_, Or.inr ⟨?_, ?_, ?_, ?_⟩⟩
      · rw [ndAt_new, hold c hc]; exact h2
      · rw [hold c hc]; exact g2
      · rw [ndAt_new, hold c hc]
        intro l hl1 hl2 r hr
        simp only at hl1
        exact g3 l (by omega) hl2 r hr
      · rw [ndAt_new, hold v hv]; exact h1
      · rw [ndAt_new]; simp only; omega
      · rw [ndAt_new, hold v hv]
        intro l hl1 hl2 r hr
        simp only at hl2
        exact g3 l hl1 (by omega) r hr
      · exact g4.congr (fun w hw => by
          rw [hold w (h.bound w (List.mem_cons_of_mem _ hw))]; exact ⟨rfl, rfl⟩)
  · intro x hx
    obtain ⟨g1, g2, g3, g4⟩ := h.hedges x hx
    rw [List.length_append, List.length_singleton]
    refine ⟨by omega, by omega, ?_, ?_⟩
    · rw [List.mem_cons, List.mem_cons]
      rintro (h' | h' | h')
      · exact g3 (by rw [h']; simp)
      · omega
      · exact g3 (List.mem_cons_of_mem _ h')
    · rw [hold _ g1, hold _ g2]; exact g4
  · intro r l hr hl hlt
    rw [hold c hc] at hlt
    obtain ⟨x, hx, hh⟩ := h.cov r l hr hl hlt
    obtain ⟨g1, g2, -⟩ := h.hedges x hx
    exact ⟨x, hx, by rw [hold _ g1, hold _ g2]; exact hh⟩
  · intro w hw
    rw [List.length_append, List.length_singleton] at hw
    rcases Nat.lt_or_ge w nodes.length with hw' | hw'
    · rw [hold w hw']
      obtain ⟨g1, g2, g3⟩ := h.nds w hw'
      refine ⟨g1, g2, ?_⟩
      rcases g3 with g3 | g3
      · exact Or.inl g3
      · right
        rw [List.mem_cons] at g3 ⊢
        rcases g3 with g3 | g3
        · exact Or.inl g3
        · exact Or.inr (List.mem_cons_of_mem _ g3)
    · obtain rfl : w = nodes.length := by omega
      rw [ndAt_new]
      obtain ⟨g1, g2, -⟩ := h.nds c hc
      exact ⟨g1, by simp only; omega, Or.inr (by simp)⟩
  · intro w hw
    rw [List.length_append, List.length_singleton] at hw
    rcases Nat.lt_or_ge w nodes.length with hw' | hw'
    · rw [hold w hw']
      exact h.nok w hw'
    · obtain rfl : w = nodes.length := by omega
      rw [ndAt_new]
      rcases h.stk with hb | ⟨g1, g2, g3, g4⟩
      · exfalso
        obtain ⟨rfl, rfl, -, hb1, -, hb2, -⟩ := hb
        omega
      · have hbq : (ndAt nodes c).begin ≤ q := (g3 _ g1 (le_refl _) q (le_refl _)).1 (by
          rw [C.self _ hq]; omega)
        have hb := (g3 d h1 h2.le _ hbq).2 (le_refl _)
        rw [C.symm] at hb
        refine Or.inr ⟨q, q + 1, hq, hq1, hdl.symm, hb, ?_⟩
        exact C.trans _ _ _ _ (by rw [C.symm]; exact hdl.le) hb
  · intro x hx
    obtain ⟨g1, g2, -⟩ := h.hedges x hx
    rw [hold _ g1, hold _ g2]
    exact h.near x hx
  · intro x hx
    obtain ⟨g1, g2, -⟩ := h.hedges x hx
    rw [hold _ g1, hold _ g2, hold _ hc]
    exact h.fin x hx
  · refine h.pw.imp_of_mem ?_
    intro x y hx hy hxy
    obtain ⟨g1, g2, -⟩ := h.hedges x hx
    obtain ⟨g3, g4, -⟩ := h.hedges y hy
    rw [hold _ g1, hold _ g2, hold _ g3, hold _ g4]
    exact hxy
  · intro x hx
    obtain ⟨g1, g2, -⟩ := h.hedges x hx
    rw [hold _ g2, hold _ hc]
    exact h.endq x hx
  · refine h.ord.imp_of_mem ?_
    intro x y hx hy hxy
    obtain ⟨g1, g2, -⟩ := h.hedges x hx
    obtain ⟨g3, g4, -⟩ := h.hedges y hy
    rw [hold _ g2, hold _ g4]
    exact hxy

/-- Moving to the next suffix: push its leaf. -/
theorem LInv.leaf (C : LcCtx n lc sd) {q v : Nat} {st : List Nat} {nodes : List LCPInterval}
    {edges : List SuffixEdge} (h : LInv n lc sd lb q v (v :: st) nodes edges) (hn : q + 1 < n)
    (hd : (ndAt nodes v).depth = lc q (q + 1)) :
    LInv n lc sd lb (q + 1) nodes.length (nodes.length :: v :: st)
      (nodes ++ [⟨sd (q + 1), q + 1, q + 1⟩]) edges := by
  have hold : ∀ w, w < nodes.length → ndAt (nodes ++ [⟨sd (q + 1), q + 1, q + 1⟩]) w = ndAt nodes w :=
    fun w hw => ndAt_append hw
  have hv := h.bound v (by simp)
  have hq := h.hq
  have hstrict := C.strict q hn
  refine ⟨hn, rfl, ?_, ?_, ?_, ?_, ?_, ?_, ?_, ?_, ?_, ?_, ?_, ?_⟩
  · rw [List.nodup_cons]
    exact ⟨fun h' => by have := h.bound _ h'; omega, h.nodup⟩
  · intro w hw
    rw [List.length_append, List.length_singleton]
    rcases List.mem_cons.1 hw with rfl | hw
    · omega
    · have := h.bound w hw; omega
  · refine Or.inr ⟨?_, ?_, ?_, ?_⟩
    · rw [ndAt_new, hold v hv, hd]; exact hstrict
    · rw [ndAt_new]
    · rw [ndAt_new, hold v hv]
      intro l hl1 hl2 r hr
      simp only at hl2 ⊢
      rcases Nat.lt_or_ge q r with hqr | hqr
      · obtain rfl : r = q + 1 := by omega
        rw [C.self _ hn]
        constructor <;> intro _ <;> omega
      · rw [C.between r q (q + 1) hqr (by omega) hn]
        constructor <;> intro _ <;> omega
    · refine StkOK.congr (nd := ndAt nodes) (fun w hw => by rw [hold w (h.bound w hw)]; exact ⟨rfl, rfl⟩) ?_
      exact h.stk.next C hn rfl rfl (by omega)
  · intro x hx
    obtain ⟨g1, g2, g3, g4⟩ := h.hedges x hx
    rw [List.length_append, List.length_singleton]
    refine ⟨by omega, by omega, ?_, ?_⟩
    · rw [List.mem_cons]
      rintro (h' | h')
      · omega
      · exact g3 h'
    · rw [hold _ g1, hold _ g2]; exact g4
  · intro r l hr hl hlt
    rw [ndAt_new] at hlt
    simp only at hlt
    rcases Nat.lt_or_ge q r with hqr | hqr
    · obtain rfl : r = q + 1 := by omega
      rw [C.self _ hn] at hlt
      omega
    · have hbt := C.between r q (q + 1) hqr (by omega) hn
      have hne := C.ne r (q + 1) (by omega) hn (by omega)
      obtain ⟨x, hx, hh⟩ := h.cov r l hqr hl (by omega)
      obtain ⟨g1, g2, -⟩ := h.hedges x hx
      exact ⟨x, hx, by rw [hold _ g1, hold _ g2]; exact hh⟩
  · intro w hw
    rw [List.length_append, List.length_singleton] at hw
    rcases Nat.lt_or_ge w nodes.length with hw' | hw'
    · rw [hold w hw']
      obtain ⟨g1, g2, g3⟩ := h.nds w hw'
      exact ⟨g1, g2, g3.imp id (List.mem_cons_of_mem _)⟩
    · obtain rfl : w = nodes.length := by omega
      rw [ndAt_new]
      exact ⟨hn, le_refl _, Or.inl hn⟩
  · intro w hw
    rw [List.length_append, List.length_singleton] at hw
    rcases Nat.lt_or_ge w nodes.length with hw' | hw'
    · rw [hold w hw']
      exact h.nok w hw'
    · obtain rfl : w = nodes.length := by omega
      rw [ndAt_new]
      exact Or.inl rfl
  · intro x hx
    obtain ⟨g1, g2, -⟩ := h.hedges x hx
    rw [hold _ g1, hold _ g2]
    exact h.near x hx
  · intro x hx
    obtain ⟨g1, g2, -⟩ := h.hedges x hx
    rw [hold _ g1, hold _ g2]
    obtain ⟨k1, k2⟩ := h.fin x hx
    refine ⟨by omega, Or.inl ?_⟩
    rw [C.between _ q (q + 1) k1 (by omega) hn]
    omega
  · refine h.pw.imp_of_mem ?_
    intro x y hx hy hxy
    obtain ⟨g1, g2, -⟩ := h.hedges x hx
    obtain ⟨g3, g4, -⟩ := h.hedges y hy
    rw [hold _ g1, hold _ g2, hold _ g3, hold _ g4]
    exact hxy
  · intro x hx
    obtain ⟨g1, g2, -⟩ := h.hedges x hx
    rw [hold _ g2]
    have := h.endq x hx
    omega
  · refine h.ord.imp_of_mem ?_
    intro x y hx hy hxy
    obtain ⟨g1, g2, -⟩ := h.hedges x hx
    obtain ⟨g3, g4, -⟩ := h.hedges y hy
    rw [hold _ g2, hold _ g4]
    exact hxy

/-- The initial stack. -/
theorem LInv.init (C : LcCtx n lc sd) :
    LInv n lc sd lb 0 1 [1, 0] [⟨0, 0, n - 1⟩, ⟨sd 0, 0, 0⟩] [] := by
  have hpos := C.pos
  have h0 := C.zero
  refine ⟨hpos, rfl, by decide, by simp, Or.inl ⟨rfl, rfl, rfl, ?_, rfl, rfl, rfl⟩, by simp, ?_, ?_, ?_, by simp, by simp, List.Pairwise.nil, by simp, List.Pairwise.nil⟩
  · simp [ndAt, h0]
  · intro r l hr hl hlt
    obtain rfl : r = 0 := by omega
    rw [C.self 0 hpos] at hlt
    simp only [ndAt] at hlt
    simp at hlt
    omega
  · intro v hv
    simp at hv
    rcases Nat.lt_or_ge v 1 with h | h
    · obtain rfl : v = 0 := by omega
      exact ⟨hpos, by simp [ndAt], Or.inl (by simp [ndAt]; omega)⟩
    · obtain rfl : v = 1 := by omega
      exact ⟨hpos, by simp [ndAt], Or.inl (by simp [ndAt]; omega)⟩
  · intro v hv
    simp at hv
    rcases Nat.lt_or_ge v 1 with h | h
    · obtain rfl : v = 0 := by omega
      exact Or.inl (by simp [ndAt, h0])
    · obtain rfl : v = 1 := by omega
      exact Or.inl (by simp [ndAt])

end Verif
