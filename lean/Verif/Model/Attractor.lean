import Verif.Model.Core

/-! # Model of `src/bin/is_stringattractor.rs`

`Rc<RefCell<LCPInterval>>` nodes live in an arena (`nodes`), a pointer is an index into it, so aliasing is
kept.  The stack `path` is a list whose head is the top.  `u32` casts are identities (texts are shorter
than `2^31`).  Bit vector, `Rank9`, `BinSearchSelect` (crate `succinct`) and `SegmentPoint` (crate
`segment_tree`) are modelled by their documented behaviour.  Debug assertions are modelled. -/

namespace Verif.Model

open Verif

/-- `struct LCPInterval`.  src/bin/is_stringattractor.rs:12-20 -/
structure LCPInterval where
  depth : Nat
  begin : Nat
  end_ : Nat
  deriving DecidableEq, Repr, Inhabited

/-- `struct SuffixEdge`; `parent` and `child` are pointers.  src/bin/is_stringattractor.rs:23-30 -/
structure SuffixEdge where
  parent : Nat
  label : UInt8
  child : Nat
  deriving DecidableEq, Repr

/-- The local variables of `lcp_intervals`: arena, `path` (top first), `edges`, `child_ptr`. -/
structure LcpState where
  nodes : List LCPInterval
  path : List Nat
  edges : List SuffixEdge
  child : Option Nat
  deriving DecidableEq, Repr

/-- One turn of the popping loops: pop the top, set its `end`, connect the pending child to it, make it
the pending child.  `RefCell` panics if the pending child is the node itself.
src/bin/is_stringattractor.rs:59-74 and 111-125 -/
def lcpPop (text : List UInt8) (sa : List Nat) (endv : Nat) (s : LcpState) : Res LcpState :=
  match s.path with
  | [] => .error .unwrap
  | v :: rest => do
    let nd ← rd s.nodes v
    let nodes ← wr s.nodes v { nd with end_ := endv }
    let edges ← match s.child with
      | none => pure s.edges
      | some c => do
        if c = v then .error .explicit
        else do
          let cn ← rd nodes c
          let p ← rd sa cn.begin
          let label ← rd text (p + nd.depth)
          pure (s.edges ++ [⟨v, label, c⟩])
    pure ⟨nodes, rest, edges, some v⟩

/-- `path.last().unwrap().borrow().depth` -/
def topDepth (s : LcpState) : Res Nat :=
  match s.path with
  | [] => .error .unwrap
  | v :: _ => do
    let nd ← rd s.nodes v
    pure nd.depth

/-- The body of `for i in 1..n`.  src/bin/is_stringattractor.rs:57-108 -/
def lcpIter (text : List UInt8) (sa lcp : List Nat) (i : Nat) (s : LcpState) : Res LcpState := do
  let n := text.length
  let c ← rd lcp i
  let s ← whileLoop (s.path.length + 1)
    (fun s => do let d ← topDepth s; pure (decide (c < d)))
    (lcpPop text sa (i - 1)) { s with child := none }
  let d ← topDepth s
  let s ← if c > d then
      match s.child with
      | none => .error .assert
      | some ch => do
        let cn ← rd s.nodes ch
        let p ← rd sa cn.begin
        assertR (decide (c + p < n))
        pure { s with nodes := s.nodes ++ [⟨c, cn.begin, n⟩], path := s.nodes.length :: s.path }
    else pure s
  let s ← match s.child with
    | none => pure s
    | some ch => do
      let cn ← rd s.nodes ch
      let p ← rd sa cn.begin
      let d ← topDepth s
      let label ← rd text (p + d)
      match s.path with
      | [] => .error .unwrap
      | top :: _ => pure { s with edges := s.edges ++ [⟨top, label, ch⟩] }
  let p ← rd sa i
  assertR (decide (p + n - p - 1 < n))
  let d1 ← usub n p
  let d2 ← usub d1 1
  pure { s with nodes := s.nodes ++ [⟨d2, i, i⟩], path := s.nodes.length :: s.path }

/-- `lcp_intervals`; returns the arena with the edges (in Rust the edges point into it).
src/bin/is_stringattractor.rs:32-143 -/
def lcpIntervals (text : List UInt8) (sa lcp : List Nat) : Res (List LCPInterval × List SuffixEdge) := do
  let n := text.length
  let p0 ← rd sa 0
  let n1 ← usub n 1
  let a ← usub n p0
  let d0 ← usub a 1
  let s ← forRange 1 n (⟨[⟨0, 0, n1⟩, ⟨d0, 0, 0⟩], [1, 0], [], none⟩ : LcpState) (lcpIter text sa lcp)
  let s ← whileLoop (s.path.length + 1) (fun s => pure (decide (s.path ≠ [])))
    (lcpPop text sa (n - 1)) { s with child := none }
  forEach s.nodes () (fun nd _ => do
    assertR (decide (nd.begin < n))
    assertR (decide (nd.end_ < n))
    let p ← rd sa nd.begin
    assertR (decide (p + nd.depth < n)))
  pure (s.nodes, s.edges)

/-- Well-formed UTF-8, as accepted by `str::from_utf8` (Unicode table 3-7). -/
def utf8Valid : List UInt8 → Bool
  | [] => true
  | a :: t =>
    if a < 0x80 then utf8Valid t
    else match t with
    | [] => false
    | b :: t =>
      if 0xC2 ≤ a ∧ a ≤ 0xDF ∧ 0x80 ≤ b ∧ b ≤ 0xBF then utf8Valid t
      else match t with
      | [] => false
      | c :: t =>
        if 0x80 ≤ c ∧ c ≤ 0xBF ∧ ((a = 0xE0 ∧ 0xA0 ≤ b ∧ b ≤ 0xBF) ∨
            (0xE1 ≤ a ∧ a ≤ 0xEC ∧ 0x80 ≤ b ∧ b ≤ 0xBF) ∨ (a = 0xED ∧ 0x80 ≤ b ∧ b ≤ 0x9F) ∨
            (0xEE ≤ a ∧ a ≤ 0xEF ∧ 0x80 ≤ b ∧ b ≤ 0xBF)) then utf8Valid t
        else match t with
        | [] => false
        | d :: t =>
          if 0x80 ≤ c ∧ c ≤ 0xBF ∧ 0x80 ≤ d ∧ d ≤ 0xBF ∧ ((a = 0xF0 ∧ 0x90 ≤ b ∧ b ≤ 0xBF) ∨
              (0xF1 ≤ a ∧ a ≤ 0xF3 ∧ 0x80 ≤ b ∧ b ≤ 0xBF) ∨ (a = 0xF4 ∧ 0x80 ≤ b ∧ b ≤ 0x8F))
          then utf8Valid t else false

/-- Positions of the set bits. -/
def onePositions (bits : List Bool) : List Nat :=
  (List.range bits.length).filter (fun p => bits[p]? == some true)

/-- `Rank9::rank1(p)`: the number of set bits at positions `0..=p`. -/
def rank1 (bits : List Bool) (p : Nat) : Nat := (onePositions (bits.take (p + 1))).length

/-- `BinSearchSelect::select1(k)`: position of the set bit of rank `k` (counting from 0), if any. -/
def select1 (bits : List Bool) (k : Nat) : Option Nat := (onePositions bits)[k]?

/-- `SegmentPoint<u64, Min>::query(l, r)`. -/
def minQuery64 (v : List Nat) (l r : Nat) : Res Nat :=
  if l ≤ r ∧ r ≤ v.length then .ok (((v.drop l).take (r - l)).foldl min 18446744073709551615)
  else .error .index

/-- `&text[a..b]` -/
def slice (text : List UInt8) (a b : Nat) : Res (List UInt8) :=
  if a ≤ b ∧ b ≤ text.length then .ok ((text.drop a).take (b - a)) else .error .index

/-- The distance array `arr_d`.  src/bin/is_stringattractor.rs:210-223 -/
def attractorDistances (n : Nat) (sa : List Nat) (bits : List Bool) : Res (List Nat) :=
  forRange 0 n (List.replicate n 0) (fun i arr => do
    let p ← rd sa i
    let b ← rd bits p
    if b then pure arr
    else
      match select1 bits (rank1 bits p) with
      | some pos => do
        let b' ← rd bits pos
        assertR b'
        let d ← usub pos p
        wr arr i d
      | none => wr arr i n)

/-- The checking loop over the edges.  src/bin/is_stringattractor.rs:226-244.  The state is the flag `is_attractor`
and the substrings printed so far (one line `substring '...' not covered!` each); `str::from_utf8(..).unwrap()`
panics while printing a substring that is not UTF-8. -/
def checkEdge (text : List UInt8) (sa d : List Nat) (nodes : List LCPInterval) (e : SuffixEdge)
    (st : Bool × List (List UInt8)) : Res (Bool × List (List UInt8)) := do
  let pn ← rd nodes e.parent
  let cn ← rd nodes e.child
  let lcplength := pn.depth + 1
  let rmq ← minQuery64 d cn.begin (cn.end_ + 1)
  if lcplength ≤ rmq then do
    let startpos ← rd sa cn.begin
    let sub ← slice text startpos (min (startpos + lcplength) text.length)
    if utf8Valid sub then pure (false, st.2 ++ [sub]) else .error .unwrap
  else pure st

/-- `is_attractor`: the result and the substrings it prints.  src/bin/is_stringattractor.rs:162-245 -/
def attractorReport (sufsort : List UInt8 → List Nat) (text : List UInt8) (attractor : List Nat) :
    Res (Bool × List (List UInt8)) := do
  let n := text.length
  assertR (decide (n > 0))
  match text.getLast? with
  | none => .error .unwrap
  | some c => assertR (decide (c = 0))
  forEach attractor () (fun p _ => assertR (decide (p < n)))
  let sa := sufsort text
  let phi ← computePhi sa
  let plcp ← computePlcp text phi
  let lcp ← computeLcp plcp sa
  let (nodes, edges) ← lcpIntervals text sa lcp
  let bits ← forEach attractor (List.replicate n false) (fun p v => wr v p true)
  let d ← attractorDistances n sa bits
  forEach edges (true, []) (checkEdge text sa d nodes)

/-- `is_attractor`: the result alone.  src/bin/is_stringattractor.rs:162-245 -/
def isAttractor (sufsort : List UInt8 → List Nat) (text : List UInt8) (attractor : List Nat) :
    Res Bool := do
  let r ← attractorReport sufsort text attractor
  pure r.1

end Verif.Model
