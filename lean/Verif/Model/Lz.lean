import Verif.Model.Core

/-! # Model of `src/bin/count_z.rs` and `src/bin/count_lexparse.rs`

`enumerate_lexparse.rs` contains the same `compute_lexparse`.  Array entries of type `i32`/`u32` are
naturals; `sufsort` is `cdivsufsort::sort_in_place`.  The debug assertions are modelled (debug
profile).  Log lines, the clock and the printed line are not modelled. -/

namespace Verif.Model

open Verif

/-- `struct LZFactor`.  src/bin/count_z.rs:17-20, src/bin/count_lexparse.rs:13-16 -/
structure LZFactor where
  pos : Nat
  len : Nat
  deriving DecidableEq, Repr

/-- One factor of `decode_lz77`.  src/bin/count_z.rs:25-32 -/
def decodeFactor (f : LZFactor) (text : List UInt8) : Res (List UInt8) := do
  if f.len = 0 then pure (text ++ [UInt8.ofNat f.pos])
  else do
    let refPos ← usub text.length f.pos
    forRange 0 f.len text (fun p text => do
      let c ← rd text (refPos + p)
      pure (text ++ [c]))

/-- `decode_lz77`.  src/bin/count_z.rs:22-36 -/
def decodeLz77 (factors : List LZFactor) : Res (List UInt8) :=
  forEach factors [] decodeFactor

/-- `SegmentPoint<u32, Min>::query(l, r)` of the `segment_tree` crate: the minimum of the entries
`l..r`, `u32::MAX` for an empty range; panics if the range leaves the array.  (External crate, modelled
by its documented behaviour.) -/
def rmqQuery (lcp : List Nat) (l r : Nat) : Res Nat :=
  if l ≤ r ∧ r ≤ lcp.length then .ok (((lcp.drop l).take (r - l)).foldl min 4294967295)
  else .error .index

/-- The value the debug assertion compares with: `(l..r).map(|x| lcp[x]).min().unwrap()`.
src/bin/count_z.rs:62-65, 77-80 -/
def rmqNaive (lcp : List Nat) (l r : Nat) : Res Nat :=
  if l ≤ r ∧ r ≤ lcp.length then
    match ((lcp.drop l).take (r - l)).min? with
    | some m => .ok m
    | none => .error .unwrap
  else .error .index

/-- `prev_lcp`.  src/bin/count_z.rs:54-68 -/
def prevLcp (lcp psv : List Nat) (saPos : Nat) : Res Nat := do
  let p ← rd psv saPos
  if p = INVALID then pure 0
  else do
    assertR (decide (saPos > p))
    let ret ← rmqQuery lcp (p + 1) (saPos + 1)
    let m ← rmqNaive lcp (p + 1) (saPos + 1)
    assertR (decide (ret = m))
    pure ret

/-- `next_lcp`.  src/bin/count_z.rs:69-83 -/
def nextLcp (lcp nsv : List Nat) (saPos : Nat) : Res Nat := do
  let p ← rd nsv saPos
  if p = INVALID then pure 0
  else do
    assertR (decide (saPos < p))
    let ret ← rmqQuery lcp (saPos + 1) (p + 1)
    let m ← rmqNaive lcp (saPos + 1) (p + 1)
    assertR (decide (ret = m))
    pure ret

/-- One turn of the `while` loop of `compute_lz77`; state `(i, factors)`.
src/bin/count_z.rs:50-112.  `i as u32` is the identity below `2^32`. -/
def lz77Step (text : List UInt8) (sa isa lcp nsv psv : List Nat) (s : Nat × List LZFactor) :
    Res (Nat × List LZFactor) := do
  let (i, factors) := s
  let saPos ← rd isa i
  let prev ← prevLcp lcp psv saPos
  let next ← nextLcp lcp nsv saPos
  if prev = 0 ∧ next = 0 then do
    let c ← rd text i
    pure (i + 1, factors ++ [⟨c.toNat, 0⟩])
  else do
    let maxLcp := if prev < next then next else prev
    let q ← if prev < next then rd nsv saPos else rd psv saPos
    let maxPos ← rd sa q
    assertR (decide (maxPos < i))
    let d ← usub (asU32 i) (asU32 maxPos)
    pure (i + maxLcp, factors ++ [⟨d, maxLcp⟩])

/-- `compute_lz77`.  src/bin/count_z.rs:40-114 -/
def computeLz77 (text : List UInt8) (sa isa lcp nsv psv : List Nat) : Res (List LZFactor) := do
  let (_, factors) ← whileLoop (text.length + 1)
    (fun (s : Nat × List LZFactor) => pure (decide (s.1 < text.length)))
    (lz77Step text sa isa lcp nsv psv) (0, [])
  pure factors

/-- The factors computed by the `count_z` tool on its input text; the final
`debug_assert_eq!(text, decode_lz77(..))` is modelled.  src/bin/count_z.rs:176-210 -/
def countZFactors (sufsort : List UInt8 → List Nat) (text : List UInt8) : Res (List LZFactor) := do
  let sa := sufsort text
  let isa ← inversePermutation 2147483647 sa
  let psv ← computePsv sa
  let nsv ← computeNsv sa
  let phi ← computePhi sa
  let plcp ← computePlcp text phi
  let lcp ← computeLcp plcp sa
  let factors ← computeLz77 text sa isa lcp nsv psv
  let dec ← decodeLz77 factors
  assertR (decide (text = dec))
  pure factors

/-- One turn of the `while` loop of `compute_lexparse`.  src/bin/count_lexparse.rs:24-39 -/
def lexparseStep (text : List UInt8) (plcp phi : List Nat) (s : Nat × List LZFactor) :
    Res (Nat × List LZFactor) := do
  let (i, factors) := s
  let l ← rd plcp i
  if l = 0 then do
    let c ← rd text i
    pure (i + 1, factors ++ [⟨c.toNat, 0⟩])
  else do
    let p ← rd phi i
    pure (i + l, factors ++ [⟨p, l⟩])

/-- `compute_lexparse`.  src/bin/count_lexparse.rs:20-41, src/bin/enumerate_lexparse.rs:21-42 -/
def computeLexparse (text : List UInt8) (plcp phi : List Nat) : Res (List LZFactor) := do
  let (_, factors) ← whileLoop (text.length + 1)
    (fun (s : Nat × List LZFactor) => pure (decide (s.1 < text.length)))
    (lexparseStep text plcp phi) (0, [])
  pure factors

/-- The factors computed by `count_lexparse` (and, per text, by `enumerate_lexparse`).
src/bin/count_lexparse.rs:72-99, src/bin/enumerate_lexparse.rs:85-97 -/
def countLexparseFactors (sufsort : List UInt8 → List Nat) (text : List UInt8) :
    Res (List LZFactor) := do
  let sa := sufsort text
  let phi ← computePhi sa
  let plcp ← computePlcp text phi
  computeLexparse text plcp phi

end Verif.Model
