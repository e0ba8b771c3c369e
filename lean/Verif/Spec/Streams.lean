import Mathlib.Data.List.Chain
import Verif.Byte

/-! # Specification vocabulary: runs, move-to-front, escaping -/

namespace Verif.Spec

/-- `rs` lists the maximal runs of `t` as pairs (letter, length): the runs are non-empty, neighbouring
runs have different letters, and written out they give `t`. -/
def IsRuns (rs : List (UInt8 × Nat)) (t : List UInt8) : Prop :=
  rs.flatMap (fun p => List.replicate p.2 p.1) = t ∧ (∀ p ∈ rs, 0 < p.2) ∧
    rs.IsChain (fun p q => p.1 ≠ q.1)

/-- The number of positions whose letter differs from the previous letter. -/
def changes (t : List UInt8) : Nat :=
  ((List.range (t.length - 1)).filter (fun i => t[i]? ≠ t[i + 1]?)).length

/-- Expand (letter, length - 1) pairs. -/
def unrle : List UInt8 → List UInt8
  | c :: l :: rest => List.replicate (l.toNat + 1) c ++ unrle rest
  | _ => []

/-- The textbook move-to-front decoder: code `i` stands for the `i`-th entry of the table, which then
moves to the front. -/
def mtfDecode : List UInt8 → List UInt8 → List UInt8
  | _, [] => []
  | table, i :: codes =>
    let c := table.getD i.toNat 0
    c :: mtfDecode (c :: table.erase c) codes

/-- The table `0, 1, ..., 255`. -/
def allBytes : List UInt8 := (List.range 256).map UInt8.ofNat

/-- The escaped form of one letter: the escape symbol is doubled, a symbol of the table becomes the
escape symbol and its partner, everything else stays. -/
def escapeLetter (esc : UInt8) (table : UInt8 → Option UInt8) (c : UInt8) : List UInt8 :=
  if c = esc then [esc, esc]
  else match table c with
    | some d => [esc, d]
    | none => [c]

end Verif.Spec
