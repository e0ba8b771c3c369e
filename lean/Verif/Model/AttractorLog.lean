import Verif.Model.ToolLogs
import Verif.Model.Attractor

/-! # Model of the log messages of `is_stringattractor` -/

namespace Verif.Model

open Verif Spec

/-- `for x in l` with a logging body. -/
def forEachL {β σ : Type} : List β → σ → (β → σ → LogR σ) → LogR σ
  | [], s, _ => pure s
  | x :: l, s, body => do
    let s ← body x s
    forEachL l s body

/-- `{:?}` of an LCP interval (`#[derive(Debug)]`).  src/bin/is_stringattractor.rs:12-20 -/
def intervalText (c : LCPInterval) : List UInt8 :=
  ascii "LCPInterval { depth: " ++ decimal c.depth ++ ascii ", begin: " ++ decimal c.begin ++ ascii ", end: " ++ decimal c.end_ ++
    ascii " }"

/-- One round of the checking loop with its message.  src/bin/is_stringattractor.rs:229-244 -/
def checkEdgeL (level : Nat) (text : List UInt8) (sa d : List Nat) (nodes : List LCPInterval) (e : SuffixEdge)
    (st : Bool × List (List UInt8)) : LogR (Bool × List (List UInt8)) := do
  let cn ← quiet (rd nodes e.child)
  logR level .info (intervalText cn)
  quiet (checkEdge text sa d nodes e st)

/-- `is_attractor` with its messages.  src/bin/is_stringattractor.rs:162-245 -/
def attractorReportL (level : Nat) (sufsort : List UInt8 → List Nat) (text : List UInt8) (attractor : List Nat) :
    LogR (Bool × List (List UInt8)) := do
  let n := text.length
  quiet (assertR (decide (n > 0)))
  quiet (match text.getLast? with
    | none => .error .unwrap
    | some c => assertR (decide (c = 0)))
  quiet (forEach attractor () (fun p _ => assertR (decide (p < n))))
  let sa := sufsort text
  let phi ← quiet (computePhi sa)
  let plcp ← quiet (computePlcp text phi)
  let lcp ← quiet (computeLcp plcp sa)
  let t ← quiet (lcpIntervals text sa lcp)
  let bits ← quiet (forEach attractor (List.replicate n false) (fun p v => wr v p true))
  let d ← quiet (attractorDistances n sa bits)
  forEachL t.2 (true, []) (checkEdgeL level text sa d t.1)

/-- `main` of `is_stringattractor` with its messages: the exit status and the bytes on stdout.
src/bin/is_stringattractor.rs:247-279 -/
def isStringattractorL (level : Nat) (sufsort : List UInt8 → List Nat) (attractor : List Nat) (inn : Option String)
    (prefixLength : Nat) (stdin : List UInt8) (w : World) : LogR (Nat × List UInt8) := do
  logR level .info (ascii "prefixlength: " ++ decimal prefixLength)
  let input ← quiet (readVector inn prefixLength stdin w)
  let text := input ++ [0]
  let n := text.length
  if attractor.any (fun p => decide (p ≥ n)) then pure (1, [])
  else do
    let r ← attractorReportL level sufsort text attractor
    let lines := r.2.flatMap uncoveredLine
    if ! r.1 then pure (2, lines ++ ascii "not a valid attractor\n")
    else pure (0, lines ++ ascii "valid attractor\n")

end Verif.Model
