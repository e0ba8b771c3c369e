import Verif.Model.Prog
import Verif.Model.Parallel

/-!
# Model of `max_lyndon_word` of `src/unfinished/parallel.rs` (lines 244-374)

The program of a worker is transcribed statement by statement into the language of
`Verif/Model/Prog.lean`, first without overflow checks (`mworker`), then with them (`maxWorker`); guards are released in the reverse order of their creation at the end of their
block.  The lines printed by the reports are collected in `out`.
-/

namespace Verif.Model

open Verif

/-- `MAX_LENGTH` of `max_lyndon_word`.  src/unfinished/parallel.rs:245 -/
def MAXW : Nat := 40

/-- The lock-protected variables.  src/unfinished/parallel.rs:250-271.  `text l` is the lock inside
`best_bbwt_text[l]`. -/
inductive MLock where
  | iter | num | bwtWin | bbwtWin | tie | bestBwt | bestBbwt | texts | text (l : Nat) | total
  deriving DecidableEq, Repr

/-- The data behind the locks.  src/unfinished/parallel.rs:250-271 -/
structure MShared where
  iter : LyndonWordGenerator
  num : List Nat
  bwtWin : List Nat
  bbwtWin : List Nat
  tie : List Nat
  bestBwt : List Nat
  bestBbwt : List Nat
  bestText : List (List UInt8)
  total : Nat
  /-- the lines printed so far -/
  out : List (List UInt8)

/-- The initial data.  src/unfinished/parallel.rs:250-271 -/
def MShared.init : MShared :=
  { iter := LyndonWordGenerator.new MAXW 2, num := List.replicate MAXW 0,
    bwtWin := List.replicate MAXW 0, bbwtWin := List.replicate MAXW 0, tie := List.replicate MAXW 0,
    bestBwt := List.replicate MAXW 0, bestBbwt := List.replicate MAXW 0,
    bestText := List.replicate MAXW [], total := 0, out := [] }

abbrev MProg := Prog MShared MLock

/-- `second_criteria`: fewer bytes `'0'` (48).  src/unfinished/parallel.rs:15-18 -/
def secondCriteria (newtext oldtext : List UInt8) : Bool :=
  decide (newtext.countP (fun c => decide (c = 48)) < oldtext.countP (fun c => decide (c = 48)))

/-- `v[i] += 1` -/
def incAt (v : List Nat) (i : Nat) : Res (List Nat) := do
  let x ← rd v i
  wr v i (x + 1)

/-- The win/tie counters.  src/unfinished/parallel.rs:311 -/
def winUpdate (bwtRuns bbwtRuns lindex : Nat) (s : MShared) : Res MShared :=
  if bwtRuns < bbwtRuns then do
    let v ← incAt s.bwtWin lindex
    pure { s with bwtWin := v }
  else if bwtRuns > bbwtRuns then do
    let v ← incAt s.bbwtWin lindex
    pure { s with bbwtWin := v }
  else do
    let v ← incAt s.tie lindex
    pure { s with tie := v }

/-- The condition under the read locks.  src/unfinished/parallel.rs:323-326 -/
def needsChange (bwtRuns bbwtRuns lindex : Nat) (conjugate : List UInt8) (s : MShared) : Res Bool := do
  let d ← usub bwtRuns bbwtRuns
  let b ← rd s.bestBwt lindex
  let c ← rd s.bestBbwt lindex
  let e ← usub b c
  if d > e then pure true
  else if d = e then do
    let old ← rd s.bestText lindex
    pure (secondCriteria conjugate old)
  else pure false

/-- Lines 329-339: take the four write locks and store the new record, one variable after the other. -/
def storeBest (bwtRuns bbwtRuns lindex : Nat) (conjugate : List UInt8) (k : MProg) : MProg :=
  .acq .bestBwt true <| .acq .bestBbwt true <| .acq .texts true <| .acq (.text lindex) true <|
  .act (fun s => do
    let v ← wr s.bestBwt lindex bwtRuns
    pure { s with bestBwt := v }) fun _ =>
  .act (fun s => do
    let v ← wr s.bestBbwt lindex bbwtRuns
    pure { s with bestBbwt := v }) fun _ =>
  .act (fun s => do
    let v ← wr s.bestText lindex conjugate
    pure { s with bestText := v }) fun _ =>
  .rel (.text lindex) true <| .rel .texts true <| .rel .bestBbwt true <| .rel .bestBwt true k

/-- Lines 314-340: if the conjugate beats the BWT, compare with the record under the four read locks, and
store it if needed. -/
def considerBest (bwtRuns bbwtRuns lindex : Nat) (conjugate : List UInt8) (k : MProg) : MProg :=
  if bbwtRuns < bwtRuns then
    .acq .bestBwt false <| .acq .bestBbwt false <| .acq .texts false <| .acq (.text lindex) false <|
    .act (fun s => do
      let _ ← needsChange bwtRuns bbwtRuns lindex conjugate s
      pure s) fun s =>
    .rel (.text lindex) false <| .rel .texts false <| .rel .bestBbwt false <| .rel .bestBwt false <|
    match needsChange bwtRuns bbwtRuns lindex conjugate s with
    | .ok true => storeBest bwtRuns bbwtRuns lindex conjugate k
    | _ => k
  else k

/-- Lines 303-312, then 314-340: one conjugate. -/
def conjugateBlock (bwtRuns lindex : Nat) (conjugate : List UInt8) (k : MProg) : MProg :=
  match bbwtNaive conjugate with
  | .error _ => .panic
  | .ok bbwt =>
    let bbwtRuns := numberOfRuns (sliceReader bbwt)
    .acq .bwtWin true <| .acq .bbwtWin true <| .acq .tie true <|
    .act (winUpdate bwtRuns bbwtRuns lindex) fun _ =>
    .rel .tie true <| .rel .bbwtWin true <| .rel .bwtWin true <|
    considerBest bwtRuns bbwtRuns lindex conjugate k

/-- Lines 300-342: the loop over the conjugates, then `k`; the fuel bounds the number of `next` calls. -/
def conjugateLoop (bwtRuns lindex : Nat) : Nat → ConjugateIterator UInt8 → MProg → MProg
  | 0, _, _ => .panic
  | fuel + 1, it, k =>
    match it.next with
    | .error _ => .panic
    | .ok (none, _) => k
    | .ok (some c, it) => conjugateBlock bwtRuns lindex c (conjugateLoop bwtRuns lindex fuel it k)

/-- src/unfinished/parallel.rs:358 -/
def printTotal (s : MShared) : Res MShared :=
  pure { s with out := s.out ++ [Spec.ascii "total_count=" ++ Spec.decimal s.total ++ [10]] }

/-- src/unfinished/parallel.rs:361 -/
def printCounts (length : Nat) (s : MShared) : Res MShared := do
  let n ← rd s.num length
  let a ← rd s.bwtWin length
  let b ← rd s.bbwtWin length
  let c ← rd s.tie length
  pure { s with out := s.out ++ [Spec.ascii "length=" ++ Spec.decimal length ++ Spec.ascii " lyndon_words=" ++
    Spec.decimal n ++ Spec.ascii " bwt_wins=" ++ Spec.decimal a ++ Spec.ascii " bbwt_wins=" ++ Spec.decimal b ++
    Spec.ascii " ties=" ++ Spec.decimal c ++ [10]] }

/-- src/unfinished/parallel.rs:363 -/
def printText (length : Nat) (s : MShared) : Res MShared := do
  let t ← rd s.bestText length
  let a ← rd s.bestBwt length
  let b ← rd s.bestBbwt length
  pure { s with out := s.out ++ [Spec.ascii "length=" ++ Spec.decimal length ++ Spec.ascii " text=" ++
    binaryVectorToStr t ++ Spec.ascii " bwt_runs=" ++ Spec.decimal a ++ Spec.ascii " bbwt_runs=" ++
    Spec.decimal b ++ [10]] }

/-- Lines 359-364: the report loop reads one text after the other and prints two lines. -/
def reportTexts (k : MProg) : List Nat → MProg
  | [] => k
  | l :: ls => .acq (.text l) false <| .act (printCounts l) fun _ => .act (printText l) fun _ =>
    .rel (.text l) false <| reportTexts k ls

/-- Lines 351-365: the report, entered with the total counter held. -/
def report (k : MProg) : MProg :=
  .acq .num true <| .acq .bwtWin true <| .acq .bbwtWin true <| .acq .tie true <|
  .acq .bestBwt false <| .acq .bestBbwt false <| .acq .texts false <|
  .act printTotal fun _ =>
  reportTexts (.rel .texts false <| .rel .bestBbwt false <| .rel .bestBwt false <| .rel .tie true <|
    .rel .bbwtWin true <| .rel .bwtWin true <| .rel .num true k) (List.range' 20 (MAXW - 20))

/-- Lines 349-366: look at the total counter, and report at every multiple of 10000. -/
def checkReport : MProg :=
  .acq .total true <|
  .act (fun s => pure s) fun s =>
    if s.total % 10000 = 0 then report (.rel .total true .again) else .rel .total true .again

/-- Lines 343-348: count the word; both guards live until the end of the block. -/
def countWord (lindex : Nat) (k : MProg) : MProg :=
  .acq .num true <|
  .act (fun s => do
    let v ← incAt s.num lindex
    pure { s with num := v }) fun _ =>
  .acq .total true <|
  .act (fun s => pure { s with total := s.total + 1 }) fun _ =>
  .rel .total true <| .rel .num true k

/-- Lines 291-366: process one word. -/
def processWord (w : List Nat) : MProg :=
  let text : List UInt8 := w.map UInt8.ofNat
  match bwtByMatrixNaive text with
  | .error _ => .panic
  | .ok bwt =>
    let bwtRuns := numberOfRuns (sliceReader bwt)
    if text.length > 0 ∧ text.length - 1 < MAXW then
      let lindex := text.length - 1
      conjugateLoop bwtRuns lindex (text.length + 1) (ConjugateIterator.new text)
        (countWord lindex checkReport)
    else .panic

/-- Lines 284-368: one round of a worker's `loop`. -/
def mworker : MProg :=
  .acq .iter true <|
  .act (fun s => do
    let (_, it) ← s.iter.next
    pure { s with iter := it }) fun s =>
  .rel .iter true <|
  match s.iter.next with
  | .ok (some w, _) => processWord w
  | .ok (none, _) => .stop
  | .error _ => .panic

/-- The counters of lines 250-253 are arrays of `i32`.  (`total`, a `usize`, counts the same words as
`num`, and is not checked.) -/
def i32Fits (s : MShared) : Bool :=
  decide (∀ v ∈ [s.num, s.bwtWin, s.bbwtWin, s.tie], ∀ x ∈ v, x < 2 ^ 31)

/-- The worker with overflow checks.  src/unfinished/parallel.rs:283-368 -/
def maxWorker : MProg := mworker.guard i32Fits

/-- The states `max_lyndon_word` can reach with `T` workers (4 in the code).
src/unfinished/parallel.rs:244-374 -/
def MaxReachable {T : Nat} (s : TState MShared MLock T) : Prop :=
  TState.Reachable maxWorker MShared.init s

end Verif.Model
