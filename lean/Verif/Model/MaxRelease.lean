import Verif.Model.MaxLyndon
import Verif.Model.ReleaseTools

/-!
# `max_lyndon_word` of `src/unfinished/parallel.rs` without overflow checks (lines 244-374)

The worker of `MaxLyndon.lean` as `cargo build --release` compiles it: the `i32` counters wrap around, subtractions drop the
borrow, and the library functions are those of `Release.lean` and `ReleaseTools.lean` with `Build.wrapping`.  An entry of a counter
array is the bit pattern of an `i32`, a number below `2^32`.  The counter of all words is a `usize`, which is too large to wrap
around here, and a natural number.
-/

namespace Verif.Model

open Verif

/-- `v[i] += 1` on an array of `i32`.  src/unfinished/parallel.rs:311, 344 -/
def incAtW (v : List Nat) (i : Nat) : Res (List Nat) := do
  let x ← rd v i
  wr v i ((x + 1) % 4294967296)

/-- The number an `i32` with this bit pattern stands for. -/
def i32Value (x : Nat) : Int := if x < 2147483648 then x else (x : Int) - 4294967296

/-- `{}` of an `i32`.  src/unfinished/parallel.rs:361 -/
def i32Text (x : Nat) : List UInt8 :=
  if x < 2147483648 then Spec.decimal x else Spec.ascii "-" ++ Spec.decimal (4294967296 - x)

/-- The win/tie counters.  src/unfinished/parallel.rs:311 -/
def winUpdateW (bwtRuns bbwtRuns lindex : Nat) (s : MShared) : Res MShared :=
  if bwtRuns < bbwtRuns then do
    let v ← incAtW s.bwtWin lindex
    pure { s with bwtWin := v }
  else if bwtRuns > bbwtRuns then do
    let v ← incAtW s.bbwtWin lindex
    pure { s with bbwtWin := v }
  else do
    let v ← incAtW s.tie lindex
    pure { s with tie := v }

/-- The condition under the read locks.  src/unfinished/parallel.rs:323-326 -/
def needsChangeW (bwtRuns bbwtRuns lindex : Nat) (conjugate : List UInt8) (s : MShared) : Res Bool := do
  let d ← usubB .wrapping bwtRuns bbwtRuns
  let b ← rd s.bestBwt lindex
  let c ← rd s.bestBbwt lindex
  let e ← usubB .wrapping b c
  if d > e then pure true
  else if d = e then do
    let old ← rd s.bestText lindex
    pure (secondCriteria conjugate old)
  else pure false

/-- Lines 314-340. -/
def considerBestW (bwtRuns bbwtRuns lindex : Nat) (conjugate : List UInt8) (k : MProg) : MProg :=
  if bbwtRuns < bwtRuns then
    .acq .bestBwt false <| .acq .bestBbwt false <| .acq .texts false <| .acq (.text lindex) false <|
    .act (fun s => do
      let _ ← needsChangeW bwtRuns bbwtRuns lindex conjugate s
      pure s) fun s =>
    .rel (.text lindex) false <| .rel .texts false <| .rel .bestBbwt false <| .rel .bestBwt false <|
    match needsChangeW bwtRuns bbwtRuns lindex conjugate s with
    | .ok true => storeBest bwtRuns bbwtRuns lindex conjugate k
    | _ => k
  else k

/-- Lines 303-312, then 314-340: one conjugate. -/
def conjugateBlockW (bwtRuns lindex : Nat) (conjugate : List UInt8) (k : MProg) : MProg :=
  match bbwtNaiveB .wrapping conjugate with
  | .error _ => .panic
  | .ok bbwt =>
    let bbwtRuns := numberOfRuns (sliceReader bbwt)
    .acq .bwtWin true <| .acq .bbwtWin true <| .acq .tie true <|
    .act (winUpdateW bwtRuns bbwtRuns lindex) fun _ =>
    .rel .tie true <| .rel .bbwtWin true <| .rel .bwtWin true <|
    considerBestW bwtRuns bbwtRuns lindex conjugate k

/-- Lines 300-342: the loop over the conjugates, then `k`; the fuel bounds the number of `next` calls. -/
def conjugateLoopW (bwtRuns lindex : Nat) : Nat → ConjugateIterator UInt8 → MProg → MProg
  | 0, _, _ => .panic
  | fuel + 1, it, k =>
    match it.next with
    | .error _ => .panic
    | .ok (none, _) => k
    | .ok (some c, it) => conjugateBlockW bwtRuns lindex c (conjugateLoopW bwtRuns lindex fuel it k)

/-- src/unfinished/parallel.rs:361 -/
def printCountsW (length : Nat) (s : MShared) : Res MShared := do
  let n ← rd s.num length
  let a ← rd s.bwtWin length
  let b ← rd s.bbwtWin length
  let c ← rd s.tie length
  pure { s with out := s.out ++ [Spec.ascii "length=" ++ Spec.decimal length ++ Spec.ascii " lyndon_words=" ++
    i32Text n ++ Spec.ascii " bwt_wins=" ++ i32Text a ++ Spec.ascii " bbwt_wins=" ++ i32Text b ++
    Spec.ascii " ties=" ++ i32Text c ++ [10]] }

/-- Lines 359-364: the report loop. -/
def reportTextsW (k : MProg) : List Nat → MProg
  | [] => k
  | l :: ls => .acq (.text l) false <| .act (printCountsW l) fun _ => .act (printText l) fun _ =>
    .rel (.text l) false <| reportTextsW k ls

/-- Lines 351-365: the report, entered with the total counter held. -/
def reportW (k : MProg) : MProg :=
  .acq .num true <| .acq .bwtWin true <| .acq .bbwtWin true <| .acq .tie true <|
  .acq .bestBwt false <| .acq .bestBbwt false <| .acq .texts false <|
  .act printTotal fun _ =>
  reportTextsW (.rel .texts false <| .rel .bestBbwt false <| .rel .bestBwt false <| .rel .tie true <|
    .rel .bbwtWin true <| .rel .bwtWin true <| .rel .num true k) (List.range' 20 (MAXW - 20))

/-- Lines 349-366: look at the total counter, and report at every multiple of 10000. -/
def checkReportW : MProg :=
  .acq .total true <|
  .act (fun s => pure s) fun s =>
    if s.total % 10000 = 0 then reportW (.rel .total true .again) else .rel .total true .again

/-- Lines 343-348: count the word. -/
def countWordW (lindex : Nat) (k : MProg) : MProg :=
  .acq .num true <|
  .act (fun s => do
    let v ← incAtW s.num lindex
    pure { s with num := v }) fun _ =>
  .acq .total true <|
  .act (fun s => pure { s with total := s.total + 1 }) fun _ =>
  .rel .total true <| .rel .num true k

/-- Lines 291-366: process one word. -/
def processWordW (w : List Nat) : MProg :=
  let text : List UInt8 := w.map UInt8.ofNat
  match bwtByMatrixNaiveB .wrapping text with
  | .error _ => .panic
  | .ok bwt =>
    let bwtRuns := numberOfRuns (sliceReader bwt)
    if text.length > 0 ∧ text.length - 1 < MAXW then
      let lindex := text.length - 1
      conjugateLoopW bwtRuns lindex (text.length + 1) (ConjugateIterator.new text)
        (countWordW lindex checkReportW)
    else .panic

/-- Lines 284-368: one round of a worker's `loop`. -/
def relWorker : MProg :=
  .acq .iter true <|
  .act (fun s => do
    let (_, it) ← s.iter.nextB .wrapping
    pure { s with iter := it }) fun s =>
  .rel .iter true <|
  match s.iter.nextB .wrapping with
  | .ok (some w, _) => processWordW w
  | .ok (none, _) => .stop
  | .error _ => .panic

/-- The states `max_lyndon_word` can reach with `T` workers (4 in the code) in the release build.
src/unfinished/parallel.rs:244-374 -/
def RelReachable {T : Nat} (s : TState MShared MLock T) : Prop :=
  TState.Reachable relWorker MShared.init s

end Verif.Model
