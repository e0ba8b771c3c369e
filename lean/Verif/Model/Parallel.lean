import Verif.Model.Core
import Verif.Spec.LyndonFile

/-!
# Model of the sequential parts of `src/unfinished/parallel.rs`

The file is not part of the cargo build (it lies in `src/unfinished`); it is modelled as written, with
`core::` resolving to `src/core.rs`.
-/

namespace Verif.Model

open Verif

variable {α : Type}

/-- `for i in 0..m { if text[a+i] != text[b+i] { counter += 1; break; } }`: does the loop break?
src/unfinished/parallel.rs:70-75, 81-86 -/
def lettersDiffer [DecidableEq α] (text : List α) (a b m : Nat) : Res Bool := do
  let r ← forFind 0 m (fun i => do
    let x ← rd text (a + i)
    let y ← rd text (b + i)
    if x ≠ y then pure (some ()) else pure none)
  pure r.isSome

/-- One round of the second loop of `number_distinct_lyndon_factors`.
src/unfinished/parallel.rs:77-88 -/
def distinctStep [DecidableEq α] (text : List α) (conjugates : List Nat) (it counter : Nat) :
    Res Nat := do
  let it1 ← usub it 1
  let p ← rd conjugates it1
  let c ← rd conjugates it
  let n ← rd conjugates (it + 1)
  let d1 ← usub c p
  let d2 ← usub n c
  if d1 ≠ d2 then pure (counter + 1)
  else do
    let b ← lettersDiffer text (p + 1) (c + 1) d1
    pure (if b then counter + 1 else counter)

/-- `number_distinct_lyndon_factors`.  src/unfinished/parallel.rs:61-90 -/
def numberDistinctLyndonFactors [LinearOrder α] (text : List α) : Res Nat :=
  if text.length = 0 then pure 0
  else do
    let conjugates ← duval text
    if conjugates.length = 1 then pure 1
    else do
      let c1 ← rd conjugates 1
      let c0 ← rd conjugates 0
      let d ← usub c1 c0
      let counter ←
        if d ≠ 1 + c0 then pure 2
        else do
          let b ← lettersDiffer text 0 (c0 + 1) c0
          pure (if b then 2 else 1)
      let hi ← usub conjugates.length 1
      forRange 1 hi counter (distinctStep text conjugates)

/-- `for x in it { body }` driven by `Iterator::next`, stopping at the first `None`; the fuel bounds the
number of `next` calls. -/
def forIter {σ ι τ : Type} (next : σ → Res (Option ι × σ)) : Nat → σ → τ → (ι → τ → Res τ) → Res τ
  | 0, _, _, _ => .error .fuel
  | fuel + 1, s, acc, body => do
    let (o, s) ← next s
    match o with
    | none => pure acc
    | some x => do
      let acc ← body x acc
      forIter next fuel s acc body

/-- `binary_vector_to_str`.  src/unfinished/parallel.rs:20-26 -/
def binaryVectorToStr (text : List UInt8) : List UInt8 :=
  text.map fun c => if c = 0 then 97 else 98

/-- The line printed for a conjugate.  src/unfinished/parallel.rs:145 -/
def conjugateLine (bbwt conjugate : List UInt8) (bbwtRuns factors : Nat) : List UInt8 :=
  Spec.ascii "bbwt=" ++ binaryVectorToStr bbwt ++ Spec.ascii " conjugate=" ++ binaryVectorToStr conjugate ++
    Spec.ascii " bbwt_runs=" ++ Spec.decimal bbwtRuns ++ Spec.ascii " #factors=" ++ Spec.decimal factors ++ [10]

/-- One round of the loop over the conjugates in `main`: the number of runs of the bijective BWT, kept if
it is smaller than the best one so far, and the lines to print (they are printed by the thread model, one after the
other; since nothing else of the loop is visible to other threads, it does not matter that the thread computes them all
first).  src/unfinished/parallel.rs:140-151 -/
def conjugateRound (conjugate : List UInt8) (s : Nat × List (List UInt8)) : Res (Nat × List (List UInt8)) := do
  let bbwt ← bbwtNaive conjugate
  let bbwtRuns := numberOfRuns (sliceReader bbwt)
  let numConjugates ← numberDistinctLyndonFactors conjugate
  let lines := if bbwtRuns ≤ numConjugates + 1 then s.2 ++ [conjugateLine bbwt conjugate bbwtRuns numConjugates] else s.2
  pure (if s.1 > bbwtRuns then bbwtRuns else s.1, lines)

/-- `core::MAX_LENGTH` of `main`.  src/unfinished/parallel.rs:107 -/
def MAX_LENGTH : Nat := 24

/-- What a worker of `main` computes for a word: nothing if its length is not the wanted one, else the
lines to print and the index pair `(bwt_runs, best_bbwt_runs)` of the statistics cell to increment.  The word's letters are the
byte values delivered by the generator.  src/unfinished/parallel.rs:130-151 -/
def analyseWord (patternLength : Nat) (w : List Nat) : Res (Option (List (List UInt8) × Nat × Nat)) :=
  let text : List UInt8 := w.map UInt8.ofNat
  if text.length = patternLength then do
    let bwt ← bwtByMatrixNaive text
    let bwtRuns := numberOfRuns (sliceReader bwt)
    assertR (decide (text.length > 0))
    let lindex ← usub text.length 1
    assertR (decide (lindex < MAX_LENGTH))
    let best ← forIter ConjugateIterator.next (text.length + 1) (ConjugateIterator.new text)
      (MAX_LENGTH, []) conjugateRound
    pure (some (best.2, bwtRuns, best.1))
  else pure none

end Verif.Model
