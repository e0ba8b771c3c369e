import Verif.Model.Parallel
import Verif.Spec.LyndonFile

/-! # Model of `probe_main` in `src/unfinished/parallel.rs` -/

namespace Verif.Model

open Verif Spec

/-- The mutable variables `bbwt_wins`, `best_conjugate`, `best_bbwt_runs`.
src/unfinished/parallel.rs:218-221 -/
structure ProbeState where
  wins : Nat
  conj : List UInt8
  runs : Nat

/-- One round of the loop over the conjugates.  src/unfinished/parallel.rs:225-235 -/
def probeConjugate (bwtRuns : Nat) (conjugate : List UInt8) (s : ProbeState) : Res ProbeState := do
  let bbwt ← bbwtNaive conjugate
  let bbwtRuns := numberOfRuns (sliceReader bbwt)
  let wins := if bbwtRuns < bwtRuns then s.wins + 1 else s.wins
  pure (if s.runs > bbwtRuns then ⟨wins, conjugate, bbwtRuns⟩ else { s with wins := wins })

/-- One word of `probe_main`: `out` is what has been printed before.  `maxLength` is `MAX_LENGTH` (16).
src/unfinished/parallel.rs:213-240 -/
def probeWord (maxLength : Nat) (w : List Nat) (out : List UInt8) : Res (List UInt8) := do
  let text : List UInt8 := w.map UInt8.ofNat
  let bwt ← bwtByMatrixNaive text
  let bwtRuns := numberOfRuns (sliceReader bwt)
  assertR (decide (text.length > 0))
  let lindex ← usub text.length 1
  assertR (decide (lindex < maxLength))
  let s ← forIter ConjugateIterator.next (text.length + 1) (ConjugateIterator.new text) ⟨0, text, maxLength⟩
    (probeConjugate bwtRuns)
  if s.wins = 0 ∧ bwtRuns ≥ 10 then
    pure (out ++ ascii "text=" ++ binaryVectorToStr text ++ ascii " conj=" ++ binaryVectorToStr s.conj ++
      ascii " rbwt=" ++ decimal bwtRuns ++ ascii " rbbwt=" ++ decimal s.runs ++ [10])
  else pure out

/-- `probe_main`: what it prints.  The fuel bounds the number of words.
src/unfinished/parallel.rs:210-242 -/
def probeMain (maxLength fuel : Nat) : Res (List UInt8) :=
  forIter LyndonWordGenerator.next fuel (LyndonWordGenerator.new maxLength 2) [] (probeWord maxLength)

end Verif.Model
