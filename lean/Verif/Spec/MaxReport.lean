import Verif.Spec.LyndonFile

/-!
# Specification vocabulary: the reports of the search for the best word

A report shows a total and, for each length from 21 to 40, two lines.  Nothing here refers to the model.
-/

namespace Verif.Spec

/-- What a report shows.  The functions take the length of the words. -/
structure Snapshot where
  /-- the number of words so far -/
  total : Nat
  /-- the number of words of a length -/
  words : Nat → Nat
  /-- how many rotations have fewer runs in the BWT, fewer runs in the bijective BWT, or as many -/
  bwtWins : Nat → Nat
  bbwtWins : Nat → Nat
  ties : Nat → Nat
  /-- the best text, and its numbers of runs -/
  text : Nat → List UInt8
  bwtRuns : Nat → Nat
  bbwtRuns : Nat → Nat

/-- A text over the bytes 0 and 1, written with the letters `a` and `b`. -/
def abText (t : List UInt8) : List UInt8 := t.map fun c => if c = 0 then 97 else 98

/-- The line with the numbers `x`, under the label `l`. -/
def countsLine (l : Nat) (words bwtWins bbwtWins ties : Nat) : List UInt8 :=
  ascii "length=" ++ decimal l ++ ascii " lyndon_words=" ++ decimal words ++ ascii " bwt_wins=" ++ decimal bwtWins ++
    ascii " bbwt_wins=" ++ decimal bbwtWins ++ ascii " ties=" ++ decimal ties ++ [10]

/-- The line with a text, under the label `l`. -/
def textLine (l : Nat) (text : List UInt8) (bwtRuns bbwtRuns : Nat) : List UInt8 :=
  ascii "length=" ++ decimal l ++ ascii " text=" ++ abText text ++ ascii " bwt_runs=" ++ decimal bwtRuns ++
    ascii " bbwt_runs=" ++ decimal bbwtRuns ++ [10]

/-- The two lines for the words of length `n`, with the label `n - 1`. -/
def Snapshot.linesFor (r : Snapshot) (n : Nat) : List (List UInt8) :=
  [countsLine (n - 1) (r.words n) (r.bwtWins n) (r.bbwtWins n) (r.ties n),
    textLine (n - 1) (r.text n) (r.bwtRuns n) (r.bbwtRuns n)]

/-- All lines of a report: the total, then the lengths 21, ..., 40. -/
def Snapshot.lines (r : Snapshot) : List (List UInt8) :=
  (ascii "total_count=" ++ decimal r.total ++ [10]) :: (List.range' 21 20).flatMap r.linesFor

end Verif.Spec
