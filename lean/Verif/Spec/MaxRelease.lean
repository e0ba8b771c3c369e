import Verif.Spec.MaxReport

/-! # Reports whose counters are `i32` that wrap around -/

namespace Verif.Spec

/-- The number between `-2^31` and `2^31 - 1` that is congruent to `n` modulo `2^32`. -/
def asI32 (n : Nat) : Int := Int.bmod n (2 ^ 32)

/-- The text of an integer. -/
def intText (z : Int) : List UInt8 := if z < 0 then ascii "-" ++ decimal z.natAbs else decimal z.natAbs

/-- The line with the numbers, each one reduced to an `i32`. -/
def countsLineI32 (l words bwtWins bbwtWins ties : Nat) : List UInt8 :=
  ascii "length=" ++ decimal l ++ ascii " lyndon_words=" ++ intText (asI32 words) ++ ascii " bwt_wins=" ++
    intText (asI32 bwtWins) ++ ascii " bbwt_wins=" ++ intText (asI32 bbwtWins) ++ ascii " ties=" ++ intText (asI32 ties) ++ [10]

/-- The two lines for the words of length `n`. -/
def Snapshot.linesForI32 (r : Snapshot) (n : Nat) : List (List UInt8) :=
  [countsLineI32 (n - 1) (r.words n) (r.bwtWins n) (r.bbwtWins n) (r.ties n),
    textLine (n - 1) (r.text n) (r.bwtRuns n) (r.bbwtRuns n)]

/-- All lines of a report. -/
def Snapshot.linesI32 (r : Snapshot) : List (List UInt8) :=
  (ascii "total_count=" ++ decimal r.total ++ [10]) :: (List.range' 21 20).flatMap r.linesForI32

end Verif.Spec
