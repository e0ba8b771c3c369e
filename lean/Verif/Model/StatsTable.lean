import Verif.Model.Threads
import Verif.Spec.LyndonFile

/-! # Model of the tables printed by `src/unfinished/parallel.rs` -/

namespace Verif.Model

open Verif Spec

/-- `{number:>width$}`: padded on the left with spaces, never cut. -/
def padLeft (width : Nat) (s : List UInt8) : List UInt8 := List.replicate (width - s.length) 32 ++ s

/-- The nested loops computing `max_val`.  src/unfinished/parallel.rs:181-188 -/
def maxVal (stats : List (List Nat)) : Res Nat :=
  forRange 0 MAX_LENGTH 0 (fun br m => forRange 0 MAX_LENGTH m (fun bbr m => do
    let row ← rd stats br
    let x ← rd row bbr
    pure (if m < x then x else m)))

/-- `print!("{number:>width$}|", ..)`.  src/unfinished/parallel.rs:194, 198, 200 -/
def tableCell (width n : Nat) : List UInt8 := padLeft width (decimal n) ++ [124]

/-- What `main` prints for one `pattern_length` after the workers have finished.
src/unfinished/parallel.rs:174-204 -/
def statsTable (patternLength total : Nat) (stats : List (List Nat)) : Res (List UInt8) := do
  let m ← maxVal stats
  let width := max 2 (decimal m).length
  let out := ascii "binary string length: " ++ decimal patternLength ++ ascii " \n"
  let out := out ++ ascii "bwt \\ bbwt : #= " ++ decimal total ++ [10]
  let out ← forRange 0 MAX_LENGTH out (fun br out => pure (out ++ tableCell width br))
  let out := out ++ [10]
  forRange 1 MAX_LENGTH out (fun br out => do
    let out := out ++ tableCell width br
    let out ← forRange 1 MAX_LENGTH out (fun bbr out => do
      let row ← rd stats br
      let x ← rd row bbr
      pure (out ++ tableCell width x))
    pure (out ++ [10]))

end Verif.Model
