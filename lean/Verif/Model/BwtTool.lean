import Verif.Model.Core

/-! # Model of `src/bin/bwt.rs` and `src/bin/count_r.rs`

The argument parser is modelled in Verif/Model/Cli.lean; log lines and the clock are not modelled.  `input` is the vector returned by
`io::file_or_stdin2byte_vector` (modelled in `Verif/Model/Io.lean`). -/

namespace Verif.Model

open Verif

/-- The text handed to the transform: the input, with a zero byte pushed unless `--no-dollar`.
src/bin/bwt.rs:48-57, src/bin/count_r.rs:47-56 -/
def bwtToolText (noDollar : Bool) (input : List UInt8) : List UInt8 :=
  if noDollar then input else input ++ [0]

/-- The `match args.use_matrix`.  src/bin/bwt.rs:60-69, src/bin/count_r.rs:59-68 -/
def bwtToolTransform (sufsort : List UInt8 → List Nat) (useMatrix : Bool) (text : List UInt8) :
    Res (List UInt8) :=
  if useMatrix then
    if text.length < 100 then bwtByMatrixNaive text else bwtByMatrix sufsort text
  else bwtFromTextBySa sufsort text

/-- The bytes written by the `bwt` tool.  src/bin/bwt.rs:38-74 -/
def bwtTool (sufsort : List UInt8 → List Nat) (useMatrix noDollar : Bool) (input : List UInt8) :
    Res (List UInt8) :=
  bwtToolTransform sufsort useMatrix (bwtToolText noDollar input)

/-- The numbers `length=` and `bwt_runs=` printed by `count_r`.  src/bin/count_r.rs:34-79 -/
def countR (sufsort : List UInt8 → List Nat) (useMatrix noDollar : Bool) (input : List UInt8) :
    Res (Nat × Nat) := do
  let bwt ← bwtToolTransform sufsort useMatrix (bwtToolText noDollar input)
  let r := numberOfRuns (sliceReader bwt)
  pure (bwt.length, r)

end Verif.Model
