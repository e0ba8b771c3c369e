import Verif.Model.Attractor
import Verif.Model.BwtTool
import Verif.Model.Entropy
import Verif.Model.LyndonTool
import Verif.Model.Lz
import Verif.Model.Mus
import Verif.Model.Streams
import Verif.Model.Word

/-! # Model of the `main` functions: files, standard streams and exit status

The argument parser (crate `clap`) is modelled in Verif/Model/Cli.lean; log lines, elapsed times and the fixed text of result lines are not modelled.
A file system is a map from names to contents (no links, no directories, nobody else changes it); creating a file
can fail.  Files are read after they are opened and the output streams are not buffered, so a panic leaves the
bytes written before it. -/

namespace Verif.Model

open Verif

/-- Named files and what was printed on the standard output. -/
structure World where
  files : String → Option (List UInt8)
  stdout : List UInt8

/-- The world with the content of file `n` replaced. -/
def World.set (w : World) (n : String) (c : List UInt8) : World :=
  { w with files := fun m => if m = n then some c else w.files m }

/-- `stream_or_stdout`: `File::create` empties the file or makes a new one, and is unwrapped.
src/io.rs:67-77 -/
def openOut (creatable : String → Bool) (out : Option String) (w : World) : Res World :=
  match out with
  | none => .ok w
  | some n => if creatable n then .ok (w.set n []) else .error .unwrap

/-- `stream_or_stdin`: `File::open` is unwrapped.  src/io.rs:54-65 -/
def openIn (inn : Option String) (w : World) : Res Unit :=
  match inn with
  | none => .ok ()
  | some n => if (w.files n).isSome then .ok () else .error .unwrap

/-- What an opened input delivers if it is read in the world `w`. -/
def readIn (inn : Option String) (stdin : Reader) (w : World) : Reader :=
  match inn with
  | none => stdin
  | some n => sliceReader ((w.files n).getD [])

/-- Writing `bs` to the writer returned by `stream_or_stdout`. -/
def writeOut (out : Option String) (bs : List UInt8) (w : World) : World :=
  match out with
  | none => { w with stdout := w.stdout ++ bs }
  | some n => w.set n ((w.files n).getD [] ++ bs)

/-- The `main` of a filter that opens the writer, then the reader, then runs.
src/bin/mtf.rs:67-72, src/bin/rle.rs:125-137 -/
def filterMain (creatable : String → Bool) (tool : Reader → Out) (inn out : Option String) (stdin : Reader)
    (w : World) : World × Res Unit :=
  match openOut creatable out w with
  | .error e => (w, .error e)
  | .ok w =>
    match openIn inn w with
    | .error e => (w, .error e)
    | .ok _ =>
      let o := tool (readIn inn stdin w)
      (writeOut out o.1 w, o.2)

/-- `main` of `mtf`.  src/bin/mtf.rs:67-72 -/
def mtfMain (creatable : String → Bool) := filterMain creatable mtf

/-- The encoder chosen by the flags.  src/bin/rle.rs:130-136 -/
def rleDispatch (m : Build) (human onlyzero : Bool) : Reader → Out :=
  if human then rleText m
  else if onlyzero then rleZero m
  else rle m

/-- `main` of `rle`.  src/bin/rle.rs:125-137.  (`clap` refuses the two options named `-o` in builds with debug
assertions, see Verif/Model/Cli.lean.) -/
def rleMain (creatable : String → Bool) (m : Build) (human onlyzero : Bool) :=
  filterMain creatable (rleDispatch m human onlyzero)

/-- `main` of `escape` with files: the reader is opened before the writer, and read after it.
src/bin/escape.rs:72-73, 74-154 -/
def escapeMainFs (creatable : String → Bool) (a : EscapeArgs) (inn out : Option String) (stdin : Reader)
    (w : World) : World × Res Unit :=
  match openIn inn w with
  | .error e => (w, .error e)
  | .ok _ =>
    match openOut creatable out w with
    | .error e => (w, .error e)
    | .ok w =>
      let o := escapeMain a (readIn inn stdin w)
      (writeOut out o.1 w, o.2)

/-- `file_or_stdin2byte_vector` in a world.  src/io.rs:45-50 -/
def readVector (inn : Option String) (prefixLength : Nat) (stdin : List UInt8) (w : World) : Res (List UInt8) :=
  fileOrStdin2byteVector (inn.map fun n => (w.files n).map fun c => ⟨c, c.length⟩) stdin prefixLength

/-- `main` of `reverse` with files: the writer is opened before the text is read.  src/bin/reverse.rs:30-46 -/
def reverseMainFs (creatable : String → Bool) (inn out : Option String) (prefixLength : Nat) (stdin : List UInt8)
    (w : World) : World × Res Unit :=
  match openOut creatable out w with
  | .error e => (w, .error e)
  | .ok w =>
    match readVector inn prefixLength stdin w with
    | .error e => (w, .error e)
    | .ok text => (writeOut out text.reverse w, .ok ())

/-- `main` of `bwt` with files: the writer is opened after the transform has been computed.
src/bin/bwt.rs:38-74 -/
def bwtMainFs (creatable : String → Bool) (sufsort : List UInt8 → List Nat) (useMatrix noDollar : Bool)
    (inn out : Option String) (prefixLength : Nat) (stdin : List UInt8) (w : World) : World × Res Unit :=
  match readVector inn prefixLength stdin w with
  | .error e => (w, .error e)
  | .ok input =>
    match bwtTool sufsort useMatrix noDollar input with
    | .error e => (w, .error e)
    | .ok bwt =>
      match openOut creatable out w with
      | .error e => (w, .error e)
      | .ok w => (writeOut out bwt w, .ok ())

/-! ## word -/

/-- `enum WordName`.  src/bin/word.rs:24-37 -/
inductive WordName where
  | fibonacci
  | fibonacciLyndonFactor
  | tribonacci
  | kolakoski
  | thueMorse
  | periodDoubling
  | paperFolding
  | quaternaryPaperFolding
  | binaryDeBrujin
  | power2
  | vtm
  deriving DecidableEq, Repr

/-- The `match args.name`, applied to `args.k`.  `est` and `fuel` as in `Verif/Model/Word.lean`.
src/bin/word.rs:43-56 -/
noncomputable def wordOf (est : ℝ) (fuel : Nat) : WordName → Nat → Res (List UInt8)
  | .fibonacci => fibonacciWord est
  | .fibonacciLyndonFactor => fibonacciLyndonfactor
  | .tribonacci => tribonacciWord fuel
  | .kolakoski => kolakoskiWord
  | .thueMorse => thuemorseWord
  | .periodDoubling => periodDoublingWord
  | .paperFolding => paperfoldingWord
  | .quaternaryPaperFolding => quaternaryPaperfoldingWord
  | .binaryDeBrujin => binaryDebruijnWord fuel
  | .power2 => power2Sequence
  | .vtm => vtmWord fuel

/-- `main` of `word`: the writer is opened first.  src/bin/word.rs:39-57 -/
noncomputable def wordMain (creatable : String → Bool) (est : ℝ) (fuel : Nat) (name : WordName) (k : Nat)
    (out : Option String) (w : World) : World × Res Unit :=
  match openOut creatable out w with
  | .error e => (w, .error e)
  | .ok w =>
    match wordOf est fuel name k with
    | .error e => (w, .error e)
    | .ok text => (writeOut out text w, .ok ())

/-! ## tools that print one result line -/

/-- `main` of `count_runs`: the number printed.  src/bin/count_runs.rs:20-24 -/
def countRunsMain (inn : Option String) (stdin : Reader) (w : World) : Res Nat :=
  match openIn inn w with
  | .error e => .error e
  | .ok _ => .ok (numberOfRuns (readIn inn stdin w))

/-- `main` of `count_sigma`: the numbers `length=` and `sigma=`.  src/bin/count_sigma.rs:47-71 -/
def countSigmaMain (m : Build) (inn : Option String) (prefixLength : Nat) (stdin : List UInt8) (w : World) :
    Res (Nat × UInt8) := do
  let text ← readVector inn prefixLength stdin w
  let sigma ← countSigma m text
  pure (text.length, sigma)

/-- `main` of `entropy`: the numbers `length=` and `entropy=`.  src/bin/entropy.rs:160-198 -/
noncomputable def entropyMain (sufsort : List UInt8 → List Nat) (order : Nat) (inn : Option String)
    (prefixLength : Nat) (stdin : List UInt8) (w : World) : Res (Nat × ℝ) := do
  let input ← readVector inn prefixLength stdin w
  let text := input ++ [0]
  let h ← if order = 0 then zeroOrderEntropy text else kthOrderEntropy sufsort text order
  pure (text.length, h)

/-- `main` of `entropy_kmer`: the numbers `length=` and `entropy=`.  src/bin/entropy_kmer.rs:143-178 -/
noncomputable def entropyKmerMain (order : Nat) (inn : Option String) (prefixLength : Nat) (stdin : List UInt8)
    (w : World) : Res (Nat × ℝ) := do
  assertR (decide (order > 0))
  assertR (decide (order ≤ 7))
  let input ← readVector inn prefixLength stdin w
  let text := input ++ [0]
  let e ← entropyViaKmerCounting text order
  pure (e.2, e.1)

/-- `println!("substring '{}' not covered!", ..)`.  src/bin/is_stringattractor.rs:238-241 -/
def uncoveredLine (v : List UInt8) : List UInt8 :=
  Spec.ascii "substring '" ++ v ++ Spec.ascii "' not covered!\n"

/-- `main` of `is_stringattractor`: the exit status and the bytes on stdout.
src/bin/is_stringattractor.rs:247-279 -/
def isStringattractorRun (sufsort : List UInt8 → List Nat) (attractor : List Nat) (inn : Option String)
    (prefixLength : Nat) (stdin : List UInt8) (w : World) : Res (Nat × List UInt8) := do
  let input ← readVector inn prefixLength stdin w
  let text := input ++ [0]
  let n := text.length
  if attractor.any (fun p => decide (p ≥ n)) then pure (1, [])
  else do
    let r ← attractorReport sufsort text attractor
    let lines := r.2.flatMap uncoveredLine
    if ! r.1 then pure (2, lines ++ Spec.ascii "not a valid attractor\n")
    else pure (0, lines ++ Spec.ascii "valid attractor\n")

/-- `main` of `is_stringattractor`: the exit status alone.  src/bin/is_stringattractor.rs:247-279 -/
def isStringattractorMain (sufsort : List UInt8 → List Nat) (attractor : List Nat) (inn : Option String)
    (prefixLength : Nat) (stdin : List UInt8) (w : World) : Res Nat := do
  let r ← isStringattractorRun sufsort attractor inn prefixLength stdin w
  pure r.1

/-! ## tools that write factors -/

/-- `format!("({},{})", fact.pos, fact.len)` for all factors.
src/bin/count_z.rs:222-226, src/bin/count_lexparse.rs:113-117 -/
def factorBytes (fs : List LZFactor) : List UInt8 :=
  fs.flatMap fun f => [40] ++ Spec.decimal f.pos ++ [44] ++ Spec.decimal f.len ++ [41]

/-- The common shape of the two `main` functions below: read, factorize, print the number of factors (returned),
and, if a file name is given, write the factors. -/
def factorMain (creatable : String → Bool) (factorize : List UInt8 → Res (List LZFactor)) (inn out : Option String)
    (prefixLength : Nat) (stdin : List UInt8) (w : World) : World × Res (Nat × Nat) :=
  match readVector inn prefixLength stdin w with
  | .error e => (w, .error e)
  | .ok text =>
    match factorize text with
    | .error e => (w, .error e)
    | .ok fs =>
      match out with
      | none => (w, .ok (text.length, fs.length))
      | some n =>
        match openOut creatable (some n) w with
        | .error e => (w, .error e)
        | .ok w => (writeOut (some n) (factorBytes fs) w, .ok (text.length, fs.length))

/-- `main` of `count_z`: the world, and `length=`, `factors=`.  The result line is printed even if the file cannot be
created (only the returned value is modelled).  src/bin/count_z.rs:164-228 -/
def countZMain (creatable : String → Bool) (sufsort : List UInt8 → List Nat) :=
  factorMain creatable (countZFactors sufsort)

/-- `main` of `count_lexparse`.  src/bin/count_lexparse.rs:63-119 -/
def countLexparseMain (creatable : String → Bool) (sufsort : List UInt8 → List Nat) :=
  factorMain creatable (countLexparseFactors sufsort)

/-- `main` of `lyndonfactorization`: the world, and `length=`, `factors=` of the result line; the former is the argument
`prefixlength`, not the length of the text.  The report is computed here even without an output file (once the assertion
on the factors holds it cannot panic, C55).  src/bin/lyndonfactorization.rs:31-115 -/
def lyndonfactorizationFiles (creatable : String → Bool) (inn out : Option String) (prefixLength : Nat)
    (stdin : List UInt8) (w : World) : World × Res (Nat × Nat) :=
  match readVector inn prefixLength stdin w with
  | .error e => (w, .error e)
  | .ok text =>
    match lyndonfactorizationMain text with
    | .error e => (w, .error e)
    | .ok (z, file) =>
      match out with
      | none => (w, .ok (prefixLength, z))
      | some n =>
        match openOut creatable (some n) w with
        | .error e => (w, .error e)
        | .ok w => (writeOut (some n) file w, .ok (prefixLength, z))

end Verif.Model
