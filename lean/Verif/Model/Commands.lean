import Verif.Model.Cli
import Verif.Model.Release

/-! # Model of the tools as commands: from the words of the command line to files, standard output and exit status

The result is the world and the exit status; a panic (exit status 101) is an error of `Res`.  `usage` is the text printed
by `--help` or `--version`; messages on the standard error are not modelled. -/

namespace Verif.Model.Cli

open Verif Spec.Cli

/-- `let args = Args::parse();` followed by the rest of `main`. -/
def withArgs (m : Build) (t : Tool) (usage : List UInt8) (argv : List (List Char)) (w : World)
    (run : List (Field × Val) → World × Res Nat) : World × Res Nat :=
  match parseIn m t argv with
  | .error e => (w, .error e)
  | .ok (.error 0) => ({ w with stdout := w.stdout ++ usage }, .ok 0)
  | .ok (.error s) => (w, .ok s)
  | .ok (.ok occ) => run occ

/-- The end of a `main` that returns normally. -/
def finish {α : Type} (r : World × Res α) : World × Res Nat := (r.1, r.2.map fun _ => 0)

/-- `println!` of one line, or a panic before it. -/
def printLine (o : Res (List UInt8)) (w : World) : World × Res Nat :=
  match o with
  | .error e => (w, .error e)
  | .ok l => ({ w with stdout := w.stdout ++ l }, .ok 0)

/-- `mtf`.  src/bin/mtf.rs:55-72 -/
def mtfCmd (m : Build) (usage : List UInt8) (creatable : String → Bool) (argv : List (List Char)) (stdin : Reader)
    (w : World) : World × Res Nat :=
  withArgs m mtfArgs usage argv w fun occ =>
    finish (mtfMain creatable (getStr occ .infilename) (getStr occ .outfilename) stdin w)

/-- `rle`.  src/bin/rle.rs:105-137 -/
def rleCmd (m : Build) (usage : List UInt8) (creatable : String → Bool) (argv : List (List Char)) (stdin : Reader)
    (w : World) : World × Res Nat :=
  withArgs m rleArgs usage argv w fun occ =>
    finish (rleMain creatable m (getFlag occ .human) (getFlag occ .onlyzero) (getStr occ .infilename)
      (getStr occ .outfilename) stdin w)

/-- `escape`.  src/bin/escape.rs:18-154 -/
def escapeCmd (m : Build) (usage : List UInt8) (creatable : String → Bool) (argv : List (List Char)) (stdin : Reader)
    (w : World) : World × Res Nat :=
  withArgs m escapeArgs usage argv w fun occ =>
    finish (escapeMainFs creatable
      { prefixlength := getNum occ .prefixlength 0
        escapeSymbol := UInt8.ofNat (getNum occ .escapeSymbol 0)
        fromSymbols := (getNums occ .fromSymbols).map UInt8.ofNat
        toSymbols := (getNums occ .toSymbols).map UInt8.ofNat
        isReversion := getFlag occ .isReversion }
      (getStr occ .infilename) (getStr occ .outfilename) stdin w)

/-- `reverse`.  src/bin/reverse.rs:12-46 -/
def reverseCmd (m : Build) (usage : List UInt8) (creatable : String → Bool) (argv : List (List Char))
    (stdin : List UInt8) (w : World) : World × Res Nat :=
  withArgs m reverseArgs usage argv w fun occ =>
    finish (reverseMainFs creatable (getStr occ .infilename) (getStr occ .outfilename) (getNum occ .prefixlength 0) stdin w)

/-- `bwt`.  src/bin/bwt.rs:14-74 -/
def bwtCmd (m : Build) (usage : List UInt8) (creatable : String → Bool) (sufsort : List UInt8 → List Nat)
    (argv : List (List Char)) (stdin : List UInt8) (w : World) : World × Res Nat :=
  withArgs m bwtArgs usage argv w fun occ =>
    finish (bwtMainFs creatable sufsort (getFlag occ .useMatrix) (getFlag occ .noDollar) (getStr occ .infilename)
      (getStr occ .outfilename) (getNum occ .prefixlength 0) stdin w)

/-- `word`; `est e` is what `fibonacci_number_estimate(e)` returns.  src/bin/word.rs:9-57 -/
noncomputable def wordCmd (m : Build) (usage : List UInt8) (creatable : String → Bool) (est : Nat → ℝ) (fuel : Nat)
    (argv : List (List Char)) (w : World) : World × Res Nat :=
  withArgs m wordArgs usage argv w fun occ =>
    finish (wordMainB m creatable est fuel (getWord occ .name) (getNum occ .k 0) (getStr occ .outfilename) w)

/-- `count_runs`.  src/bin/count_runs.rs:12-24 -/
def countRunsCmd (m : Build) (usage : List UInt8) (argv : List (List Char)) (stdin : Reader) (w : World) :
    World × Res Nat :=
  withArgs m countRunsArgs usage argv w fun occ =>
    printLine ((countRunsMain (getStr occ .infilename) stdin w).map fun n => Spec.decimal n ++ [10]) w

/-- `count_sigma`.  src/bin/count_sigma.rs:35-71 -/
def countSigmaCmd (m : Build) (usage : List UInt8) (time : Nat) (argv : List (List Char)) (stdin : List UInt8)
    (w : World) : World × Res Nat :=
  withArgs m countSigmaArgs usage argv w fun occ =>
    printLine (countSigmaOut m (getStr occ .infilename) (getNum occ .prefixlength 0) stdin time w) w

/-- `count_r`.  src/bin/count_r.rs:14-79 -/
def countRCmd (m : Build) (usage : List UInt8) (sufsort : List UInt8 → List Nat) (time : Nat)
    (argv : List (List Char)) (stdin : List UInt8) (w : World) : World × Res Nat :=
  withArgs m countRArgs usage argv w fun occ =>
    printLine (countROut sufsort (getFlag occ .useMatrix) (getFlag occ .noDollar) (getStr occ .infilename)
      (getNum occ .prefixlength 0) stdin time w) w

/-- The line is printed, then the factors are written. -/
def lineThenFile {α : Type} (line : Res (List UInt8)) (write : World → World × Res α) (w : World) : World × Res Nat :=
  match line with
  | .error e => (w, .error e)
  | .ok l => finish (write { w with stdout := w.stdout ++ l })

/-- `count_z`.  src/bin/count_z.rs:148-228 -/
def countZCmd (m : Build) (usage : List UInt8) (creatable : String → Bool) (sufsort : List UInt8 → List Nat)
    (time : Nat) (argv : List (List Char)) (stdin : List UInt8) (w : World) : World × Res Nat :=
  withArgs m countZArgs usage argv w fun occ =>
    lineThenFile (countZOut sufsort (getStr occ .infilename) (getNum occ .prefixlength 0) stdin time w)
      (countZMain creatable sufsort (getStr occ .infilename) (getStr occ .outfilename) (getNum occ .prefixlength 0) stdin) w

/-- `count_lexparse`.  src/bin/count_lexparse.rs:47-119 -/
def countLexparseCmd (m : Build) (usage : List UInt8) (creatable : String → Bool) (sufsort : List UInt8 → List Nat)
    (time : Nat) (argv : List (List Char)) (stdin : List UInt8) (w : World) : World × Res Nat :=
  withArgs m countLexparseArgs usage argv w fun occ =>
    lineThenFile (countLexparseOut sufsort (getStr occ .infilename) (getNum occ .prefixlength 0) stdin time w)
      (countLexparseMain creatable sufsort (getStr occ .infilename) (getStr occ .outfilename)
        (getNum occ .prefixlength 0) stdin) w

/-- `lyndonfactorization`.  src/bin/lyndonfactorization.rs:15-115 -/
def lyndonfactorizationCmd (m : Build) (usage : List UInt8) (creatable : String → Bool) (time : Nat)
    (argv : List (List Char)) (stdin : List UInt8) (w : World) : World × Res Nat :=
  withArgs m lyndonfactorizationArgs usage argv w fun occ =>
    lineThenFile (lyndonfactorizationOut (getStr occ .infilename) (getNum occ .prefixlength 0) stdin time w)
      (lyndonfactorizationFiles creatable (getStr occ .infilename) (getStr occ .outfilename)
        (getNum occ .prefixlength 0) stdin) w

/-- `entropy`.  src/bin/entropy.rs:144-198 -/
noncomputable def entropyCmd (m : Build) (usage : List UInt8) (sufsort : List UInt8 → List Nat)
    (showF : ℝ → List UInt8) (time : Nat) (argv : List (List Char)) (stdin : List UInt8) (w : World) : World × Res Nat :=
  withArgs m entropyArgs usage argv w fun occ =>
    printLine (entropyOut sufsort showF (getNum occ .order 0) (getStr occ .infilename) (getNum occ .prefixlength 0)
      stdin time w) w

/-- `entropy_kmer`.  src/bin/entropy_kmer.rs:127-178 -/
noncomputable def entropyKmerCmd (m : Build) (usage : List UInt8) (showF : ℝ → List UInt8) (time : Nat)
    (argv : List (List Char)) (stdin : List UInt8) (w : World) : World × Res Nat :=
  withArgs m entropyArgs usage argv w fun occ =>
    printLine (entropyKmerOut showF (getNum occ .order 0) (getStr occ .infilename) (getNum occ .prefixlength 0)
      stdin time w) w

/-- `mus`.  src/bin/mus.rs:13-97 -/
def musCmd (m : Build) (usage : List UInt8) (sufsort : List UInt8 → List Nat) (time : Nat) (argv : List (List Char))
    (stdin : List UInt8) (w : World) : World × Res Nat :=
  withArgs m musArgs usage argv w fun occ =>
    printLine (musOut sufsort (getStr occ .infilename) (getNum occ .prefixlength 0) stdin time w) w

/-- `is_stringattractor`: the status is the one given to `process::exit`.  src/bin/is_stringattractor.rs:143-279 -/
def isStringattractorCmd (m : Build) (usage : List UInt8) (sufsort : List UInt8 → List Nat) (argv : List (List Char))
    (stdin : List UInt8) (w : World) : World × Res Nat :=
  withArgs m isStringattractorArgs usage argv w fun occ =>
    match isStringattractorRun sufsort (getNums occ .attractor) (getStr occ .infilename) (getNum occ .prefixlength 0)
      stdin w with
    | .error e => (w, .error e)
    | .ok (status, out) => ({ w with stdout := w.stdout ++ out }, .ok status)

/-- `lyndonwords`.  src/bin/lyndonwords.rs:8-33 -/
def lyndonwordsCmd (m : Build) (usage : List UInt8) (creatable : String → Bool) (fuel : Nat) (argv : List (List Char))
    (w : World) : World × Res Nat :=
  withArgs m lyndonwordsArgs usage argv w fun occ =>
    match openOut creatable (getStr occ .outfilename) w with
    | .error e => (w, .error e)
    | .ok w =>
      let o := lyndonwordsLoopB m fuel (LyndonWordGenerator.new (getNum occ .length 5) (getNum occ .sigma 2))
      finish (writeOut (getStr occ .outfilename) o.1 w, o.2)

/-- `randomstring`; `Panic.fuel` stands for a run that has not finished with the given samples (then the bytes written so
far are not modelled).  src/bin/randomstring.rs:11-61 -/
def randomstringCmd (m : Build) (usage : List UInt8) (creatable : String → Bool) (rng : List UInt8)
    (argv : List (List Char)) (w : World) : World × Res Nat :=
  withArgs m randomstringArgs usage argv w fun occ =>
    match openOut creatable (getStr occ .outfilename) w with
    | .error e => (w, .error e)
    | .ok w =>
      match randomstringMain (getNum occ .alphabetSize 0) (getNum occ .prefixlength 10) rng with
      | none => (w, .error .fuel)
      | some s => (writeOut (getStr occ .outfilename) s w, .ok 0)

/-! ## enumerate -/

/-- The words of the command line of `enumerate`: up to three numbers; `trailing` after `--`.  The only options are those
`clap` adds; a letter after `-h` or `-V` is not looked at.  src/bin/enumerate.rs:43-64 -/
def enumerateParse : Bool → List Nat → List (List Char) → Except Nat (Nat × Nat × Option Nat)
  | _, ns, [] =>
    match ns with
    | [a, b] => .ok (a, b, none)
    | [a, b, c] => .ok (a, b, some c)
    | _ => .error 2
  | trailing, ns, s :: argv =>
    let value : Except Nat (Nat × Nat × Option Nat) :=
      if ns.length < 3 then
        match parseUnsigned (2 ^ 64) s with
        | none => .error 2
        | some n => enumerateParse trailing (ns ++ [n]) argv
      else .error 2
    if trailing then value
    else if s = ['-', '-'] then enumerateParse true ns argv
    else match s with
      | '-' :: '-' :: body => if body = "help".toList ∨ body = "version".toList then .error 0 else .error 2
      | '-' :: c :: _ => if c = 'h' ∨ c = 'V' then .error 0 else .error 2
      | _ => value

/-- `enumerate`.  src/bin/enumerate.rs:42-88 -/
def enumerateCmd (usage : List UInt8) (argv : List (List Char)) (w : World) : World × Res Nat :=
  match enumerateParse false [] argv with
  | .error 0 => ({ w with stdout := w.stdout ++ usage }, .ok 0)
  | .error s => (w, .ok s)
  | .ok (a, b, c) =>
    match enumerateMain a b c with
    | .error e => (w, .error e)
    | .ok (out, status) => ({ w with stdout := w.stdout ++ out }, .ok status)

end Verif.Model.Cli
