import Verif.Model.Mains
import Verif.Spec.ResultLine

/-! # Model of the result lines printed by the analytic tools, and of `compute_stats.sh`

`time` is the elapsed number of milliseconds, an arbitrary number.  The decimal text of an `f64` is a parameter
`showF`. -/

namespace Verif.Model

open Verif Spec

/-- The line printed by `count_sigma`.  src/bin/count_sigma.rs:64-70 -/
def countSigmaLine (inn : Option String) (time length : Nat) (sigma : UInt8) : List UInt8 :=
  ascii "RESULT algo=count_sigma time_ms=" ++ decimal time ++ ascii " length=" ++ decimal length ++
    ascii " sigma=" ++ decimal sigma.toNat ++ ascii " file=" ++ nameBytes (getFilename inn) ++ [10]

/-- What `count_sigma` prints.  src/bin/count_sigma.rs:47-71 -/
def countSigmaOut (m : Build) (inn : Option String) (prefixLength : Nat) (stdin : List UInt8) (time : Nat)
    (w : World) : Res (List UInt8) := do
  let r ← countSigmaMain m inn prefixLength stdin w
  pure (countSigmaLine inn time r.1 r.2)

/-- `true`/`false` as printed by `{}`. -/
def showBool (b : Bool) : List UInt8 := if b then ascii "true" else ascii "false"

/-- The line printed by `count_r`.  src/bin/count_r.rs:70-78 -/
def countRLine (inn : Option String) (useMatrix noDollar : Bool) (time length runs : Nat) : List UInt8 :=
  ascii "RESULT algo=bwt time_ms=" ++ decimal time ++ ascii " length=" ++ decimal length ++
    ascii " bwt_runs=" ++ decimal runs ++ ascii " file=" ++ nameBytes (getFilename inn) ++
    ascii " no_dollar=" ++ showBool noDollar ++ ascii " use_matrix=" ++ showBool useMatrix ++ [10]

/-- What `count_r` prints.  src/bin/count_r.rs:34-79 -/
def countROut (sufsort : List UInt8 → List Nat) (useMatrix noDollar : Bool) (inn : Option String)
    (prefixLength : Nat) (stdin : List UInt8) (time : Nat) (w : World) : Res (List UInt8) := do
  let input ← readVector inn prefixLength stdin w
  let r ← countR sufsort useMatrix noDollar input
  pure (countRLine inn useMatrix noDollar time r.1 r.2)

/-- The line of `count_z`, `count_lexparse` and `lyndonfactorization`: `result_format` ends with a space and another one
follows.  src/bin/count_z.rs:201-205, 213-218, src/bin/count_lexparse.rs:92-96, 104-109,
src/bin/lyndonfactorization.rs:40-44, 62-67 -/
def factorLine (algo : List UInt8) (inn : Option String) (time length factors : Nat) : List UInt8 :=
  ascii "RESULT file=" ++ nameBytes (getFilename inn) ++ ascii " length=" ++ decimal length ++ ascii " " ++
    ascii " algo=" ++ algo ++ ascii " time_ms=" ++ decimal time ++ ascii " factors=" ++ decimal factors ++ [10]

/-- What `count_z` prints (before the factors are written).  src/bin/count_z.rs:164-219 -/
def countZOut (sufsort : List UInt8 → List Nat) (inn : Option String) (prefixLength : Nat) (stdin : List UInt8)
    (time : Nat) (w : World) : Res (List UInt8) := do
  let text ← readVector inn prefixLength stdin w
  let fs ← countZFactors sufsort text
  pure (factorLine (ascii "lz77") inn time text.length fs.length)

/-- What `count_lexparse` prints.  src/bin/count_lexparse.rs:63-110 -/
def countLexparseOut (sufsort : List UInt8 → List Nat) (inn : Option String) (prefixLength : Nat)
    (stdin : List UInt8) (time : Nat) (w : World) : Res (List UInt8) := do
  let text ← readVector inn prefixLength stdin w
  let fs ← countLexparseFactors sufsort text
  pure (factorLine (ascii "lexparse") inn time text.length fs.length)

/-- What `lyndonfactorization` prints; `length=` is the argument `prefixlength`.
src/bin/lyndonfactorization.rs:31-67 -/
def lyndonfactorizationOut (inn : Option String) (prefixLength : Nat) (stdin : List UInt8) (time : Nat)
    (w : World) : Res (List UInt8) := do
  let text ← readVector inn prefixLength stdin w
  let r ← lyndonfactorizationMain text
  pure (factorLine (ascii "duval") inn time prefixLength r.1)

/-- The line printed by `entropy` and `entropy_kmer`.  src/bin/entropy.rs:190-197, src/bin/entropy_kmer.rs:170-177 -/
def entropyLine (algo : List UInt8) (showF : ℝ → List UInt8) (inn : Option String) (order time length : Nat)
    (h : ℝ) : List UInt8 :=
  ascii "RESULT algo=" ++ algo ++ ascii " order=" ++ decimal order ++ ascii " time_ms=" ++ decimal time ++
    ascii " length=" ++ decimal length ++ ascii " entropy=" ++ showF h ++ ascii " input=" ++ nameBytes (getFilename inn) ++ [10]

/-- What `entropy` prints.  src/bin/entropy.rs:160-198 -/
noncomputable def entropyOut (sufsort : List UInt8 → List Nat) (showF : ℝ → List UInt8) (order : Nat)
    (inn : Option String) (prefixLength : Nat) (stdin : List UInt8) (time : Nat) (w : World) :
    Res (List UInt8) := do
  let r ← entropyMain sufsort order inn prefixLength stdin w
  pure (entropyLine (ascii "count_entropy") showF inn order time r.1 r.2)

/-- What `entropy_kmer` prints.  src/bin/entropy_kmer.rs:143-178 -/
noncomputable def entropyKmerOut (showF : ℝ → List UInt8) (order : Nat) (inn : Option String) (prefixLength : Nat)
    (stdin : List UInt8) (time : Nat) (w : World) : Res (List UInt8) := do
  let r ← entropyKmerMain order inn prefixLength stdin w
  pure (entropyLine (ascii "count_entropy_hash") showF inn order time r.1 r.2)

/-- `{:?}` of a `(usize, usize)`: `(1, 2)`. -/
def showPair (p : Nat × Nat) : List UInt8 :=
  ascii "(" ++ decimal p.1 ++ ascii ", " ++ decimal p.2 ++ ascii ")"

/-- `{:?}` of a `Vec<(usize, usize)>`: `[(1, 2), (3, 4)]`. -/
def showPairs (ps : List (Nat × Nat)) : List UInt8 :=
  ascii "[" ++ (List.intercalate (ascii ", ") (ps.map showPair)) ++ ascii "]"

/-- What `mus` prints.  src/bin/mus.rs:55-97 -/
def musOut (sufsort : List UInt8 → List Nat) (inn : Option String) (prefixLength : Nat) (stdin : List UInt8)
    (time : Nat) (w : World) : Res (List UInt8) := do
  let text ← readVector inn prefixLength stdin w
  let ms ← musTool sufsort text
  pure (ascii "RESULT file=" ++ nameBytes (getFilename inn) ++ ascii " length=" ++ decimal text.length ++ ascii " " ++
    ascii " time_ms=" ++ decimal time ++ ascii " mus=" ++ showPairs ms ++ [10])

/-! ## compute_stats.sh -/

/-- `$(tool | grep '^RESULT')`: the line without its line feed; nothing if the tool fails.  File names with line feeds
are not considered. -/
def resultLine (o : Res (List UInt8)) : List UInt8 :=
  match o with
  | .ok l => l.dropLast
  | .error _ => []

/-- The columns announced by `compute_stats.sh`.  compute_stats.sh:13 -/
def statsHeader : List String :=
  ["dataset", "$n$", "$\\sigma$", "$z$", "$r$", "$H_0$", "$H_1$", "$H_2$", "$H_3$", "$H_4$"]

/-- The cells printed by `compute_stats.sh` for a file, in order; `times` are the running times of the tools.  The option
names used in the script (`--input`, `-d`) are not those of the tools; the model runs the tools on the file with their
default flags.  compute_stats.sh:8-31 -/
noncomputable def statsCells (m : Build) (sufsort : List UInt8 → List Nat) (showF : ℝ → List UInt8) (file : String)
    (times : Nat → Nat) (w : World) : List (List UInt8) :=
  let sigmaLine := resultLine (countSigmaOut m (some file) 0 [] (times 0) w)
  let rLine := resultLine (countROut sufsort false false (some file) 0 [] (times 1) w)
  let zLine := resultLine (countZOut sufsort (some file) 0 [] (times 2) w)
  [basename (nameBytes file),
    sed (ascii " length=") isDigit (ascii " ") sigmaLine,
    sed (ascii " sigma=") isDigit (ascii " ") sigmaLine,
    sed (ascii " bwt_runs=") isDigit (ascii " ") rLine,
    sed (ascii " factors=") isDigit [] zLine] ++
  (List.range 5).map (fun k => sed (ascii " entropy=") isDigitOrDot (ascii " ")
    (resultLine (entropyOut sufsort showF k (some file) 0 [] (times (3 + k)) w)))

end Verif.Model
