import Verif.Model.Mains

/-! # Model of `gen_artificial.sh`

The script runs `word` for the orders 0 to 20 and ten names, redirecting each standard output into a file of its own, and
stops at the first command that fails (`set -e`).  Not modelled: `cargo` compiling the tool, `mkdir`, the trace printed by
`set -x`, a full disk. -/

namespace Verif.Model

open Verif

/-- The names on the command line, and the value of `clap` they are parsed to (the kebab case of the variant).
gen_artificial.sh:15, src/bin/word.rs:24-37 -/
def artificialNames : List (String × WordName) :=
  [("tribonacci", .tribonacci), ("vtm", .vtm), ("fibonacci", .fibonacci), ("kolakoski", .kolakoski),
    ("thue-morse", .thueMorse), ("period-doubling", .periodDoubling), ("paper-folding", .paperFolding),
    ("quaternary-paper-folding", .quaternaryPaperFolding), ("binary-de-brujin", .binaryDeBrujin), ("power2", .power2)]

/-- `seq -f "%02.f"`: two digits, padded with zero.  gen_artificial.sh:14 -/
def seqToken (k : Nat) : String := if k < 10 then "0" ++ toString k else toString k

/-- `"$folder/$name.$k"`.  gen_artificial.sh:16 -/
def artificialPath (folder name : String) (k : Nat) : String := folder ++ "/" ++ name ++ "." ++ seqToken k

/-- `word -n name -k k > path`: the shell creates or empties the file, what the tool prints goes into it.
`est k` is the float estimate `word` computes for the Fibonacci word of order `k`.  gen_artificial.sh:16 -/
noncomputable def redirectWord (creatable : String → Bool) (est : Nat → ℝ) (fuel : Nat) (name : WordName) (k : Nat)
    (path : String) (w : World) : World × Res Unit :=
  match openOut creatable (some path) w with
  | .error e => (w, .error e)
  | .ok w' =>
    let (w'', r) := wordMain creatable (est k) fuel name k none { w' with stdout := [] }
    ({ w''.set path w''.stdout with stdout := w.stdout }, r)

/-- A sequence of commands under `set -e`.  gen_artificial.sh:13 -/
def runAll : List (World → World × Res Unit) → World → World × Res Unit
  | [], w => (w, .ok ())
  | c :: cs, w =>
    match c w with
    | (w', .ok ()) => runAll cs w'
    | (w', .error e) => (w', .error e)

/-- The two nested loops, as the list of jobs.  gen_artificial.sh:14-15 -/
def artificialJobs : List (String × WordName × Nat) :=
  (List.range 21).flatMap (fun k => artificialNames.map (fun p => (p.1, p.2, k)))

/-- The script.  gen_artificial.sh:9-18 -/
noncomputable def genArtificial (creatable : String → Bool) (est : Nat → ℝ) (fuel : Nat) (folder : String) (w : World) :
    World × Res Unit :=
  runAll (artificialJobs.map (fun j => redirectWord creatable est fuel j.2.1 j.2.2 (artificialPath folder j.1 j.2.2))) w

end Verif.Model
