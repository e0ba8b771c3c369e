import Verif.Model.LyndonLog
import Verif.Model.ResultLines
import Verif.Model.Word

/-! # Model of the log messages of the word generators, `count_z`, `count_lexparse`, `bwt`, `count_r` and `mus`

`level` is the highest level that is logged (see Model/LyndonLog).  A logging program is the list of the messages it has logged when
it returns or panics, and how it ends.  Messages before `env_logger::init()` are never logged.  The tool `word` does not call
`env_logger::init()` at all; the messages of the word generators are those a caller of the library with a logger sees.  Time stamps
are not modelled; the elapsed milliseconds in the message `time: ..` are a parameter. -/

namespace Verif.Model

open Verif Spec

/-- A computation that logs: the messages, and the value or the panic. -/
def LogR (β : Type) : Type := List Message × Res β

instance : Monad LogR where
  pure a := ([], .ok a)
  bind x f := match x.2 with
    | .error e => (x.1, .error e)
    | .ok a => (x.1 ++ (f a).1, (f a).2)

/-- A message. -/
def logR (level : Nat) (l : Level) (msg : List UInt8) : LogR Unit := (logMsg level l msg, .ok ())

/-- A computation that logs nothing. -/
def quiet {β : Type} (r : Res β) : LogR β := ([], r)

/-- `for _ in 0..n` with a logging body. -/
def repeatL {σ : Type} : Nat → (σ → LogR σ) → σ → LogR σ
  | 0, _, s => pure s
  | n + 1, body, s => do
    let s ← body s
    repeatL n body s

/-- Body of the `for` loop of `fibonacci_word` with its message.  src/word.rs:48-65 -/
def fibRoundL (level : Nat) (s : FibState) : LogR FibState := do
  let s ← quiet (fibRound s)
  logR level .info (decimal s.current)
  pure s

/-- `fibonacci_word` with its messages.  `est` as in `fibonacciWord`.  src/word.rs:35-70 -/
noncomputable def fibonacciWordL (level : Nat) (est : ℝ) (k : Nat) : LogR (List UInt8) := do
  let _ ← quiet (u8add k 2)
  let length ← quiet (uadd (min ⌊est + 1⌋₊ 18446744073709551615) 1)
  let text ← quiet (zeroed length)
  logR level .info (ascii "allocate text length = " ++ decimal length)
  let text ← quiet (wr text 0 97)
  let hi ← quiet (u8add k 1)
  let s ← repeatL hi (fibRoundL level) ⟨text, 0, 1, 0, 1⟩
  logR level .info (decimal k ++ ascii "-th fibonacci number = " ++ decimal s.current)
  logR level .info (ascii "written characters = " ++ decimal s.target)
  pure (s.text.take s.current)

/-- `kolakoski_word` with its message.  src/word.rs:136-181 -/
def kolakoskiWordL (level : Nat) (k : Nat) : LogR (List UInt8) := do
  let e ← quiet (u8add k 2)
  let length ← quiet (uadd (kolakoskiEstimate e) 1)
  let text ← quiet (zeroed length)
  logR level .info (ascii "allocate text length = " ++ decimal length)
  let text ← quiet (wr text 0 98)
  let text ← quiet (wr text 1 98)
  let s ← quiet (forRange 0 k (⟨text, 1, 2, 2, 0⟩ : KolState) (fun _ s => loopR s.currentSize kolStep s))
  if s.target ≤ s.text.length then pure (s.text.take s.target) else quiet (.error .index)

/-- `{:?}` of a factor (`#[derive(Debug)]`).  src/bin/count_z.rs:17-21, src/bin/count_lexparse.rs:13-17 -/
def factorText (f : LZFactor) : List UInt8 :=
  ascii "LZFactor { pos: " ++ decimal f.pos ++ ascii ", len: " ++ decimal f.len ++ ascii " }"

/-- `{:?}` of a vector of factors after its first entry. -/
def factorsTail : List LZFactor → List UInt8
  | [] => ascii "]"
  | f :: fs => ascii ", " ++ factorText f ++ factorsTail fs

/-- `{:?}` of a vector of factors. -/
def factorsText : List LZFactor → List UInt8
  | [] => ascii "[]"
  | f :: fs => ascii "[" ++ factorText f ++ factorsTail fs

/-- The output file of `count_z` and `count_lexparse`.  src/bin/count_z.rs:220-227, src/bin/count_lexparse.rs:110-117 -/
def factorFile (creatable : String → Bool) (out : Option String) (fs : List LZFactor) (length : Nat) (w : World) :
    World × Res (Nat × Nat) :=
  match out with
  | none => (w, .ok (length, fs.length))
  | some n =>
    match openOut creatable (some n) w with
    | .error e => (w, .error e)
    | .ok w => (writeOut (some n) (factorBytes fs) w, .ok (length, fs.length))

/-- `main` of `count_z` up to the factors, with its messages: the text and its factors.  src/bin/count_z.rs:170-211 -/
def countZL (level : Nat) (sufsort : List UInt8 → List Nat) (time : Nat) (inn : Option String) (prefixLength : Nat)
    (stdin : List UInt8) (w : World) : LogR (List UInt8 × List LZFactor) := do
  logR level .info (ascii "Build DS")
  let text ← quiet (readVector inn prefixLength stdin w)
  let sa := sufsort text
  logR level .debug (ascii " T : " ++ listText (text.map UInt8.toNat))
  logR level .debug (ascii "sa : " ++ listText sa)
  let isa ← quiet (inversePermutation 2147483647 sa)
  let psv ← quiet (computePsv sa)
  let nsv ← quiet (computeNsv sa)
  let phi ← quiet (computePhi sa)
  let plcp ← quiet (computePlcp text phi)
  let lcp ← quiet (computeLcp plcp sa)
  logR level .info (ascii "time: " ++ decimal time)
  logR level .info (ascii "run LZ77")
  let factors ← quiet (computeLz77 text sa isa lcp nsv psv)
  logR level .debug (ascii "LZ77 " ++ factorsText factors)
  let dec ← quiet (decodeLz77 factors)
  quiet (assertR (decide (text = dec)))
  pure (text, factors)

/-- `main` of `count_lexparse` up to the factors, with its messages.  src/bin/count_lexparse.rs:69-101 -/
def countLexparseL (level : Nat) (sufsort : List UInt8 → List Nat) (time : Nat) (inn : Option String) (prefixLength : Nat)
    (stdin : List UInt8) (w : World) : LogR (List UInt8 × List LZFactor) := do
  logR level .info (ascii "Build DS")
  let text ← quiet (readVector inn prefixLength stdin w)
  let sa := sufsort text
  logR level .debug (ascii " T : " ++ listText (text.map UInt8.toNat))
  logR level .debug (ascii "sa : " ++ listText sa)
  let phi ← quiet (computePhi sa)
  let plcp ← quiet (computePlcp text phi)
  logR level .info (ascii "time: " ++ decimal time)
  logR level .info (ascii "run lexparse")
  let factors ← quiet (computeLexparse text plcp phi)
  logR level .debug (ascii "Lex-Parse " ++ factorsText factors)
  pure (text, factors)

/-- `main` of `count_z` or `count_lexparse` with its messages: the messages, the world, and `length=`, `factors=` of the result line.
src/bin/count_z.rs:164-228, src/bin/count_lexparse.rs:63-119 -/
def factorMainL (creatable : String → Bool) (out : Option String) (w : World) (x : LogR (List UInt8 × List LZFactor)) :
    List Message × World × Res (Nat × Nat) :=
  match x.2 with
  | .error e => (x.1, w, .error e)
  | .ok (text, fs) => (x.1, factorFile creatable out fs text.length w)

/-- `bwt_from_text_by_sa` with its messages.  src/core.rs:10-30 -/
def bwtFromTextBySaL (level : Nat) (sufsort : List UInt8 → List Nat) (text : List UInt8) : LogR (List UInt8) := do
  let bwt ← quiet (bwtFromTextBySa sufsort text)
  logR level .debug (ascii "text: " ++ listText (text.map UInt8.toNat))
  logR level .debug (ascii "bwt: " ++ listText (bwt.map UInt8.toNat))
  logR level .debug (ascii "sa: " ++ listText (sufsort text))
  pure bwt

/-- `bwt_by_matrix` with the messages of `bwt_from_text_by_sa`.  src/core.rs:60-76 -/
def bwtByMatrixL (level : Nat) (sufsort : List UInt8 → List Nat) (text : List UInt8) : LogR (List UInt8) := do
  let n := text.length
  quiet (assertR (decide (n > 0)))
  let start ← quiet (lyndonConjugate text)
  if start ≤ n then do
    let newtext := text.drop start ++ text.take start ++ [0]
    let bwt ← bwtFromTextBySaL level sufsort newtext
    quiet (removeFirstZero bwt)
  else quiet (.error .index)

/-- `{}` of a `bool`. -/
def boolText (b : Bool) : List UInt8 := ascii (if b then "true" else "false")

/-- `main` of `bwt` up to the transform, with its messages; that of `count_r` differs only in the word `label` before the prefix
length (`prefixlength: ` and `args.prefixlength: `).  src/bin/bwt.rs:38-69, src/bin/count_r.rs:34-68 -/
def bwtL (label : String) (level : Nat) (sufsort : List UInt8 → List Nat) (useMatrix noDollar : Bool) (inn : Option String) (prefixLength : Nat)
    (stdin : List UInt8) (w : World) : LogR (List UInt8) := do
  logR level .info (ascii "no_dollar?: " ++ boolText noDollar)
  logR level .info (ascii "use matrix?: " ++ boolText useMatrix)
  logR level .info (ascii label ++ decimal prefixLength)
  logR level .info (ascii "read text")
  let input ← quiet (readVector inn prefixLength stdin w)
  let text := if noDollar then input else input ++ [0]
  logR level .info (ascii "build bwt")
  if useMatrix then
    if text.length < 100 then quiet (bwtByMatrixNaive text) else bwtByMatrixL level sufsort text
  else bwtFromTextBySaL level sufsort text

/-- `main` of `mus` up to the list it prints, with its messages.  src/bin/mus.rs:58-97 -/
def musL (level : Nat) (sufsort : List UInt8 → List Nat) (time : Nat) (inn : Option String) (prefixLength : Nat)
    (stdin : List UInt8) (w : World) : LogR (List (Nat × Nat)) := do
  logR level .info (ascii "args.prefixlength: " ++ decimal prefixLength)
  logR level .info (ascii "Build DS")
  let text ← quiet (readVector inn prefixLength stdin w)
  let sa := sufsort text
  let isa ← quiet (inversePermutation 2147483647 sa)
  let phi ← quiet (computePhi sa)
  let plcp ← quiet (computePlcp text phi)
  let lcp ← quiet (computeLcp plcp sa)
  logR level .info (ascii "time: " ++ decimal time)
  quiet (getMus sa isa lcp)

end Verif.Model
