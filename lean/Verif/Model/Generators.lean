import Verif.Model.Core
import Verif.Model.Streams

/-!
# Model: driving iterators, and the enumeration binaries

`src/bin/{enumerate,generator_kmer,lyndonwords,randomstring}.rs` and the text generator inside
`src/bin/enumerate_lexparse.rs`.
-/

namespace Verif.Model

/-- The results of the first `k` calls of `Iterator::next`, starting in state `s` (no file: this is how
a `for` loop drives the iterators of src/core.rs:390-552; unlike `for` it goes on after `None`, to say what
further calls would return). -/
def runIter {σ ι : Type} (next : σ → Res (Option ι × σ)) : Nat → σ → Res (List (Option ι))
  | 0, _ => .ok []
  | k + 1, s => do
    let (o, s) ← next s
    let os ← runIter next k s
    pure (o :: os)

/-! ### enumerate -/

/-- `(b'a' + (i as u8)) as char`, then pushed on a `String` (the letters printed by `enumerate` are
ASCII, one byte each).  src/bin/enumerate.rs:21 -/
def enumLetter (i : Nat) : Res UInt8 :=
  if 97 + i % 256 < 256 then .ok (UInt8.ofNat (97 + i % 256)) else .error .arith

/-- The inner `while pos >= 0` of `enumerate_for_length`; the argument is `pos + 1` (so `0` stands for
`pos = -1`), the result is the new array and whether `pos < 0` at the end.
src/bin/enumerate.rs:26-35 -/
def enumIncr (alphaSize : Nat) (indices : List Nat) : Nat → Res (List Nat × Bool)
  | 0 => .ok (indices, true)
  | pos + 1 => do
    let c ← rd indices pos
    if c + 1 < alphaSize then do
      let indices ← wr indices pos (c + 1)
      pure (indices, false)
    else do
      let indices ← wr indices pos 0
      enumIncr alphaSize indices pos

/-- One printed line. src/bin/enumerate.rs:19-23 -/
def enumLine (indices : List Nat) : Res (List UInt8) := do
  let s ← forEach indices [] (fun i s => do
    let c ← enumLetter i
    pure (s ++ [c]))
  pure (s ++ [10])

/-- One round of the outer `loop`: print the current string, advance; the first component tells whether
the loop ends.  src/bin/enumerate.rs:17-39 -/
def enumRound (alphaSize len : Nat) (st : List UInt8 × List Nat) :
    Res (Bool × (List UInt8 × List Nat)) := do
  let line ← enumLine st.2
  let r ← enumIncr alphaSize st.2 len
  pure (r.2, (st.1 ++ line, r.1))

/-- `enumerate_for_length`: the bytes printed; the fuel of the outer loop is `alpha_size ^ len` rounds
(running out of it would be the error `Panic.fuel`).  src/bin/enumerate.rs:10-40 -/
def enumerateForLength (alphaSize len : Nat) : Res (List UInt8) :=
  if len = 0 then .ok []
  else do
    let st ← loopR (alphaSize ^ len + 1) (enumRound alphaSize len) ([], List.replicate len 0)
    pure st.1

/-- `main` of `enumerate`: standard output and exit code.  src/bin/enumerate.rs:42-88 -/
def enumerateMain (alphaSize minLen : Nat) (maxLen : Option Nat) : Res (List UInt8 × Nat) :=
  let maxLen := maxLen.getD minLen
  if alphaSize = 0 ∨ alphaSize > 26 then .ok ([], 1)
  else if minLen = 0 then .ok ([], 1)
  else if maxLen < minLen then .ok ([], 1)
  else do
    let out ← forRange minLen (maxLen + 1) [] (fun len out => do
      let o ← enumerateForLength alphaSize len
      pure (out ++ o))
    pure (out, 0)

/-! ### generator_kmer, enumerate_lexparse -/

/-- The text for the number `num`: `for letter in &mut text { *letter = b'a' + (remainder % σ) as u8;
remainder /= σ }`.  src/bin/generator_kmer.rs:9-14, src/bin/enumerate_lexparse.rs:52-57 -/
def kmerText (sigma : Nat) : Nat → Nat → Res (List UInt8)
  | 0, _ => .ok []
  | length + 1, remainder =>
    if sigma = 0 then .error .arith
    else if 97 + (remainder % sigma) % 256 < 256 then do
      let rest ← kmerText sigma length (remainder / sigma)
      pure (UInt8.ofNat (97 + (remainder % sigma) % 256) :: rest)
    else .error .arith

/-- The generator: the texts in the order in which they are yielded; `usize::pow` is overflow-checked.
src/bin/generator_kmer.rs:7-18, src/bin/enumerate_lexparse.rs:50-61 -/
def kmerTexts (sigma length : Nat) : Res (List (List UInt8)) :=
  if sigma ^ length < 18446744073709551616 then
    forRange 0 (sigma ^ length) [] (fun num acc => do
      let t ← kmerText sigma length num
      pure (acc ++ [t]))
  else .error .arith

/-- `main` of `generator_kmer` prints one line per text, for the constants 8 and 4; the letters are ASCII,
so `str::from_utf8` succeeds.  src/bin/generator_kmer.rs:4-23 -/
def generatorKmerMain : Res (List UInt8) := do
  let ts ← kmerTexts 4 8
  pure (ts.flatMap (fun t => t ++ [10]))

/-! ### lyndonwords -/

/-- `it.iter().map(|x| x + b'a')` (a `u8` addition, overflow-checked).  src/bin/lyndonwords.rs:29 -/
def lyndonLine (w : List Nat) : Res (List UInt8) :=
  w.mapM (fun x => if x + 97 < 256 then .ok (UInt8.ofNat (x + 97)) else .error .arith)

/-- `main` of `lyndonwords`: the bytes written and how the program ended.  The loop ends at the first
`None`; `fuel` bounds the number of rounds.  src/bin/lyndonwords.rs:24-33 -/
def lyndonwordsLoop : Nat → LyndonWordGenerator → Out
  | 0, _ => ([], .error .fuel)
  | fuel + 1, g =>
    match g.next with
    | .error e => ([], .error e)
    | .ok (none, _) => ([], .ok ())
    | .ok (some w, g) =>
      match lyndonLine w with
      | .error e => ([], .error e)
      | .ok l => emit (l ++ [10]) (lyndonwordsLoop fuel g)

/-! ### randomstring -/

/-- `while !charset.contains(&newchar) { newchar = rng.sample(..) }`; the random source is the list of its
future samples (`none`: the list ran out before the loop ended).  src/bin/randomstring.rs:52-54 -/
def resample (charset : List UInt8) (c : UInt8) : List UInt8 → Option (UInt8 × List UInt8)
  | [] => if charset.contains c then some (c, []) else none
  | d :: rng => if charset.contains c then some (c, d :: rng) else resample charset d rng

/-- `main` of `randomstring`: the bytes written, or `none` if the given samples do not suffice to finish
(the program is then still waiting for a sample).  `HashSet` is a duplicate-free list.
src/bin/randomstring.rs:29-61 -/
def randomstringLoop (alphabetSize : Nat) : Nat → List UInt8 → List UInt8 → Option (List UInt8)
  | 0, _, _ => some []
  | _ + 1, _, [] => none
  | k + 1, charset, c :: rng =>
    match (if alphabetSize ≠ 0 ∧ charset.length = alphabetSize then resample charset c rng
           else some (c, rng)) with
    | none => none
    | some (c, rng) =>
      match randomstringLoop alphabetSize k (if charset.contains c then charset else c :: charset) rng with
      | none => none
      | some out => some (c :: out)

/-- `main` of `randomstring`.  src/bin/randomstring.rs:29-61 -/
def randomstringMain (alphabetSize prefixlength : Nat) (rng : List UInt8) : Option (List UInt8) :=
  randomstringLoop alphabetSize prefixlength [] rng

end Verif.Model
