import Mathlib.Data.Nat.Digits.Defs
import Verif.Model.Core

/-! # Model of the stream tools: `count_sigma`, `mtf`, `rle`, `escape`, `reverse`, and of `src/io.rs`

A tool that writes while it reads is modelled by what has been written together with how it ended
(`Out`): a panic leaves the bytes written so far.  Writing and flushing succeed (a full disk is not
modelled).  Readers are the event lists of `Verif.Model.Core`: every tool below stops reading at the
first end of file or error.  `u8` counters follow the build: `checked` (panic on overflow, the debug
profile) or `wrapping` (the release profile). -/

namespace Verif.Model

open Verif

/-- Overflow behaviour of the build. -/
inductive Build where
  | checked
  | wrapping
  deriving DecidableEq, Repr

/-- `a + 1` on `u8`. -/
def incU8 (m : Build) (a : UInt8) : Res UInt8 :=
  if a.toNat + 1 < 256 then .ok (a + 1)
  else match m with
    | .checked => .error .arith
    | .wrapping => .ok 0

/-- What a stream tool has written, and how it ended. -/
abbrev Out := List UInt8 × Res Unit

/-- Write `bs`, then continue. -/
def emit (bs : List UInt8) (o : Out) : Out := (bs ++ o.1, o.2)

/-- Continue with a value, or stop with the panic of its computation. -/
def andThen {α : Type} (x : Res α) (k : α → Out) : Out :=
  match x with
  | .ok a => k a
  | .error e => ([], .error e)

/-- Normal end. -/
def done : Out := ([], .ok ())

/-- The bytes a reader delivers before its first end of input or error. -/
def delivered : Reader → List UInt8
  | .byte b :: r => b :: delivered r
  | _ => []

/-! ## count_sigma -/

/-- `count_sigma`.  src/bin/count_sigma.rs:11-22 -/
def countSigma (m : Build) (text : List UInt8) : Res UInt8 := do
  let s ← forEach text ((0 : UInt8), List.replicate 256 (0 : UInt8)) (fun c (s : UInt8 × List UInt8) => do
    let v ← rd s.2 c.toNat
    if v = 0 then do
      let inc ← incU8 m s.1
      let tbl ← wr s.2 c.toNat inc
      pure (inc, tbl)
    else pure s)
  pure s.1

/-! ## mtf -/

/-- `(0..u8::MAX).collect()`: 255 entries.  src/bin/mtf.rs:8 -/
def mtfInit : List UInt8 := (List.range 255).map UInt8.ofNat

/-- `iter().position(|&c| c == cur_char).unwrap()`.  src/bin/mtf.rs:13 -/
def mtfPosition (v : List UInt8) (c : UInt8) : Res Nat :=
  match v.findIdx? (fun x => decide (x = c)) with
  | some i => .ok i
  | none => .error .unwrap

/-- The shifting loop and the store to the front.  src/bin/mtf.rs:14-17 -/
def mtfUpdate (v : List UInt8) (pos : Nat) (c : UInt8) : Res (List UInt8) := do
  let v ← forRange 0 pos v (fun j v => do
    let a ← usub pos j
    let b ← usub a 1
    let x ← rd v b
    wr v a x)
  wr v 0 c

/-- The `loop` of `mtf`.  src/bin/mtf.rs:9-21 -/
def mtfLoop : Reader → List UInt8 → Out
  | [], _ => done
  | .eof :: _, _ => done
  | .err :: _, _ => done
  | .byte c :: r, v =>
    andThen (mtfPosition v c) fun pos =>
    andThen (mtfUpdate v pos c) fun v =>
    emit [UInt8.ofNat pos] (mtfLoop r v)

/-- `mtf`.  src/bin/mtf.rs:7-23 -/
def mtf (r : Reader) : Out := mtfLoop r mtfInit

/-! ## rle -/

/-- The UTF-8 bytes of `b as char`. -/
def charBytes (b : UInt8) : List UInt8 :=
  if b < 128 then [b] else [192 + b / 64, 128 + b % 64]

/-- The decimal digits printed for a `u8`. -/
def decBytes (b : UInt8) : List UInt8 :=
  if b = 0 then [48] else (Nat.digits 10 b.toNat).reverse.map (fun d => UInt8.ofNat (48 + d))

/-- `write!(writer, "({},{})", c as char, l)`.  src/bin/rle.rs:20, 29 -/
def rleTextItem (c l : UInt8) : List UInt8 := [40] ++ charBytes c ++ [44] ++ decBytes l ++ [41]

/-- `write!(writer, "({},{})", prev_char as char, run_counter + 1)` at the end.  src/bin/rle.rs:29 -/
def rleTextEnd (m : Build) (prev cnt : UInt8) : Out :=
  andThen (incU8 m cnt) fun l => emit (rleTextItem prev l) done

/-- The `loop` of `rle_text`.  src/bin/rle.rs:15-30 -/
def rleTextLoop (m : Build) : Reader → UInt8 → UInt8 → Out
  | [], prev, cnt => rleTextEnd m prev cnt
  | .eof :: _, prev, cnt => rleTextEnd m prev cnt
  | .err :: _, prev, cnt => rleTextEnd m prev cnt
  | .byte c :: r, prev, cnt =>
    if c ≠ prev then
      andThen (incU8 m cnt) fun l => emit (rleTextItem prev l) (rleTextLoop m r c 0)
    else andThen (incU8 m cnt) fun cnt => rleTextLoop m r prev cnt

/-- `rle_text`.  src/bin/rle.rs:9-33 -/
def rleText (m : Build) (r : Reader) : Out :=
  match readChar r with
  | (none, _) => done
  | (some first, r) => rleTextLoop m r first 0

/-- The `loop` of `rle`.  src/bin/rle.rs:41-57 -/
def rleLoop (m : Build) : Reader → UInt8 → UInt8 → Out
  | [], prev, cnt => emit [prev, cnt] done
  | .eof :: _, prev, cnt => emit [prev, cnt] done
  | .err :: _, prev, cnt => emit [prev, cnt] done
  | .byte c :: r, prev, cnt =>
    if c ≠ prev then
      andThen (assertR (decide (cnt < 255))) fun _ => emit [prev, cnt] (rleLoop m r c 0)
    else andThen (incU8 m cnt) fun cnt => rleLoop m r prev cnt

/-- `rle`.  src/bin/rle.rs:35-60 -/
def rle (m : Build) (r : Reader) : Out :=
  match readChar r with
  | (none, _) => done
  | (some first, r) => rleLoop m r first 0

/-- The end of `rle_zero`.  src/bin/rle.rs:94-96 -/
def rleZeroEnd (cnt : UInt8) : Out := if cnt > 0 then emit [48, cnt] done else done

/-- The `loop` of `rle_zero`; the assertion `run_counter - 1 < u8::MAX` cannot fail for a positive
`u8`.  src/bin/rle.rs:74-96 -/
def rleZeroLoop (m : Build) : Reader → UInt8 → Out
  | [], cnt => rleZeroEnd cnt
  | .eof :: _, cnt => rleZeroEnd cnt
  | .err :: _, cnt => rleZeroEnd cnt
  | .byte c :: r, cnt =>
    if c ≠ 48 then
      if cnt = 0 then emit [c] (rleZeroLoop m r cnt)
      else andThen (assertR (decide (cnt - 1 < 255))) fun _ => emit [48, cnt - 1] (rleZeroLoop m r 0)
    else andThen (incU8 m cnt) fun cnt => rleZeroLoop m r cnt

/-- `rle_zero`.  src/bin/rle.rs:64-100 -/
def rleZero (m : Build) (r : Reader) : Out :=
  match readChar r with
  | (none, _) => done
  | (some first, r) =>
    if first = 48 then rleZeroLoop m r 1 else emit [first] (rleZeroLoop m r 0)

/-! ## escape -/

/-- The command line of `escape` (the parts that influence the bytes written).  src/bin/escape.rs:22-47 -/
structure EscapeArgs where
  prefixlength : Nat := 0
  escapeSymbol : UInt8 := 0
  fromSymbols : List UInt8
  toSymbols : List UInt8
  isReversion : Bool := false

/-- A `HashMap` filled by inserting the pairs in order (a later insert replaces an earlier one).
src/bin/escape.rs:98-103, 128-133 -/
def lookupLast (keys vals : List UInt8) (c : UInt8) : Option UInt8 :=
  ((keys.zip vals).reverse.find? (fun p => decide (p.1 = c))).map Prod.snd

/-- The loop of the escaping direction, `n` iterations left.  src/bin/escape.rs:134-149 -/
def escapeLoop (a : EscapeArgs) : Nat → Reader → Out
  | 0, _ => done
  | _ + 1, [] => done
  | _ + 1, .eof :: _ => done
  | _ + 1, .err :: _ => done
  | n + 1, .byte c :: r =>
    if c = a.escapeSymbol then emit [a.escapeSymbol, a.escapeSymbol] (escapeLoop a n r)
    else match lookupLast a.fromSymbols a.toSymbols c with
      | some d => emit [a.escapeSymbol, d] (escapeLoop a n r)
      | none => emit [c] (escapeLoop a n r)

/-- The loop of the reverting direction, `n` iterations left; the second character of a pair must
exist and be known.  src/bin/escape.rs:105-125 -/
def unescapeLoop (a : EscapeArgs) : Nat → Reader → Out
  | 0, _ => done
  | _ + 1, [] => done
  | _ + 1, .eof :: _ => done
  | _ + 1, .err :: _ => done
  | n + 1, .byte c :: r =>
    if c = a.escapeSymbol then
      match r with
      | .byte d :: r =>
        if d = a.escapeSymbol then emit [a.escapeSymbol] (unescapeLoop a n r)
        else match lookupLast a.toSymbols a.fromSymbols d with
          | some x => emit [x] (unescapeLoop a n r)
          | none => ([], .error .unwrap)
      | _ => ([], .error .unwrap)
    else emit [c] (unescapeLoop a n r)

/-- `main` of `escape`, with its four assertions.  src/bin/escape.rs:49-154 -/
def escapeMain (a : EscapeArgs) (r : Reader) : Out :=
  if a.fromSymbols.length ≠ a.toSymbols.length then ([], .error .assert)
  else if a.escapeSymbol ∈ a.fromSymbols then ([], .error .assert)
  else if a.escapeSymbol ∈ a.toSymbols then ([], .error .assert)
  else if a.fromSymbols.any (fun i => decide (i ∈ a.toSymbols)) then ([], .error .assert)
  else if a.isReversion then unescapeLoop a a.prefixlength r
  else escapeLoop a a.prefixlength r

/-! ## io -/

/-- A file: its bytes as `read` delivers them and the size `metadata` reports (they agree for a regular
file nobody else modifies). -/
structure File where
  content : List UInt8
  metaLen : Nat

/-- `read_exact` into a buffer of length `n`. -/
def readExact (content : List UInt8) (n : Nat) : Res (List UInt8) :=
  if n ≤ content.length then .ok (content.take n) else .error .unwrap

/-- `file2byte_vector` on a 64-bit target; `none` is a file that cannot be opened.  src/io.rs:3-27 -/
def file2byteVector (f : Option File) (prefixLength : Nat) : Res (List UInt8) :=
  match f with
  | none => .error .unwrap
  | some f => do
    let n := if prefixLength > 0 then min prefixLength f.metaLen else f.metaLen
    assertR (decide (n ≤ 18446744073709551615))
    readExact f.content n

/-- `stdin2byte_vector`.  src/io.rs:29-43 -/
def stdin2byteVector (stdin : List UInt8) (prefixLength : Nat) : Res (List UInt8) :=
  if prefixLength > 0 then readExact stdin prefixLength else .ok stdin

/-- `file_or_stdin2byte_vector`; `some f` if a file name is given.  src/io.rs:45-50 -/
def fileOrStdin2byteVector (f : Option (Option File)) (stdin : List UInt8) (prefixLength : Nat) :
    Res (List UInt8) :=
  match f with
  | some f => file2byteVector f prefixLength
  | none => stdin2byteVector stdin prefixLength

/-- `main` of `reverse`: what it writes.  src/bin/reverse.rs:30-46 -/
def reverseMain (f : Option (Option File)) (stdin : List UInt8) (prefixLength : Nat) : Out :=
  andThen (fileOrStdin2byteVector f stdin prefixLength) fun text => emit text.reverse done

end Verif.Model
