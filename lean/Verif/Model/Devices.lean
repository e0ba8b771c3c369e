import Verif.Model.Commands
import Verif.Spec.Devices

/-! # Model of the writers: unbuffered files, the line-buffered standard output, `BufWriter`

`std::fs::File` passes every `write_all` to the device.  `std::io::Stdout` is a `LineWriter` (data after the last line feed
waits in a buffer), flushed at the end of the process, also after a panic or `process::exit`, by `std::rt::cleanup`, which
ignores errors.  `BufWriter` flushes when it is dropped and ignores errors there.  The standard library is not part of the
repository: `push`, `bufWriteAll`, `lineWriteAll` follow `library/std/src/io/{mod,buffered/bufwriter,buffered/
linewritershim}.rs`.  The capacity of a buffer is a parameter (1024 for `Stdout`, 8192 for `BufWriter::new`).

Unlike in the other models, what a tool writes is a list of chunks here: one per `write_all` call. -/

namespace Verif.Model

open Verif Spec

/-- `write_all` of a device, and the loop of `BufWriter::flush_buf`: calls `write` until everything is taken; an
interrupted call is repeated; taking nothing (`WriteZero`) or a refusal ends it.  Returns the bytes not taken and whether
it succeeded. -/
def pushLoop (full : Bool) : List Answer → List (List UInt8) → List UInt8 → Device × List UInt8 × Bool
  | as, got, [] => (⟨as, full, got⟩, [], true)
  | [], got, b :: bs => if full then (⟨[], full, got⟩, b :: bs, false) else (⟨[], full, got ++ [b :: bs]⟩, [], true)
  | .interrupted :: as, got, b :: bs => pushLoop full as got (b :: bs)
  | .refuse :: as, got, b :: bs => (⟨as, full, got⟩, b :: bs, false)
  | .accept 0 :: as, got, b :: bs => (⟨as, full, got⟩, b :: bs, false)
  | .accept (n + 1) :: as, got, b :: bs => pushLoop full as (got ++ [b :: bs.take n]) (bs.drop n)

/-- The same on a device. -/
def push (d : Device) (bs : List UInt8) : Device × List UInt8 × Bool := pushLoop d.full d.answers d.got bs

/-- A writer: the device behind it and the buffered bytes. -/
structure Writer where
  dev : Device
  buf : List UInt8

/-- `BufWriter::flush_buf`: the bytes not taken stay in the buffer. -/
def flushBuf (w : Writer) : Writer × Bool :=
  let r := push w.dev w.buf
  (⟨r.1, r.2.1⟩, r.2.2)

/-- `BufWriter::write_all` and `write_all_cold`. -/
def bufWriteAll (cap : Nat) (w : Writer) (bs : List UInt8) : Writer × Bool :=
  if bs.length < cap - w.buf.length then (⟨w.dev, w.buf ++ bs⟩, true)
  else
    let f := if bs.length > cap - w.buf.length then flushBuf w else (w, true)
    if f.2 = false then (f.1, false)
    else if bs.length ≥ cap then
      let r := push f.1.dev bs
      (⟨r.1, f.1.buf⟩, r.2.2)
    else (⟨f.1.dev, f.1.buf ++ bs⟩, true)

/-- What follows the last line feed. -/
def lineTail (bs : List UInt8) : List UInt8 := (bs.reverse.takeWhile fun c => decide (c ≠ 10)).reverse

/-- Everything up to the last line feed. -/
def lineHead (bs : List UInt8) : List UInt8 := bs.take (bs.length - (lineTail bs).length)

/-- `LineWriterShim::flush_if_completed_line`. -/
def flushIfCompletedLine (w : Writer) : Writer × Bool :=
  if w.buf.getLast? = some 10 then flushBuf w else (w, true)

/-- `LineWriterShim::write_all`. -/
def lineWriteAll (cap : Nat) (w : Writer) (bs : List UInt8) : Writer × Bool :=
  if lineHead bs = [] then
    let f := flushIfCompletedLine w
    if f.2 = false then (f.1, false) else bufWriteAll cap f.1 bs
  else
    let f :=
      if w.buf = [] then
        let r := push w.dev (lineHead bs)
        ((⟨r.1, w.buf⟩ : Writer), r.2.2)
      else
        let g := bufWriteAll cap w (lineHead bs)
        if g.2 = false then (g.1, false) else flushBuf g.1
    if f.2 = false then (f.1, false) else bufWriteAll cap f.1 (lineTail bs)

/-- The writers used: `std::fs::File`, `std::io::Stdout` and `std::io::BufWriter<File>`, with the capacity. -/
inductive Sink where
  | file
  | stdout (cap : Nat)
  | buffered (cap : Nat)
  deriving DecidableEq, Repr

/-- `write_all`. -/
def Sink.writeAll (k : Sink) (w : Writer) (bs : List UInt8) : Writer × Bool :=
  match k with
  | .file => let r := push w.dev bs; (⟨r.1, w.buf⟩, r.2.2)
  | .stdout cap => lineWriteAll cap w bs
  | .buffered cap => bufWriteAll cap w bs

/-- `flush`: nothing to do for a `File`. -/
def Sink.flush (k : Sink) (w : Writer) : Writer × Bool :=
  match k with
  | .file => (w, true)
  | _ => flushBuf w

/-- The writer is dropped (`BufWriter`) or the process ends (`Stdout`): one more attempt, errors are ignored. -/
def Sink.close (k : Sink) (w : Writer) : Device :=
  match k with
  | .file => w.dev
  | _ => (flushBuf w).1.dev

/-- `write_all(..)` for every chunk, up to the first failure. -/
def Sink.writeChunks (k : Sink) : Writer → List (List UInt8) → Writer × Bool
  | w, [] => (w, true)
  | w, c :: cs =>
    let r := k.writeAll w c
    if r.2 = false then (r.1, false) else k.writeChunks r.1 cs

/-- A program that writes the chunks (`unwrap` or the panic of `println!` after each), ends with `r`, and calls
`flush().unwrap()` before a normal end if `flushes`. -/
def runOn {α : Type} (k : Sink) (flushes : Bool) (prog : List (List UInt8) × Res α) (d : Device) : Device × Res α :=
  let s := k.writeChunks ⟨d, []⟩ prog.1
  if s.2 = false then (k.close s.1, .error .unwrap)
  else
    match prog.2 with
    | .error e => (k.close s.1, .error e)
    | .ok a =>
      let f := if flushes then k.flush s.1 else (s.1, true)
      if f.2 = false then (k.close f.1, .error .unwrap) else (k.close f.1, .ok a)

/-- `stream_or_stdout`: an unbuffered file, or the standard output.  src/io.rs:67-77 -/
def streamOrStdout (cap : Nat) (toFile : Bool) : Sink := if toFile then .file else .stdout cap

/-! ## the chunks of the tools -/

/-- Chunks written, and how the tool ended. -/
abbrev Chunks := List (List UInt8) × Res Unit

/-- One `write_all`, then continue. -/
def chunk (bs : List UInt8) (o : Chunks) : Chunks := (bs :: o.1, o.2)

/-- Continue with a value, or stop with the panic of its computation. -/
def andThenC {α : Type} (x : Res α) (k : α → Chunks) : Chunks :=
  match x with
  | .ok a => k a
  | .error e => ([], .error e)

/-- Normal end. -/
def doneC : Chunks := ([], .ok ())

/-- The `loop` of `mtf`: one byte per call.  src/bin/mtf.rs:9-21 -/
def mtfChunksLoop : Reader → List UInt8 → Chunks
  | [], _ => doneC
  | .eof :: _, _ => doneC
  | .err :: _, _ => doneC
  | .byte c :: r, v =>
    andThenC (mtfPosition v c) fun pos =>
    andThenC (mtfUpdate v pos c) fun v =>
    chunk [UInt8.ofNat pos] (mtfChunksLoop r v)

/-- `mtf`.  src/bin/mtf.rs:7-23 -/
def mtfChunks (r : Reader) : Chunks := mtfChunksLoop r mtfInit

/-- `write!(writer, "({},{})", c as char, l)`: one `write_all` per piece of the format.  src/bin/rle.rs:20, 29 -/
def rleTextItemChunks (c l : UInt8) (o : Chunks) : Chunks :=
  chunk [40] <| chunk (charBytes c) <| chunk [44] <| chunk (decBytes l) <| chunk [41] o

/-- The end of `rle_text`.  src/bin/rle.rs:29 -/
def rleTextChunksEnd (m : Build) (prev cnt : UInt8) : Chunks :=
  andThenC (incU8 m cnt) fun l => rleTextItemChunks prev l doneC

/-- The `loop` of `rle_text`.  src/bin/rle.rs:15-30 -/
def rleTextChunksLoop (m : Build) : Reader → UInt8 → UInt8 → Chunks
  | [], prev, cnt => rleTextChunksEnd m prev cnt
  | .eof :: _, prev, cnt => rleTextChunksEnd m prev cnt
  | .err :: _, prev, cnt => rleTextChunksEnd m prev cnt
  | .byte c :: r, prev, cnt =>
    if c ≠ prev then
      andThenC (incU8 m cnt) fun l => rleTextItemChunks prev l (rleTextChunksLoop m r c 0)
    else andThenC (incU8 m cnt) fun cnt => rleTextChunksLoop m r prev cnt

/-- The `loop` of `rle`.  src/bin/rle.rs:41-57 -/
def rleChunksLoop (m : Build) : Reader → UInt8 → UInt8 → Chunks
  | [], prev, cnt => chunk [prev, cnt] doneC
  | .eof :: _, prev, cnt => chunk [prev, cnt] doneC
  | .err :: _, prev, cnt => chunk [prev, cnt] doneC
  | .byte c :: r, prev, cnt =>
    if c ≠ prev then
      andThenC (assertR (decide (cnt < 255))) fun _ => chunk [prev, cnt] (rleChunksLoop m r c 0)
    else andThenC (incU8 m cnt) fun cnt => rleChunksLoop m r prev cnt

/-- The end of `rle_zero`.  src/bin/rle.rs:94-96 -/
def rleZeroChunksEnd (cnt : UInt8) : Chunks := if cnt > 0 then chunk [48, cnt] doneC else doneC

/-- The `loop` of `rle_zero`.  src/bin/rle.rs:74-96 -/
def rleZeroChunksLoop (m : Build) : Reader → UInt8 → Chunks
  | [], cnt => rleZeroChunksEnd cnt
  | .eof :: _, cnt => rleZeroChunksEnd cnt
  | .err :: _, cnt => rleZeroChunksEnd cnt
  | .byte c :: r, cnt =>
    if c ≠ 48 then
      if cnt = 0 then chunk [c] (rleZeroChunksLoop m r cnt)
      else andThenC (assertR (decide (cnt - 1 < 255))) fun _ => chunk [48, cnt - 1] (rleZeroChunksLoop m r 0)
    else andThenC (incU8 m cnt) fun cnt => rleZeroChunksLoop m r cnt

/-- `rle_text`, `rle_zero`, `rle`, chosen by the flags.  src/bin/rle.rs:9-100, 130-136 -/
def rleChunks (m : Build) (human onlyzero : Bool) (r : Reader) : Chunks :=
  match readChar r with
  | (none, _) => doneC
  | (some first, r) =>
    if human then rleTextChunksLoop m r first 0
    else if onlyzero then
      if first = 48 then rleZeroChunksLoop m r 1 else chunk [first] (rleZeroChunksLoop m r 0)
    else rleChunksLoop m r first 0

/-- The loop of the escaping direction.  src/bin/escape.rs:134-149 -/
def escapeChunksLoop (a : EscapeArgs) : Nat → Reader → Chunks
  | 0, _ => doneC
  | _ + 1, [] => doneC
  | _ + 1, .eof :: _ => doneC
  | _ + 1, .err :: _ => doneC
  | n + 1, .byte c :: r =>
    if c = a.escapeSymbol then chunk [a.escapeSymbol, a.escapeSymbol] (escapeChunksLoop a n r)
    else match lookupLast a.fromSymbols a.toSymbols c with
      | some d => chunk [a.escapeSymbol, d] (escapeChunksLoop a n r)
      | none => chunk [c] (escapeChunksLoop a n r)

/-- The loop of the reverting direction.  src/bin/escape.rs:105-125 -/
def unescapeChunksLoop (a : EscapeArgs) : Nat → Reader → Chunks
  | 0, _ => doneC
  | _ + 1, [] => doneC
  | _ + 1, .eof :: _ => doneC
  | _ + 1, .err :: _ => doneC
  | n + 1, .byte c :: r =>
    if c = a.escapeSymbol then
      match r with
      | .byte d :: r =>
        if d = a.escapeSymbol then chunk [a.escapeSymbol] (unescapeChunksLoop a n r)
        else match lookupLast a.toSymbols a.fromSymbols d with
          | some x => chunk [x] (unescapeChunksLoop a n r)
          | none => ([], .error .unwrap)
      | _ => ([], .error .unwrap)
    else chunk [c] (unescapeChunksLoop a n r)

/-- `main` of `escape`.  src/bin/escape.rs:74-153 -/
def escapeChunks (a : EscapeArgs) (r : Reader) : Chunks :=
  if a.fromSymbols.length ≠ a.toSymbols.length then ([], .error .assert)
  else if a.escapeSymbol ∈ a.fromSymbols then ([], .error .assert)
  else if a.escapeSymbol ∈ a.toSymbols then ([], .error .assert)
  else if a.fromSymbols.any (fun i => decide (i ∈ a.toSymbols)) then ([], .error .assert)
  else if a.isReversion then unescapeChunksLoop a a.prefixlength r
  else escapeChunksLoop a a.prefixlength r

/-- One `write_all` of a computed text.  src/bin/bwt.rs:72, src/bin/reverse.rs:44, src/bin/word.rs:56 -/
def oneChunk (x : Res (List UInt8)) : Chunks := andThenC x fun bs => chunk bs doneC

/-- The factor file: one `write_all` per factor.  src/bin/count_z.rs:222-226, src/bin/count_lexparse.rs:113-117 -/
def factorChunks (fs : List LZFactor) : Chunks :=
  (fs.map fun f => [40] ++ decimal f.pos ++ [44] ++ decimal f.len ++ [41], .ok ())

/-- `main` of `lyndonwords`: the word, then a line feed.  src/bin/lyndonwords.rs:24-33 -/
def lyndonwordsChunks : Nat → LyndonWordGenerator → Chunks
  | 0, _ => ([], .error .fuel)
  | fuel + 1, g =>
    match g.next with
    | .error e => ([], .error e)
    | .ok (none, _) => doneC
    | .ok (some w, g) => andThenC (lyndonLine w) fun l => chunk l <| chunk [10] (lyndonwordsChunks fuel g)

/-- `main` of `randomstring`: one byte per call; no flush.  src/bin/randomstring.rs:49-60 -/
def randomstringChunks (out : List UInt8) : Chunks := (out.map fun c => [c], .ok ())

/-- The pieces of one record of the report of `lyndonfactorization`.  src/bin/lyndonfactorization.rs:88-97 -/
def lyndonRecordChunks (text : List UInt8) (factors : List Nat) (id : Nat) : Res (List (List UInt8)) := do
  let id1 ← usub id 1
  let p ← rd factors id1
  let e ← rd factors id
  let body ← slice text (p + 1) (e + 1)
  pure [ascii "\n>Factor ", decimal (id + 1), ascii " : ", decimal (p + 1), ascii " -> ", decimal (e + 1), ascii "\n", body]

/-- The loop over the factors.  src/bin/lyndonfactorization.rs:74-98 -/
def lyndonChunksLoop (text : List UInt8) (factors : List Nat) : Nat → Nat → Chunks
  | 0, _ => doneC
  | d + 1, id =>
    andThenC (lyndonFileStop text factors id) fun stop =>
      if stop then doneC
      else andThenC (lyndonRecordChunks text factors id) fun r =>
        let o := lyndonChunksLoop text factors d (id + 1)
        (r ++ o.1, o.2)

/-- The report of `lyndonfactorization`, written through a `BufWriter`.  src/bin/lyndonfactorization.rs:69-99 -/
def lyndonChunks (text : List UInt8) (factors : List Nat) : Chunks :=
  chunk (ascii ">Factor 1\n") <|
  andThenC (rd factors 0) fun e0 =>
  andThenC (slice text 0 (e0 + 1)) fun first =>
  chunk first (lyndonChunksLoop text factors (factors.length - 1) 1)

/-! ## the tools on devices -/

/-- `mtf` writing to a file or to the standard output.  src/bin/mtf.rs:67-72 -/
def mtfOn (cap : Nat) (toFile : Bool) (r : Reader) (d : Device) : Device × Res Unit :=
  runOn (streamOrStdout cap toFile) true (mtfChunks r) d

/-- `rle`.  src/bin/rle.rs:125-137 -/
def rleOn (cap : Nat) (toFile : Bool) (m : Build) (human onlyzero : Bool) (r : Reader) (d : Device) :
    Device × Res Unit :=
  runOn (streamOrStdout cap toFile) true (rleChunks m human onlyzero r) d

/-- `escape`.  src/bin/escape.rs:74-154 -/
def escapeOn (cap : Nat) (toFile : Bool) (a : EscapeArgs) (r : Reader) (d : Device) : Device × Res Unit :=
  runOn (streamOrStdout cap toFile) true (escapeChunks a r) d

/-- `reverse`, after the text has been read.  src/bin/reverse.rs:42-46 -/
def reverseOn (cap : Nat) (toFile : Bool) (text : List UInt8) (d : Device) : Device × Res Unit :=
  runOn (streamOrStdout cap toFile) true (oneChunk (.ok text.reverse)) d

/-- `bwt`, after the text has been read.  src/bin/bwt.rs:53-74 -/
def bwtOn (cap : Nat) (toFile : Bool) (sufsort : List UInt8 → List Nat) (useMatrix noDollar : Bool)
    (input : List UInt8) (d : Device) : Device × Res Unit :=
  runOn (streamOrStdout cap toFile) true (oneChunk (bwtTool sufsort useMatrix noDollar input)) d

/-- `word`: no flush.  src/bin/word.rs:41-57 -/
noncomputable def wordOn (cap : Nat) (toFile : Bool) (est : ℝ) (fuel : Nat) (name : WordName) (k : Nat) (d : Device) :
    Device × Res Unit :=
  runOn (streamOrStdout cap toFile) false (oneChunk (wordOf est fuel name k)) d

/-- `randomstring`: no flush.  src/bin/randomstring.rs:47-61 -/
def randomstringOn (cap : Nat) (toFile : Bool) (out : List UInt8) (d : Device) : Device × Res Unit :=
  runOn (streamOrStdout cap toFile) false (randomstringChunks out) d

/-- `lyndonwords`: no flush.  src/bin/lyndonwords.rs:24-33 -/
def lyndonwordsOn (cap : Nat) (toFile : Bool) (fuel length sigma : Nat) (d : Device) : Device × Res Unit :=
  runOn (streamOrStdout cap toFile) false (lyndonwordsChunks fuel (LyndonWordGenerator.new length sigma)) d

/-- The factor file of `count_z` and `count_lexparse`: an unbuffered file, no flush.
src/bin/count_z.rs:220-227, src/bin/count_lexparse.rs:111-118 -/
def factorsOn (fs : List LZFactor) (d : Device) : Device × Res Unit := runOn .file false (factorChunks fs) d

/-- The report of `lyndonfactorization`: a `BufWriter`, no flush.  src/bin/lyndonfactorization.rs:69-99 -/
def lyndonReportOn (cap : Nat) (text : List UInt8) (factors : List Nat) (d : Device) : Device × Res Unit :=
  runOn (.buffered cap) false (lyndonChunks text factors) d

/-- Tools that print with `println!`: the pieces are handed to `Stdout::write_all` one by one and an error panics; the
division into pieces is arbitrary here. -/
def printOn {α : Type} (cap : Nat) (pieces : List (List UInt8)) (r : Res α) (d : Device) : Device × Res α :=
  runOn (.stdout cap) false (pieces, r) d

/-! ## readers -/

/-- `read_to_end(..).unwrap()`: interrupted calls are repeated, any other error panics. -/
def readToEndA : List ReadAnswer → Res (List UInt8)
  | [] => .ok []
  | .eof :: _ => .ok []
  | .interrupted :: r => readToEndA r
  | .fail :: _ => .error .unwrap
  | .data b bs :: r => (readToEndA r).map (b :: bs ++ ·)

/-- `read_exact(buffer of n bytes).unwrap()`. -/
def readExactA : Nat → List ReadAnswer → Res (List UInt8)
  | 0, _ => .ok []
  | _ + 1, [] => .error .unwrap
  | _ + 1, .eof :: _ => .error .unwrap
  | n + 1, .interrupted :: r => readExactA (n + 1) r
  | _ + 1, .fail :: _ => .error .unwrap
  | n + 1, .data b bs :: r => (readExactA (n - bs.length) r).map (b :: bs.take n ++ ·)

/-- `stdin2byte_vector`.  src/io.rs:29-43 -/
def stdin2byteVectorA (stdin : List ReadAnswer) (prefixLength : Nat) : Res (List UInt8) :=
  if prefixLength > 0 then readExactA prefixLength stdin else readToEndA stdin

/-- `file2byte_vector` of an opened file of length `metaLen`.  src/io.rs:3-27 -/
def file2byteVectorA (metaLen : Nat) (file : List ReadAnswer) (prefixLength : Nat) : Res (List UInt8) :=
  readExactA (if prefixLength > 0 then min prefixLength metaLen else metaLen) file

/-- What successive calls of `io::read_char` see: bytes one by one from the buffer behind it; an interrupted call is
an error like any other.  src/io.rs:80-95 -/
def charReader : List ReadAnswer → Reader
  | [] => [.eof]
  | .eof :: r => .eof :: charReader r
  | .interrupted :: r => .err :: charReader r
  | .fail :: r => .err :: charReader r
  | .data b bs :: r => (b :: bs).map .byte ++ charReader r

end Verif.Model
