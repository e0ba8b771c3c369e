import Verif.Lemmas.Devices
import Verif.Lemmas.Duval
import Mathlib.Tactic.Linarith

/-! # C110, C111, C112: outputs on devices that refuse, interrupt, or take data in pieces

`Complete d prog run` (Spec/Devices): a run that ends normally has delivered the whole output.  `OnlyPrefixes d out run`:
at every moment the device holds a prefix of the output.  `cap` is the capacity of the buffer of the standard output
(1024 in the standard library) or of the `BufWriter` (8192); the theorems hold for every capacity. -/

namespace Verif.Props

open Verif Spec Model

/-! ### the chunks are the output -/

/-- A program given by chunks writes the bytes `o.1` and ends with `o.2`. -/
def ChunksOf (c : Chunks) (o : Out) : Prop := c.1.flatten = o.1 ∧ c.2 = o.2

theorem chunksOf_done : ChunksOf doneC done := ⟨rfl, rfl⟩

theorem chunksOf_chunk {c : Chunks} {o : Out} (bs : List UInt8) (h : ChunksOf c o) :
    ChunksOf (chunk bs c) (emit bs o) := ⟨by simp [chunk, emit, h.1], h.2⟩

theorem chunksOf_andThen {α : Type} (x : Res α) {k : α → Chunks} {k' : α → Out} (h : ∀ a, ChunksOf (k a) (k' a)) :
    ChunksOf (andThenC x k) (andThen x k') := by
  cases x with
  | ok a => exact h a
  | error e => exact ⟨rfl, rfl⟩

theorem chunksOf_error (e : Panic) : ChunksOf ([], .error e) ([], .error e) := ⟨rfl, rfl⟩

theorem mtf_chunksOf (r : Reader) : ChunksOf (mtfChunks r) (mtf r) := by
  unfold mtfChunks mtf
  generalize mtfInit = v
  induction r generalizing v with
  | nil => exact chunksOf_done
  | cons x r ih =>
    cases x with
    | eof => exact chunksOf_done
    | err => exact chunksOf_done
    | byte c => exact chunksOf_andThen _ fun pos => chunksOf_andThen _ fun v => chunksOf_chunk _ (ih v)

theorem rleTextItem_chunksOf (c l : UInt8) {o : Chunks} {o' : Out} (h : ChunksOf o o') :
    ChunksOf (rleTextItemChunks c l o) (emit (rleTextItem c l) o') := by
  refine ⟨?_, h.2⟩
  simp [rleTextItemChunks, chunk, emit, rleTextItem, h.1]

theorem rleText_chunksOf (m : Build) (r : Reader) : ∀ prev cnt,
    ChunksOf (rleTextChunksLoop m r prev cnt) (rleTextLoop m r prev cnt) := by
  have hend : ∀ prev cnt, ChunksOf (rleTextChunksEnd m prev cnt) (rleTextEnd m prev cnt) := fun prev cnt =>
    chunksOf_andThen _ fun l => rleTextItem_chunksOf _ _ chunksOf_done
  induction r with
  | nil => exact hend
  | cons x r ih =>
    intro prev cnt
    cases x with
    | eof => exact hend prev cnt
    | err => exact hend prev cnt
    | byte c =>
      simp only [rleTextChunksLoop, rleTextLoop]
      split
      · exact chunksOf_andThen _ fun l => rleTextItem_chunksOf _ _ (ih _ _)
      · exact chunksOf_andThen _ fun l => ih _ _

theorem rleLoop_chunksOf (m : Build) (r : Reader) : ∀ prev cnt,
    ChunksOf (rleChunksLoop m r prev cnt) (rleLoop m r prev cnt) := by
  induction r with
  | nil => exact fun _ _ => chunksOf_chunk _ chunksOf_done
  | cons x r ih =>
    intro prev cnt
    cases x with
    | eof => exact chunksOf_chunk _ chunksOf_done
    | err => exact chunksOf_chunk _ chunksOf_done
    | byte c =>
      simp only [rleChunksLoop, rleLoop]
      split
      · exact chunksOf_andThen _ fun l => chunksOf_chunk _ (ih _ _)
      · exact chunksOf_andThen _ fun l => ih _ _

theorem rleZero_chunksOf (m : Build) (r : Reader) : ∀ cnt,
    ChunksOf (rleZeroChunksLoop m r cnt) (rleZeroLoop m r cnt) := by
  have hend : ∀ cnt, ChunksOf (rleZeroChunksEnd cnt) (rleZeroEnd cnt) := fun cnt => by
    unfold rleZeroChunksEnd rleZeroEnd
    split
    · exact chunksOf_chunk _ chunksOf_done
    · exact chunksOf_done
  induction r with
  | nil => exact hend
  | cons x r ih =>
    intro cnt
    cases x with
    | eof => exact hend cnt
    | err => exact hend cnt
    | byte c =>
      simp only [rleZeroChunksLoop, rleZeroLoop]
      split
      · split
        · exact chunksOf_chunk _ (ih _)
        · exact chunksOf_andThen _ fun l => chunksOf_chunk _ (ih _)
      · exact chunksOf_andThen _ fun l => ih _

theorem rle_chunksOf (m : Build) (human onlyzero : Bool) (r : Reader) :
    ChunksOf (rleChunks m human onlyzero r) (rleDispatch m human onlyzero r) := by
  rcases hr : readChar r with ⟨_ | first, r'⟩
  · have e1 : rleChunks m human onlyzero r = doneC := by simp [rleChunks, hr]
    have e2 : rleDispatch m human onlyzero r = done := by
      cases human <;> cases onlyzero <;> simp [rleDispatch, rleText, rleZero, rle, hr]
    rw [e1, e2]; exact chunksOf_done
  · cases human <;> cases onlyzero <;> simp only [rleChunks, rleDispatch, rleText, rleZero, rle, hr, if_true,
      Bool.false_eq_true, if_false]
    · exact rleLoop_chunksOf m r' first 0
    · by_cases h : first = 48
      · simpa [h] using rleZero_chunksOf m r' 1
      · simpa [h] using chunksOf_chunk [first] (rleZero_chunksOf m r' 0)
    · exact rleText_chunksOf m r' first 0
    · exact rleText_chunksOf m r' first 0

theorem escapeLoop_chunksOf (a : EscapeArgs) : ∀ (n : Nat) (r : Reader),
    ChunksOf (escapeChunksLoop a n r) (escapeLoop a n r) := by
  intro n
  induction n with
  | zero => intro r; exact chunksOf_done
  | succ n ih =>
    intro r
    rcases r with _ | ⟨x, r⟩
    · exact chunksOf_done
    · cases x with
      | eof => exact chunksOf_done
      | err => exact chunksOf_done
      | byte c =>
        simp only [escapeChunksLoop, escapeLoop]
        split
        · exact chunksOf_chunk _ (ih r)
        · cases lookupLast a.fromSymbols a.toSymbols c with
          | some d => exact chunksOf_chunk _ (ih r)
          | none => exact chunksOf_chunk _ (ih r)

theorem unescapeLoop_chunksOf (a : EscapeArgs) : ∀ (n : Nat) (r : Reader),
    ChunksOf (unescapeChunksLoop a n r) (unescapeLoop a n r) := by
  intro n
  induction n with
  | zero => intro r; exact chunksOf_done
  | succ n ih =>
    intro r
    rcases r with _ | ⟨x, r⟩
    · exact chunksOf_done
    · cases x with
      | eof => exact chunksOf_done
      | err => exact chunksOf_done
      | byte c =>
        simp only [unescapeChunksLoop, unescapeLoop]
        split
        · rcases r with _ | ⟨y, r⟩
          · exact chunksOf_error _
          · cases y with
            | eof => exact chunksOf_error _
            | err => exact chunksOf_error _
            | byte d =>
              simp only
              split
              · exact chunksOf_chunk _ (ih r)
              · cases lookupLast a.toSymbols a.fromSymbols d with
                | some d => exact chunksOf_chunk _ (ih r)
                | none => exact chunksOf_error _
        · exact chunksOf_chunk _ (ih r)

theorem escape_chunksOf (a : EscapeArgs) (r : Reader) : ChunksOf (escapeChunks a r) (escapeMain a r) := by
  unfold escapeChunks escapeMain
  split
  · exact chunksOf_error _
  split
  · exact chunksOf_error _
  split
  · exact chunksOf_error _
  split
  · exact chunksOf_error _
  split
  · exact unescapeLoop_chunksOf a _ r
  · exact escapeLoop_chunksOf a _ r

/-- A program that computes a text and writes it. -/
def writesText (x : Res (List UInt8)) : Out :=
  match x with
  | .ok text => (text, .ok ())
  | .error e => ([], .error e)

theorem oneChunk_chunksOf (x : Res (List UInt8)) : ChunksOf (oneChunk x) (writesText x) := by
  cases x with
  | ok a => exact ⟨by simp [oneChunk, andThenC, chunk, doneC, writesText], rfl⟩
  | error e => exact ⟨rfl, rfl⟩

theorem lyndonwords_chunksOf : ∀ (fuel : Nat) (g : LyndonWordGenerator),
    ChunksOf (lyndonwordsChunks fuel g) (lyndonwordsLoop fuel g) := by
  intro fuel
  induction fuel with
  | zero => intro g; exact ⟨rfl, rfl⟩
  | succ fuel ih =>
    intro g
    simp only [lyndonwordsChunks, lyndonwordsLoop]
    cases g.next with
    | error e => exact ⟨rfl, rfl⟩
    | ok p =>
      rcases p with ⟨_ | w, g⟩
      · exact ⟨rfl, rfl⟩
      · simp only
        cases lyndonLine w with
        | error e => exact ⟨rfl, rfl⟩
        | ok l =>
          refine ⟨?_, (ih g).2⟩
          simp only [andThenC, chunk, emit, List.flatten_cons, (ih g).1, List.append_assoc]

theorem lyndonwords_lines : ∀ (fuel : Nat) (g : LyndonWordGenerator), (lyndonwordsLoop fuel g).1 = [] ∨
    (lyndonwordsLoop fuel g).1.getLast? = some 10 := by
  intro fuel
  induction fuel with
  | zero => intro g; exact .inl rfl
  | succ fuel ih =>
    intro g
    simp only [lyndonwordsLoop]
    cases g.next with
    | error e => exact .inl rfl
    | ok p =>
      rcases p with ⟨_ | w, g⟩
      · exact .inl rfl
      · simp only
        cases lyndonLine w with
        | error e => exact .inl rfl
        | ok l =>
          right
          simp only [emit]
          rw [List.getLast?_append]
          rcases ih g with h | h
          · simp [h]
          · simp [h]

theorem factors_chunksOf (fs : List LZFactor) : ChunksOf (factorChunks fs) (factorBytes fs, .ok ()) := by
  refine ⟨?_, rfl⟩
  simp only [factorChunks, factorBytes, List.flatMap]

theorem randomstring_chunksOf (out : List UInt8) : ChunksOf (randomstringChunks out) (out, .ok ()) := by
  refine ⟨?_, rfl⟩
  simp only [randomstringChunks]
  induction out with
  | nil => rfl
  | cons c out ih => simp [ih]

theorem lyndonRecord_chunks (text : List UInt8) (factors : List Nat) (id : Nat) :
    lyndonFileRecord text factors id = (lyndonRecordChunks text factors id).map List.flatten := by
  unfold lyndonFileRecord lyndonRecordChunks
  cases usub id 1 with
  | error e => rfl
  | ok i =>
    simp only [bind, Except.bind]
    cases rd factors i with
    | error e => rfl
    | ok p =>
      simp only
      cases rd factors id with
      | error e => rfl
      | ok e =>
        simp only
        cases slice text (p + 1) (e + 1) with
        | error e => rfl
        | ok body => simp [pure, Except.pure, Except.map, List.append_assoc]

theorem lyndonLoop_chunks (text : List UInt8) (factors : List Nat) : ∀ (n id : Nat) (out file : List UInt8),
    lyndonFileLoop text factors n id out = .ok file →
    (lyndonChunksLoop text factors n id).2 = .ok () ∧ out ++ (lyndonChunksLoop text factors n id).1.flatten = file := by
  intro n
  induction n with
  | zero =>
    intro id out file h
    simp only [lyndonFileLoop, Except.ok.injEq] at h
    exact ⟨rfl, by simp [lyndonChunksLoop, doneC, h]⟩
  | succ n ih =>
    intro id out file h
    simp only [lyndonFileLoop, bind, Except.bind] at h
    simp only [lyndonChunksLoop]
    cases hs : lyndonFileStop text factors id with
    | error e => rw [hs] at h; cases h
    | ok stop =>
      rw [hs] at h
      cases stop with
      | true =>
        simp only [if_true, pure, Except.pure, Except.ok.injEq] at h
        exact ⟨rfl, by simp [andThenC, doneC, h]⟩
      | false =>
        simp only [Bool.false_eq_true, if_false, lyndonRecord_chunks] at h
        cases hr : lyndonRecordChunks text factors id with
        | error e => rw [hr] at h; simp [Except.map] at h
        | ok r =>
          rw [hr] at h
          simp only [Except.map] at h
          obtain ⟨a, b⟩ := ih _ _ _ h
          simp only [andThenC, Bool.false_eq_true, if_false]
          exact ⟨a, by rw [List.flatten_append, ← List.append_assoc]; exact b⟩

/-- The chunks of the report are the report of `lyndonfactorization` (C55, C77). -/
theorem lyndon_chunksOf (text : List UInt8) (factors : List Nat) (z : Nat) (file : List UInt8)
    (hd : duval text = .ok factors) (h : lyndonfactorizationMain text = .ok (z, file)) :
    ChunksOf (lyndonChunks text factors) (file, .ok ()) := by
  unfold lyndonfactorizationMain at h
  rw [hd] at h
  simp only [bind, Except.bind] at h
  cases hl : factors.getLast? with
  | none => rw [hl] at h; cases h
  | some e =>
    rw [hl] at h
    simp only at h
    cases ha : assertR (decide (e + 1 = text.length)) with
    | error e => rw [ha] at h; cases h
    | ok u =>
      rw [ha] at h
      simp only at h
      unfold lyndonChunks
      cases h0 : rd factors 0 with
      | error e => rw [h0] at h; cases h
      | ok e0 =>
        rw [h0] at h
        simp only at h
        cases h1 : slice text 0 (e0 + 1) with
        | error e => rw [h1] at h; cases h
        | ok first =>
          rw [h1] at h
          simp only at h
          cases h2 : lyndonFileLoop text factors (factors.length - 1) 1 (ascii ">Factor 1\n" ++ first) with
          | error e => rw [h2] at h; cases h
          | ok out =>
            rw [h2] at h
            simp only [pure, Except.pure, Except.ok.injEq, Prod.mk.injEq] at h
            obtain ⟨a, b⟩ := lyndonLoop_chunks text factors _ _ _ _ h2
            refine ⟨?_, by simp only [andThenC, chunk, h1]; exact a⟩
            simp only [andThenC, chunk, List.flatten_cons, h1]
            rw [← h.2, ← b, List.append_assoc]

/-! ### C110 -/

/-- C110 for `mtf`, `rle` (all modes), `escape`, `reverse` and `bwt`, writing to a file or to the standard output: a run
that ends normally has delivered everything. -/
theorem C110_filters_partial (cap : Nat) (toFile : Bool) (d : Device) :
    (∀ r, Complete d (mtf r) (mtfOn cap toFile r d)) ∧
    (∀ m human onlyzero r, Complete d (rleDispatch m human onlyzero r) (rleOn cap toFile m human onlyzero r d)) ∧
    (∀ a r, Complete d (escapeMain a r) (escapeOn cap toFile a r d)) ∧
    (∀ text, Complete d (text.reverse, .ok ()) (reverseOn cap toFile text d)) ∧
    (∀ sufsort useMatrix noDollar input, Complete d (writesText (bwtTool sufsort useMatrix noDollar input))
      (bwtOn cap toFile sufsort useMatrix noDollar input d)) :=
  ⟨fun r => complete_runOn _ _ _ _ _ (mtf_chunksOf r).1 (mtf_chunksOf r).2 (.inr rfl),
   fun m h o r => complete_runOn _ _ _ _ _ (rle_chunksOf m h o r).1 (rle_chunksOf m h o r).2 (.inr rfl),
   fun a r => complete_runOn _ _ _ _ _ (escape_chunksOf a r).1 (escape_chunksOf a r).2 (.inr rfl),
   fun text => complete_runOn _ _ _ _ (text.reverse, .ok ()) (oneChunk_chunksOf (.ok text.reverse)).1
     (oneChunk_chunksOf (.ok text.reverse)).2 (.inr rfl),
   fun s u n i => complete_runOn _ _ _ _ _ (oneChunk_chunksOf (bwtTool s u n i)).1
     (oneChunk_chunksOf (bwtTool s u n i)).2 (.inr rfl)⟩

/-- C110 for the unbuffered files written by `word`, `randomstring`, `lyndonwords`, `count_z` and `count_lexparse`. -/
theorem C110_files_partial (cap : Nat) (d : Device) :
    (∀ est fuel name k, Complete d (writesText (wordOf est fuel name k)) (wordOn cap true est fuel name k d)) ∧
    (∀ out, Complete d (out, .ok ()) (randomstringOn cap true out d)) ∧
    (∀ fuel length sigma, Complete d (lyndonwordsLoop fuel (LyndonWordGenerator.new length sigma))
      (lyndonwordsOn cap true fuel length sigma d)) ∧
    (∀ fs, Complete d (factorBytes fs, .ok ()) (factorsOn fs d)) :=
  ⟨fun e f n k => complete_runOn _ _ _ _ _ (oneChunk_chunksOf (wordOf e f n k)).1 (oneChunk_chunksOf _).2 (.inl rfl),
   fun out => complete_runOn _ _ _ _ (out, .ok ()) (randomstring_chunksOf out).1 (randomstring_chunksOf out).2 (.inl rfl),
   fun f _ _ => complete_runOn _ _ _ _ _ (lyndonwords_chunksOf f _).1 (lyndonwords_chunksOf f _).2 (.inl rfl),
   fun fs => complete_runOn _ _ _ _ (factorBytes fs, .ok ()) (factors_chunksOf fs).1 (factors_chunksOf fs).2 (.inl rfl)⟩

/-- C110 for line output on the standard output: `lyndonwords`, and every tool that prints complete lines with `println!`,
however the lines are divided into calls. -/
theorem C110_lines_partial (cap : Nat) (d : Device) :
    (∀ fuel length sigma, Complete d (lyndonwordsLoop fuel (LyndonWordGenerator.new length sigma))
      (lyndonwordsOn cap false fuel length sigma d)) ∧
    (∀ (α : Type) (pieces : List (List UInt8)) (out : List UInt8) (r : Res α), pieces.flatten = out →
      (out = [] ∨ out.getLast? = some 10) → Complete d (out, r) (printOn cap pieces r d)) :=
  ⟨fun f _ _ => complete_lines cap _ d _ (lyndonwords_chunksOf f _).1 (lyndonwords_chunksOf f _).2
      (fun _ _ => lyndonwords_lines f _),
   fun _ pieces out r h hn => complete_lines cap (pieces, r) d (out, r) h rfl (fun _ _ => hn)⟩

/-- Without a final `flush` (`word` and `randomstring` on the standard output, the report of `lyndonfactorization`) a run
that ends normally can lose the end of its output: at most `cap` bytes, on the standard output only within the last
line. -/
theorem C110_unflushed_partial (cap : Nat) (d : Device) :
    (∀ est fuel name k text, wordOf est fuel name k = .ok text → (wordOn cap false est fuel name k d).2 = .ok () →
      ∃ lost, (wordOn cap false est fuel name k d).1.content ++ lost = d.content ++ text ∧ lost.length ≤ cap ∧
        (10 : UInt8) ∉ lost) ∧
    (∀ out, (randomstringOn cap false out d).2 = .ok () →
      ∃ lost, (randomstringOn cap false out d).1.content ++ lost = d.content ++ out ∧ lost.length ≤ cap ∧
        (10 : UInt8) ∉ lost) ∧
    (∀ text factors z file, duval text = .ok factors → lyndonfactorizationMain text = .ok (z, file) →
      (lyndonReportOn cap text factors d).2 = .ok () →
      ∃ lost, (lyndonReportOn cap text factors d).1.content ++ lost = d.content ++ file ∧ lost.length ≤ cap) := by
  refine ⟨fun e f n k text ht h => ?_, fun out h => ?_, fun text factors z file hd hm h => ?_⟩
  · obtain ⟨lost, a, b, c⟩ := lost_runOn _ cap (.inl rfl) _ d () h
    refine ⟨lost, ?_, b, c rfl⟩
    have e1 : (oneChunk (wordOf e f n k)).1.flatten = text := by
      rw [(oneChunk_chunksOf (wordOf e f n k)).1, ht]; rfl
    rw [e1] at a
    exact a
  · obtain ⟨lost, a, b, c⟩ := lost_runOn _ cap (.inl rfl) _ d () h
    refine ⟨lost, ?_, b, c rfl⟩
    rw [(randomstring_chunksOf out).1] at a
    exact a
  · obtain ⟨lost, a, b, -⟩ := lost_runOn _ cap (.inr rfl) _ d () h
    refine ⟨lost, ?_, b⟩
    rw [(lyndon_chunksOf text factors z file hd hm).1] at a
    exact a

/-- C110 is false of `word`, `randomstring` and `lyndonfactorization -o`: if the device refuses every write (a full disk, a
closed pipe), every output smaller than the buffer disappears and the tool ends normally. -/
theorem C110_refuted (cap : Nat) (d : Device) (hd : d.Dead) :
    (∀ est fuel name k text, wordOf est fuel name k = .ok text → text.length < cap → (10 : UInt8) ∉ text →
      (wordOn cap false est fuel name k d).2 = .ok () ∧ (wordOn cap false est fuel name k d).1.content = d.content) ∧
    (∀ out : List UInt8, out.length < cap → (10 : UInt8) ∉ out →
      (randomstringOn cap false out d).2 = .ok () ∧ (randomstringOn cap false out d).1.content = d.content) ∧
    (∀ text factors z file, duval text = .ok factors → lyndonfactorizationMain text = .ok (z, file) → file.length < cap →
      (lyndonReportOn cap text factors d).2 = .ok () ∧
      (lyndonReportOn cap text factors d).1.content = d.content) := by
  refine ⟨fun e f n k text ht hl hn => ?_, fun out hl hn => ?_, fun text factors z file hf hm hl => ?_⟩
  · have e1 := oneChunk_chunksOf (wordOf e f n k)
    rw [ht] at e1
    have e2 : (oneChunk (wordOf e f n k)).1.flatten = text := by rw [ht]; exact e1.1
    obtain ⟨a, b⟩ := dead_runOn (.stdout cap) cap (oneChunk (wordOf e f n k)) d (.inr ⟨rfl, by rwa [e2]⟩)
      (by rw [e2]; exact hl) hd
    refine ⟨?_, ?_⟩
    · show (runOn _ _ _ _).2 = _
      simp only [streamOrStdout, Bool.false_eq_true, if_false]
      rw [b, ht]; rfl
    · show (runOn _ _ _ _).1.content = _
      simp only [streamOrStdout, Bool.false_eq_true, if_false]
      rw [Device.content, a]; rfl
  · have e1 := randomstring_chunksOf out
    obtain ⟨a, b⟩ := dead_runOn (.stdout cap) cap (randomstringChunks out) d (.inr ⟨rfl, by rwa [e1.1]⟩)
      (by rw [e1.1]; exact hl) hd
    refine ⟨b.trans e1.2, ?_⟩
    show (runOn _ _ _ _).1.content = _
    simp only [streamOrStdout, Bool.false_eq_true, if_false]
    rw [Device.content, a]; rfl
  · have e1 := lyndon_chunksOf text factors z file hf hm
    obtain ⟨a, b⟩ := dead_runOn (.buffered cap) cap (lyndonChunks text factors) d (.inl rfl)
      (by rw [e1.1]; exact hl) hd
    refine ⟨b.trans e1.2, ?_⟩
    show (runOn _ _ _ _).1.content = _
    rw [Device.content, a]; rfl

example := C110_refuted 1024 ⟨[], true, [[97]]⟩ ⟨rfl, rfl⟩

/-! ### C111 -/

/-- C111: whatever the device does, and whenever the process is stopped, the device holds what it held before followed by
a prefix of the output of the tool. -/
theorem C111_only_prefixes (cap : Nat) (toFile : Bool) (d : Device) :
    (∀ r, OnlyPrefixes d (mtf r).1 (mtfOn cap toFile r d)) ∧
    (∀ m human onlyzero r, OnlyPrefixes d (rleDispatch m human onlyzero r).1 (rleOn cap toFile m human onlyzero r d)) ∧
    (∀ a r, OnlyPrefixes d (escapeMain a r).1 (escapeOn cap toFile a r d)) ∧
    (∀ text, OnlyPrefixes d text.reverse (reverseOn cap toFile text d)) ∧
    (∀ sufsort useMatrix noDollar input, OnlyPrefixes d (writesText (bwtTool sufsort useMatrix noDollar input)).1
      (bwtOn cap toFile sufsort useMatrix noDollar input d)) ∧
    (∀ est fuel name k, OnlyPrefixes d (writesText (wordOf est fuel name k)).1 (wordOn cap toFile est fuel name k d)) ∧
    (∀ out, OnlyPrefixes d out (randomstringOn cap toFile out d)) ∧
    (∀ fuel length sigma, OnlyPrefixes d (lyndonwordsLoop fuel (LyndonWordGenerator.new length sigma)).1
      (lyndonwordsOn cap toFile fuel length sigma d)) ∧
    (∀ fs, OnlyPrefixes d (factorBytes fs) (factorsOn fs d)) ∧
    (∀ text factors z file, duval text = .ok factors → lyndonfactorizationMain text = .ok (z, file) →
      OnlyPrefixes d file (lyndonReportOn cap text factors d)) ∧
    (∀ (α : Type) (pieces : List (List UInt8)) (r : Res α), OnlyPrefixes d pieces.flatten (printOn cap pieces r d)) :=
  ⟨fun r => onlyPrefixes_runOn _ _ _ _ _ (mtf_chunksOf r).1,
   fun m h o r => onlyPrefixes_runOn _ _ _ _ _ (rle_chunksOf m h o r).1,
   fun a r => onlyPrefixes_runOn _ _ _ _ _ (escape_chunksOf a r).1,
   fun text => onlyPrefixes_runOn _ _ _ _ _ (oneChunk_chunksOf (.ok text.reverse)).1,
   fun s u n i => onlyPrefixes_runOn _ _ _ _ _ (oneChunk_chunksOf (bwtTool s u n i)).1,
   fun e f n k => onlyPrefixes_runOn _ _ _ _ _ (oneChunk_chunksOf (wordOf e f n k)).1,
   fun out => onlyPrefixes_runOn _ _ _ _ _ (randomstring_chunksOf out).1,
   fun f _ _ => onlyPrefixes_runOn _ _ _ _ _ (lyndonwords_chunksOf f _).1,
   fun fs => onlyPrefixes_runOn _ _ _ _ _ (factors_chunksOf fs).1,
   fun t f z file hd hm => onlyPrefixes_runOn _ _ _ _ _ (lyndon_chunksOf t f z file hd hm).1,
   fun _ pieces r => onlyPrefixes_runOn _ _ (pieces, r) _ _ rfl⟩

/-! ### C112 -/

/-- The run of `prog` on a device that never refuses: everything arrives and the program ends as it should. -/
def Undisturbed {α : Type} (d : Device) (prog : List UInt8 × Res α) (run : Device × Res α) : Prop :=
  run.1.content = d.content ++ prog.1 ∧ run.2 = prog.2

/-- C112: taking data in arbitrarily small pieces and interrupting calls changes neither what arrives nor how a tool ends,
for every writer, flushed or not. -/
theorem C112_pieces_and_interruptions (cap : Nat) (toFile : Bool) (d : Device) (hw : d.Willing) :
    (∀ r, Undisturbed d (mtf r) (mtfOn cap toFile r d)) ∧
    (∀ m human onlyzero r, Undisturbed d (rleDispatch m human onlyzero r) (rleOn cap toFile m human onlyzero r d)) ∧
    (∀ a r, Undisturbed d (escapeMain a r) (escapeOn cap toFile a r d)) ∧
    (∀ text, Undisturbed d (text.reverse, .ok ()) (reverseOn cap toFile text d)) ∧
    (∀ sufsort useMatrix noDollar input, Undisturbed d (writesText (bwtTool sufsort useMatrix noDollar input))
      (bwtOn cap toFile sufsort useMatrix noDollar input d)) ∧
    (∀ est fuel name k, Undisturbed d (writesText (wordOf est fuel name k)) (wordOn cap toFile est fuel name k d)) ∧
    (∀ out, Undisturbed d (out, .ok ()) (randomstringOn cap toFile out d)) ∧
    (∀ fuel length sigma, Undisturbed d (lyndonwordsLoop fuel (LyndonWordGenerator.new length sigma))
      (lyndonwordsOn cap toFile fuel length sigma d)) ∧
    (∀ fs, Undisturbed d (factorBytes fs, .ok ()) (factorsOn fs d)) ∧
    (∀ text factors z file, duval text = .ok factors → lyndonfactorizationMain text = .ok (z, file) →
      Undisturbed d (file, .ok ()) (lyndonReportOn cap text factors d)) ∧
    (∀ (α : Type) (pieces : List (List UInt8)) (r : Res α), Undisturbed d (pieces.flatten, r) (printOn cap pieces r d)) :=
  ⟨fun r => willing_runOn _ _ _ _ _ (mtf_chunksOf r).1 (mtf_chunksOf r).2 hw,
   fun m h o r => willing_runOn _ _ _ _ _ (rle_chunksOf m h o r).1 (rle_chunksOf m h o r).2 hw,
   fun a r => willing_runOn _ _ _ _ _ (escape_chunksOf a r).1 (escape_chunksOf a r).2 hw,
   fun text => willing_runOn _ _ _ _ (text.reverse, .ok ()) (oneChunk_chunksOf (.ok text.reverse)).1
     (oneChunk_chunksOf (.ok text.reverse)).2 hw,
   fun s u n i => willing_runOn _ _ _ _ _ (oneChunk_chunksOf (bwtTool s u n i)).1 (oneChunk_chunksOf _).2 hw,
   fun e f n k => willing_runOn _ _ _ _ _ (oneChunk_chunksOf (wordOf e f n k)).1 (oneChunk_chunksOf _).2 hw,
   fun out => willing_runOn _ _ _ _ (out, .ok ()) (randomstring_chunksOf out).1 (randomstring_chunksOf out).2 hw,
   fun f _ _ => willing_runOn _ _ _ _ _ (lyndonwords_chunksOf f _).1 (lyndonwords_chunksOf f _).2 hw,
   fun fs => willing_runOn _ _ _ _ (factorBytes fs, .ok ()) (factors_chunksOf fs).1 (factors_chunksOf fs).2 hw,
   fun t f z file hd hm => willing_runOn _ _ _ _ (file, .ok ()) (lyndon_chunksOf t f z file hd hm).1
     (lyndon_chunksOf t f z file hd hm).2 hw,
   fun _ pieces r => willing_runOn _ _ (pieces, r) _ _ rfl rfl hw⟩

example := C112_pieces_and_interruptions 1024 false ⟨[.accept 1, .interrupted, .accept 3], false, []⟩ ⟨rfl, by decide⟩

/-- A scripted device: two bytes, an interruption, two bytes, then everything. -/
def exampleWilling : Device := ⟨[.accept 2, .interrupted, .accept 2], false, [[9]]⟩

example : exampleWilling.Willing := by
  refine ⟨rfl, ?_⟩
  decide

example : reverseOn 4 false [1, 2, 3, 4, 5, 6, 7] exampleWilling =
    (⟨[], false, [[9], [7, 6], [5, 4], [3, 2, 1]]⟩, .ok ()) := by decide +kernel

/-- A full disk. -/
def exampleDead : Device := ⟨[], true, []⟩

example : exampleDead.Dead := ⟨rfl, rfl⟩

example : reverseOn 1024 false [1, 2, 3] exampleDead = (⟨[], true, []⟩, .error .unwrap) := by decide +kernel
example : randomstringOn 1024 false [97, 98] exampleDead = (⟨[], true, []⟩, .ok ()) := by decide +kernel
example : randomstringOn 1024 true [97, 98] exampleDead = (⟨[], true, []⟩, .error .unwrap) := by decide +kernel
-- "ba" has the factors b and a; its report has 32 bytes and is lost
example : duval [98, 97] = .ok [0, 1] ∧ (lyndonfactorizationMain [98, 97]).map (·.2.length) = .ok 32 ∧
    lyndonReportOn 8192 [98, 97] [0, 1] exampleDead = (⟨[], true, []⟩, .ok ()) := by decide +kernel
example : lyndonReportOn 8 [98, 97] [0, 1] exampleDead = (⟨[], true, []⟩, .error .unwrap) := by decide +kernel

end Verif.Props
