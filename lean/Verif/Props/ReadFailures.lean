import Verif.Model.Devices

/-! # C113: a failed read is not taken for the end of the input -/

namespace Verif.Props

open Verif Spec Model

theorem readToEndA_eq (s : List ReadAnswer) :
    readToEndA s = match inputBytes s with | some t => .ok t | none => .error .unwrap := by
  induction s with
  | nil => rfl
  | cons a s ih =>
    cases a with
    | eof => rfl
    | interrupted => exact ih
    | fail => rfl
    | data b bs =>
      simp only [readToEndA, inputBytes, ih]
      cases inputBytes s <;> rfl

theorem readExactA_eq (s : List ReadAnswer) : ∀ n,
    readExactA n s = if n ≤ (available s).length then .ok ((available s).take n) else .error .unwrap := by
  induction s with
  | nil => intro n; cases n <;> simp [readExactA, available]
  | cons a s ih =>
    intro n
    cases n with
    | zero => simp [readExactA]
    | succ n =>
      cases a with
      | eof => simp [readExactA, available]
      | interrupted => simp only [readExactA, available]; exact ih _
      | fail => simp [readExactA, available]
      | data b bs =>
        rw [show available (.data b bs :: s) = b :: bs ++ available s from rfl]
        simp only [readExactA, ih]
        by_cases h : n - bs.length ≤ (available s).length
        · rw [if_pos h, if_pos (by simp; omega)]
          simp [Except.map, List.take_append]
        · rw [if_neg h, if_neg (by simp; omega)]
          rfl

/-- The input is read to its end without error: what is available is all of it. -/
theorem available_of_inputBytes (s : List ReadAnswer) (t : List UInt8) (h : inputBytes s = some t) : available s = t := by
  induction s generalizing t with
  | nil => simpa [inputBytes, available] using h
  | cons a s ih =>
    cases a with
    | eof => simpa [inputBytes, available] using h
    | interrupted => exact ih t h
    | fail => simp [inputBytes] at h
    | data b bs =>
      simp only [inputBytes, Option.map_eq_some_iff] at h
      obtain ⟨u, hu, rfl⟩ := h
      simp [available, ih u hu]

/-- C113 for the tools that read the whole input or a prefix of it into memory (`reverse`, `bwt`, the counting tools,
`lyndonfactorization`, `mus`, `is_stringattractor`, `entropy`): without a prefix length the text is the whole input, or
reading failed and the program panics; with one it is exactly the requested prefix, or there are not that many bytes before
the end or the first error, and it panics.  Interrupted calls and the division into pieces never matter. -/
theorem C113_vectors_partial (stdin : List ReadAnswer) (p : Nat) :
    stdin2byteVectorA stdin p =
      if p = 0 then (match inputBytes stdin with | some t => .ok t | none => .error .unwrap)
      else if p ≤ (available stdin).length then .ok ((available stdin).take p) else .error .unwrap := by
  unfold stdin2byteVectorA
  by_cases h : p = 0
  · subst h; simpa using readToEndA_eq stdin
  · rw [if_pos (by omega), if_neg h]
    exact readExactA_eq stdin p

/-- The same for a file of which the operating system reported the length. -/
theorem C113_files_partial (metaLen p : Nat) (file : List ReadAnswer) :
    file2byteVectorA metaLen file p =
      if (if p = 0 then metaLen else min p metaLen) ≤ (available file).length
      then .ok ((available file).take (if p = 0 then metaLen else min p metaLen)) else .error .unwrap := by
  unfold file2byteVectorA
  by_cases h : p = 0
  · subst h; simpa using readExactA_eq file metaLen
  · rw [if_pos (by omega), if_neg h]
    exact readExactA_eq file _

/-- On an input that is read without error both agree with the models used in the other claims. -/
theorem C113_models_agree (input : List ReadAnswer) (t : List UInt8) (h : inputBytes input = some t)
    (hlen : t.length < 2 ^ 64) (p : Nat) :
    stdin2byteVectorA input p = stdin2byteVector t p ∧
      file2byteVectorA t.length input p = file2byteVector (some ⟨t, t.length⟩) p := by
  have ha := available_of_inputBytes input t h
  refine ⟨?_, ?_⟩
  · rw [C113_vectors_partial, h, ha]
    unfold stdin2byteVector readExact
    by_cases hp : p = 0
    · subst hp; simp
    · simp [hp, Nat.pos_of_ne_zero hp]
  · rw [C113_files_partial, ha]
    have e : (if p = 0 then t.length else min p t.length) = if p > 0 then min p t.length else t.length := by
      by_cases hp : p = 0
      · simp [hp]
      · rw [if_neg hp, if_pos (by omega)]
    have hle : (if p > 0 then min p t.length else t.length) ≤ t.length := by split <;> omega
    rw [e]
    unfold file2byteVector readExact
    simp only
    generalize (if p > 0 then min p t.length else t.length) = q at hle
    have hq : q ≤ 18446744073709551615 := by omega
    simp [assertR, hq, hle, bind, Except.bind]

example := C113_models_agree [.data 97 [98], .interrupted, .data 99 [100], .eof] [97, 98, 99, 100] (by decide +kernel) (by decide) 3

/-! ### the tools that read byte by byte -/

theorem mtf_err (x : List UInt8) (r r' : Reader) : ∀ v,
    mtfLoop (x.map .byte ++ .err :: r) v = mtfLoop (x.map .byte ++ .eof :: r') v := by
  induction x with
  | nil => intro v; rfl
  | cons c x ih =>
    intro v
    simp only [List.map_cons, List.cons_append, mtfLoop]
    congr 1; funext pos
    congr 1; funext v
    rw [ih]

theorem rleText_err (m : Build) (x : List UInt8) (r r' : Reader) : ∀ p c,
    rleTextLoop m (x.map .byte ++ .err :: r) p c = rleTextLoop m (x.map .byte ++ .eof :: r') p c := by
  induction x with
  | nil => intro p c; rfl
  | cons d x ih => intro p c; simp only [List.map_cons, List.cons_append, rleTextLoop, ih]

theorem rle_err (m : Build) (x : List UInt8) (r r' : Reader) : ∀ p c,
    rleLoop m (x.map .byte ++ .err :: r) p c = rleLoop m (x.map .byte ++ .eof :: r') p c := by
  induction x with
  | nil => intro p c; rfl
  | cons d x ih => intro p c; simp only [List.map_cons, List.cons_append, rleLoop, ih]

theorem rleZero_err (m : Build) (x : List UInt8) (r r' : Reader) : ∀ c,
    rleZeroLoop m (x.map .byte ++ .err :: r) c = rleZeroLoop m (x.map .byte ++ .eof :: r') c := by
  induction x with
  | nil => intro c; rfl
  | cons d x ih => intro c; simp only [List.map_cons, List.cons_append, rleZeroLoop, ih]

theorem rleDispatch_err (m : Build) (human onlyzero : Bool) (x : List UInt8) (r r' : Reader) :
    rleDispatch m human onlyzero (x.map .byte ++ .err :: r) = rleDispatch m human onlyzero (x.map .byte ++ .eof :: r') := by
  cases x with
  | nil => cases human <;> cases onlyzero <;> rfl
  | cons c x =>
    cases human <;> cases onlyzero <;>
      simp [rleDispatch, rle, rleZero, rleText, readChar, rle_err m x r r', rleZero_err m x r r', rleText_err m x r r']

theorem escape_err (a : EscapeArgs) (r r' : Reader) : ∀ (n : Nat) (x : List UInt8),
    escapeLoop a n (x.map .byte ++ .err :: r) = escapeLoop a n (x.map .byte ++ .eof :: r') := by
  intro n
  induction n with
  | zero => intro x; simp [escapeLoop]
  | succ n ih =>
    intro x
    cases x with
    | nil => rfl
    | cons c x => simp only [List.map_cons, List.cons_append, escapeLoop, ih]

theorem unescape_err (a : EscapeArgs) (r r' : Reader) : ∀ (n : Nat) (x : List UInt8),
    unescapeLoop a n (x.map .byte ++ .err :: r) = unescapeLoop a n (x.map .byte ++ .eof :: r') := by
  intro n
  induction n with
  | zero => intro x; simp [unescapeLoop]
  | succ n ih =>
    intro x
    cases x with
    | nil => rfl
    | cons c x =>
      cases x with
      | nil =>
        have := ih []
        simp only [List.map_nil, List.nil_append] at this
        simp only [List.map_cons, List.map_nil, List.cons_append, List.nil_append, unescapeLoop, this]
      | cons d x =>
        have := ih (d :: x)
        simp only [List.map_cons, List.cons_append] at this
        simp only [List.map_cons, List.cons_append, unescapeLoop, ih, this]

theorem runs_err (x : List UInt8) (r r' : Reader) : ∀ p n,
    numberOfRunsLoop (x.map .byte ++ .err :: r) p n = numberOfRunsLoop (x.map .byte ++ .eof :: r') p n := by
  induction x with
  | nil => intro p n; rfl
  | cons c x ih => intro p n; simp only [List.map_cons, List.cons_append, numberOfRunsLoop, ih]

/-- The input: the bytes `x`, then the given answer. -/
def bytesThen (x : List UInt8) (a : ReadAnswer) (rest : List ReadAnswer) : List ReadAnswer :=
  match x with
  | [] => a :: rest
  | b :: bs => .data b bs :: a :: rest

theorem charReader_bytesThen (x : List UInt8) (a : ReadAnswer) (rest : List ReadAnswer) :
    charReader (bytesThen x a rest) = x.map .byte ++ charReader (a :: rest) := by
  cases x with
  | nil => simp [bytesThen]
  | cons b bs => rw [bytesThen, charReader]

/-- C113 is false of the tools that read byte by byte (`mtf`, `rle`, `escape`, `count_runs`): after an error or an
interrupted call they do exactly what they do at the end of the input, so they write the result for the bytes read so far
and end normally if that input does; the rest of the input is ignored. -/
theorem C113_streams_refuted (x : List UInt8) (a : ReadAnswer) (ha : a = .fail ∨ a = .interrupted)
    (rest : List ReadAnswer) :
    mtf (charReader (bytesThen x a rest)) = mtf (charReader (bytesThen x .eof [])) ∧
    (∀ m human onlyzero, rleDispatch m human onlyzero (charReader (bytesThen x a rest)) =
      rleDispatch m human onlyzero (charReader (bytesThen x .eof []))) ∧
    (∀ args, escapeMain args (charReader (bytesThen x a rest)) = escapeMain args (charReader (bytesThen x .eof []))) ∧
    numberOfRuns (charReader (bytesThen x a rest)) = numberOfRuns (charReader (bytesThen x .eof [])) := by
  have e : charReader (bytesThen x a rest) = x.map .byte ++ .err :: charReader rest := by
    rw [charReader_bytesThen]
    rcases ha with rfl | rfl <;> rfl
  have e' : charReader (bytesThen x .eof []) = x.map .byte ++ .eof :: charReader [] := by
    rw [charReader_bytesThen]; rfl
  rw [e, e']
  refine ⟨mtf_err x _ _ _, fun m h o => rleDispatch_err m h o x _ _, fun args => ?_, ?_⟩
  · unfold escapeMain
    rw [escape_err args (charReader rest) (charReader []), unescape_err args (charReader rest) (charReader [])]
  · cases x with
    | nil => rfl
    | cons c x => simp only [List.map_cons, List.cons_append, numberOfRuns, readChar, runs_err x (charReader rest) (charReader [])]

-- an interrupted call after "ab" of the input "abcd": `mtf` encodes "ab" and ends normally
example : mtf (charReader [.data 97 [98], .interrupted, .data 99 [100], .eof]) = ([97, 98], .ok ()) := by decide +kernel
-- the tools that read into memory are not disturbed by it
example : stdin2byteVectorA [.data 97 [98], .interrupted, .data 99 [100], .eof] 0 = .ok [97, 98, 99, 100] := by
  decide +kernel
example : stdin2byteVectorA [.data 97 [98], .fail, .data 99 [100], .eof] 0 = .error .unwrap := by decide +kernel
example : stdin2byteVectorA [.data 97 [98], .fail, .data 99 [100], .eof] 2 = .ok [97, 98] := by decide +kernel
example : inputBytes [.data 97 [98], .interrupted, .data 99 [100], .eof] = some [97, 98, 99, 100] := by decide +kernel

example := C113_streams_refuted [97, 98] .interrupted (.inr rfl) [.data 99 [100], .eof]

end Verif.Props
