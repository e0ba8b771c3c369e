import Verif.Model.ToolLogs

/-! # Model of the log messages of `count_sigma`, `entropy`, `entropy_kmer`, `reverse` and `escape`

As in Verif/Model/ToolLogs.lean.  The other tools log nothing: `mtf`, `rle`, `count_runs`, `randomstring`, `lyndonwords`, `enumerate`,
`generator_kmer` contain no message, `word` and `enumerate_lexparse` never call `env_logger::init`. -/

namespace Verif.Model

open Verif Spec

/-- `main` of `count_sigma` up to the numbers it prints, with its messages.  src/bin/count_sigma.rs:47-71 -/
def countSigmaL (level : Nat) (m : Build) (inn : Option String) (prefixLength : Nat) (stdin : List UInt8) (w : World) :
    LogR (Nat × UInt8) := do
  logR level .info (ascii "filename: " ++ nameBytes (getFilename inn))
  logR level .info (ascii "args.prefixlength: " ++ decimal prefixLength)
  logR level .info (ascii "read text")
  let text ← quiet (readVector inn prefixLength stdin w)
  logR level .info (ascii "compute sigma")
  let sigma ← quiet (countSigma m text)
  pure (text.length, sigma)

/-- `main` of `entropy` up to the numbers it prints, with its messages.  src/bin/entropy.rs:160-198 -/
noncomputable def entropyL (level : Nat) (sufsort : List UInt8 → List Nat) (order : Nat) (inn : Option String) (prefixLength : Nat)
    (stdin : List UInt8) (w : World) : LogR (Nat × ℝ) := do
  logR level .info (ascii "input_filename: " ++ nameBytes (getFilename inn))
  logR level .info (ascii "prefix_length: " ++ decimal prefixLength)
  logR level .info (ascii "read text")
  let input ← quiet (readVector inn prefixLength stdin w)
  let text := input ++ [0]
  logR level .info (ascii "compute entropy")
  let h ← quiet (if order = 0 then zeroOrderEntropy text else kthOrderEntropy sufsort text order)
  pure (text.length, h)

/-- `main` of `entropy_kmer` up to the numbers it prints, with its messages; the two assertions come before `env_logger::init`.
src/bin/entropy_kmer.rs:143-178 -/
noncomputable def entropyKmerL (level : Nat) (order : Nat) (inn : Option String) (prefixLength : Nat) (stdin : List UInt8) (w : World) :
    LogR (Nat × ℝ) := do
  quiet (assertR (decide (order > 0)))
  quiet (assertR (decide (order ≤ 7)))
  logR level .info (ascii "input_filename: " ++ nameBytes (getFilename inn))
  logR level .info (ascii "prefix_length: " ++ decimal prefixLength)
  logR level .info (ascii "read text")
  let input ← quiet (readVector inn prefixLength stdin w)
  let text := input ++ [0]
  logR level .info (ascii "compute entropy")
  let e ← quiet (entropyViaKmerCounting text order)
  pure (e.2, e.1)

/-- `main` of `reverse` with its messages: the writer is opened before `env_logger::init`.  src/bin/reverse.rs:30-46 -/
def reverseL (level : Nat) (creatable : String → Bool) (inn out : Option String) (prefixLength : Nat) (stdin : List UInt8) (w : World) :
    List Message × World × Res Unit :=
  match openOut creatable out w with
  | .error e => ([], w, .error e)
  | .ok w =>
    let x : LogR (List UInt8) := do
      logR level .info (ascii "prefix_length: " ++ decimal prefixLength)
      logR level .info (ascii "read text")
      let text ← quiet (readVector inn prefixLength stdin w)
      logR level .info (ascii "compute reverse")
      pure text.reverse
    match x.2 with
    | .error e => (x.1, w, .error e)
    | .ok rev => (x.1, writeOut out rev w, .ok ())

/-- `main` of `escape` from its assertions on, with its message: what it logs, what it writes and how it ends.
src/bin/escape.rs:76-154 -/
def escapeBodyL (level : Nat) (a : EscapeArgs) (r : Reader) : List Message × Out :=
  if a.fromSymbols.length ≠ a.toSymbols.length then ([], [], .error .assert)
  else if a.escapeSymbol ∈ a.fromSymbols then ([], [], .error .assert)
  else if a.escapeSymbol ∈ a.toSymbols then ([], [], .error .assert)
  else if a.fromSymbols.any (fun i => decide (i ∈ a.toSymbols)) then ([], [], .error .assert)
  else
    (logMsg level .info (ascii "args.prefixlength: " ++ decimal a.prefixlength),
      if a.isReversion then unescapeLoop a a.prefixlength r else escapeLoop a a.prefixlength r)

/-- `main` of `escape` with files and with its message.  src/bin/escape.rs:49-154 -/
def escapeL (level : Nat) (creatable : String → Bool) (a : EscapeArgs) (inn out : Option String) (stdin : Reader) (w : World) :
    List Message × World × Res Unit :=
  match openIn inn w with
  | .error e => ([], w, .error e)
  | .ok _ =>
    match openOut creatable out w with
    | .error e => ([], w, .error e)
    | .ok w =>
      let x := escapeBodyL level a (readIn inn stdin w)
      (x.1, writeOut out x.2.1 w, x.2.2)

end Verif.Model
