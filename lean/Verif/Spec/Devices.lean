import Verif.Rust

/-! # Devices that take data in pieces, interrupt, or refuse it

The operating system answers every `write` call: it takes some of the bytes offered, or the call is interrupted, or it is
refused (disk full, pipe closed, I/O error).  A finite run makes finitely many calls, so a finite list of answers with an
answer for all later calls describes every behaviour. -/

namespace Verif.Spec

/-- One answer to a `write` call: `accept n` takes the first `n` bytes offered (all of them if there are fewer). -/
inductive Answer where
  | accept (n : Nat)
  | interrupted
  | refuse
  deriving DecidableEq, Repr

/-- A file or a standard stream: the answers to the coming calls, whether it refuses (`full`) or takes everything
afterwards, and the pieces it has taken so far, in order. -/
structure Device where
  answers : List Answer
  full : Bool
  got : List (List UInt8)
  deriving DecidableEq, Repr

/-- The content of the file, or everything that came through the pipe. -/
def Device.content (d : Device) : List UInt8 := d.got.flatten

/-- A device that never refuses; it may still take data in pieces and interrupt calls. -/
def Device.Willing (d : Device) : Prop :=
  d.full = false ∧ ∀ a ∈ d.answers, a ≠ .refuse ∧ a ≠ .accept 0

/-- A device that refuses every call. -/
def Device.Dead (d : Device) : Prop := d.full = true ∧ d.answers = []

/-- "Success means complete": if the run ends normally then the program itself would have ended so, and the device has
got the whole output after what it had before.  If the run panics, then either the program itself does or a write was
refused (an `unwrap` panic). -/
def Complete {α : Type} (d : Device) (prog : List UInt8 × Res α) (run : Device × Res α) : Prop :=
  (∀ a, run.2 = .ok a → prog.2 = .ok a ∧ run.1.content = d.content ++ prog.1) ∧
  (∀ e, run.2 = .error e → prog.2 = .error e ∨ (e = .unwrap ∧ ¬ d.Willing))

/-- "Only a prefix arrives": the device keeps what it had, and after any number of the pieces it took in the run, its
content is the old one followed by a prefix of the output.  (This is what a file contains if the process is killed.) -/
def OnlyPrefixes {α : Type} (d : Device) (out : List UInt8) (run : Device × Res α) : Prop :=
  ∃ pieces : List (List UInt8), run.1.got = d.got ++ pieces ∧ ∀ k, (pieces.take k).flatten <+: out

/-! ## reading -/

/-- One answer to a `read` call: some bytes (at least one), the end of the input, an interrupted call, an error. -/
inductive ReadAnswer where
  | data (b : UInt8) (bs : List UInt8)
  | eof
  | interrupted
  | fail
  deriving DecidableEq, Repr

/-- What an input holds: the bytes up to the end of the input, ignoring interruptions; `none` if reading fails before. -/
def inputBytes : List ReadAnswer → Option (List UInt8)
  | [] => some []
  | .eof :: _ => some []
  | .interrupted :: r => inputBytes r
  | .fail :: _ => none
  | .data b bs :: r => (inputBytes r).map (b :: bs ++ ·)

/-- The bytes an input delivers before its end or its first error, whatever calls are interrupted. -/
def available : List ReadAnswer → List UInt8
  | [] => []
  | .eof :: _ => []
  | .interrupted :: r => available r
  | .fail :: _ => []
  | .data b bs :: r => b :: bs ++ available r

end Verif.Spec
