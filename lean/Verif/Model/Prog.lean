import Verif.Rust
import Mathlib.Logic.Function.Basic
import Mathlib.Logic.Relation

/-!
# Threads with locks

A small language for the threads of `src/unfinished/parallel.rs`: acquiring and releasing locks (a
`Mutex` is a lock that is only ever taken in write mode) and atomic actions on the shared data.  Nothing
here models a particular file of the repository.
-/

namespace Verif.Model

open Verif

/-- A thread program over shared data `S` and lock names `L`. -/
inductive Prog (S L : Type) where
  /-- `lock()`/`write()` (`w = true`) or `read()` (`w = false`): blocks until available -/
  | acq (l : L) (w : Bool) (k : Prog S L)
  /-- a guard goes out of scope -/
  | rel (l : L) (w : Bool) (k : Prog S L)
  /-- update the shared data (or panic); the rest may depend on the data before the update -/
  | act (g : S → Res S) (k : S → Prog S L)
  /-- back to the start of the `loop` -/
  | again
  /-- left the `loop` -/
  | stop
  /-- the thread has panicked -/
  | panic

/-- What is held of a lock: number of readers, and whether there is a writer. -/
abbrev Holds := Nat × Bool

/-- The shared data, the locks, and the program of one thread. -/
abbrev Config (S L : Type) := S × (L → Holds) × Prog S L

variable {S L : Type} [DecidableEq L]

/-- One step of one thread; `none` if it is blocked or has ended.  After a panic the locks it held stay
taken; `Verif/Model/Poison.lean` models unwinding and poisoned locks instead. -/
def Prog.step (body : Prog S L) (c : Config S L) : Option (Config S L) :=
  match c with
  | (s, lk, .acq l true k) =>
    if lk l = (0, false) then some (s, Function.update lk l (0, true), k) else none
  | (s, lk, .acq l false k) =>
    if (lk l).2 = false then some (s, Function.update lk l ((lk l).1 + 1, false), k) else none
  | (s, lk, .rel l true k) => some (s, Function.update lk l ((lk l).1, false), k)
  | (s, lk, .rel l false k) => some (s, Function.update lk l ((lk l).1 - 1, (lk l).2), k)
  | (s, lk, .act g k) => match g s with
    | .ok s' => some (s', lk, k s)
    | .error _ => some (s, lk, .panic)
  | (s, lk, .again) => some (s, lk, body)
  | (_, _, .stop) => none
  | (_, _, .panic) => none

/-- `T` threads running `body` in a loop. -/
structure TState (S L : Type) (T : Nat) where
  sh : S
  locks : L → Holds
  prog : Fin T → Prog S L

/-- The start: all locks free, all threads at the beginning. -/
def TState.init {T : Nat} (body : Prog S L) (s : S) : TState S L T :=
  { sh := s, locks := fun _ => (0, false), prog := fun _ => body }

/-- One step of thread `t`; `none` if it is blocked or has ended. -/
def TState.stepOf {T : Nat} (body : Prog S L) (s : TState S L T) (t : Fin T) : Option (TState S L T) :=
  match Prog.step body (s.sh, s.locks, s.prog t) with
  | some (sh, lk, p) => some { sh := sh, locks := lk, prog := Function.update s.prog t p }
  | none => none

/-- Some thread makes a step. -/
def TState.Step {T : Nat} (body : Prog S L) (s s' : TState S L T) : Prop := ∃ t, s.stepOf body t = some s'

/-- The states reachable under some interleaving. -/
def TState.Reachable {T : Nat} (body : Prog S L) (s0 : S) (s : TState S L T) : Prop :=
  Relation.ReflTransGen (TState.Step body) (TState.init body s0) s

/-- The same program with a run-time check of every update: if the updated data does not satisfy `fits`,
the thread panics instead (overflow-checked arithmetic). -/
def Prog.guard (fits : S → Bool) : Prog S L → Prog S L
  | .acq l w k => .acq l w (k.guard fits)
  | .rel l w k => .rel l w (k.guard fits)
  | .act g k => .act (fun s => do
      let s' ← g s
      if fits s' then pure s' else .error .arith) (fun s => (k s).guard fits)
  | .again => .again
  | .stop => .stop
  | .panic => .panic

/-- Thread `t` waits for a lock that somebody holds in either mode.  Whether a reader may pass while other
readers hold the lock depends on the policy of `std::sync::RwLock` (a writer in the queue may have precedence):
under every policy a thread that cannot go on for ever is in this situation, since a lock nobody holds is
given to one of those waiting. -/
def TState.Queued {T : Nat} (s : TState S L T) (t : Fin T) : Prop :=
  ∃ l w k, s.prog t = .acq l w k ∧ s.locks l ≠ (0, false)

/-- Thread `t` waits for a lock that is not available. -/
def TState.Blocked {T : Nat} (body : Prog S L) (s : TState S L T) (t : Fin T) : Prop :=
  s.stepOf body t = none ∧ ∃ l w k, s.prog t = .acq l w k

end Verif.Model
