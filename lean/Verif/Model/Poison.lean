import Verif.Model.MaxLyndon

/-!
# Panicking threads: guards, unwinding and poisoned locks

`Verif/Model/Prog.lean` ends a thread that panics at once.  Here the guards of every thread are part of the state: a
thread that panics drops its guards one after the other, and a `Mutex` or a write-locked `RwLock` whose guard is dropped by
a panicking thread is poisoned (read guards of an `RwLock` do not poison it).  `lock().unwrap()`, `read().unwrap()` and
`write().unwrap()` wait until the lock is available and panic if it is poisoned.
-/

namespace Verif.Model

open Verif

/-- The shared data, the poisoned locks, the guards of each thread (last one first) and what it has still to do. -/
structure WState (S L : Type) (T : Nat) where
  sh : S
  poisoned : L → Bool
  guards : Fin T → List (L × Bool)
  prog : Fin T → Prog S L

/-- The start: no guards, no poison, all threads at the beginning. -/
def WState.init {S L : Type} {T : Nat} (body : Prog S L) (s : S) : WState S L T :=
  { sh := s, poisoned := fun _ => false, guards := fun _ => [], prog := fun _ => body }

variable {S L : Type} [DecidableEq L] {T : Nat}

/-- The lock can be given to a writer (`w`) or a reader: the only guards there are, if any, are of readers, and a
reader asks. -/
def WState.Available (s : WState S L T) (l : L) (w : Bool) : Prop :=
  ∀ u, ∀ p ∈ s.guards u, p.1 = l → w = false ∧ p.2 = false

instance (s : WState S L T) (l : L) (w : Bool) : Decidable (s.Available l w) := by
  unfold WState.Available; infer_instance

/-- One step of thread `t`; `none` if it waits or has ended.  src/unfinished/parallel.rs:283-369 (the `unwrap()` of every
lock); unwinding drops the guards in the reverse order of their creation. -/
def WState.stepOf (body : Prog S L) (s : WState S L T) (t : Fin T) : Option (WState S L T) :=
  match s.prog t with
  | .acq l w k =>
    if s.Available l w then
      if s.poisoned l then some { s with prog := Function.update s.prog t .panic }
      else some { s with guards := Function.update s.guards t ((l, w) :: s.guards t), prog := Function.update s.prog t k }
    else none
  | .rel l w k =>
    some { s with guards := Function.update s.guards t ((s.guards t).erase (l, w)), prog := Function.update s.prog t k }
  | .act g k => match g s.sh with
    | .ok s' => some { s with sh := s', prog := Function.update s.prog t (k s.sh) }
    | .error _ => some { s with prog := Function.update s.prog t .panic }
  | .again => some { s with prog := Function.update s.prog t body }
  | .stop => none
  | .panic => match s.guards t with
    | [] => none
    | (l, w) :: gs => some { s with
        poisoned := Function.update s.poisoned l (s.poisoned l || w)
        guards := Function.update s.guards t gs }

/-- Some thread makes a step. -/
def WState.Step (body : Prog S L) (s s' : WState S L T) : Prop := ∃ t, s.stepOf body t = some s'

/-- Thread `t` waits for a lock somebody has a guard of.  (Whether a reader may pass other readers depends on the policy
of `RwLock`; under every policy a thread that cannot go on for ever is in this situation.) -/
def WState.Waits (s : WState S L T) (t : Fin T) : Prop :=
  ∃ l w k, s.prog t = .acq l w k ∧ ∃ u, ∃ p ∈ s.guards u, p.1 = l

/-- Thread `t` has left its loop. -/
def WState.Returned (s : WState S L T) (t : Fin T) : Prop := s.prog t = .stop

/-- Thread `t` has panicked and dropped all its guards; `join` on it returns an error. -/
def WState.Failed (s : WState S L T) (t : Fin T) : Prop := s.prog t = .panic ∧ s.guards t = []

/-- The states `max_lyndon_word` can reach with `T` workers (4 in the code), some of which may have panicked.
src/unfinished/parallel.rs:244-374 -/
def WorkersReach {T : Nat} (s : WState MShared MLock T) : Prop :=
  Relation.ReflTransGen (WState.Step maxWorker) (WState.init maxWorker MShared.init) s

/-- The whole program: the workers, and the main thread, which has joined some of the workers (`.ok i`: the first `i` of them;
`.ok T`: `max_lyndon_word` returns; `.error`: it panics). -/
structure CallState (T : Nat) where
  workers : WState MShared MLock T
  main : Res Nat

/-- The start of the program. -/
def CallState.init {T : Nat} : CallState T := { workers := WState.init maxWorker MShared.init, main := .ok 0 }

/-- One step: of a worker, or of the main thread, which joins the workers one after the other and panics if the next one has
panicked.  src/unfinished/parallel.rs:280-374 -/
inductive CallState.Step {T : Nat} : CallState T → CallState T → Prop where
  | worker {s s' : WState MShared MLock T} {i : Nat} (h : WState.Step maxWorker s s') : Step ⟨s, .ok i⟩ ⟨s', .ok i⟩
  | returned {s : WState MShared MLock T} {i : Nat} (h : i < T) (hs : s.Returned ⟨i, h⟩) : Step ⟨s, .ok i⟩ ⟨s, .ok (i + 1)⟩
  | failed {s : WState MShared MLock T} {i : Nat} (h : i < T) (hs : s.Failed ⟨i, h⟩) : Step ⟨s, .ok i⟩ ⟨s, .error .unwrap⟩

/-- The states of the program that can be reached. -/
def CallState.Reachable {T : Nat} (s : CallState T) : Prop := Relation.ReflTransGen CallState.Step CallState.init s

end Verif.Model
