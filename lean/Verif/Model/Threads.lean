import Verif.Model.Parallel
import Mathlib.Logic.Function.Basic
import Mathlib.Logic.Relation

/-!
# Model of the threads of `main` of `src/unfinished/parallel.rs`

An interleaving semantics: one step of one thread at a time.  Steps are the lock acquisitions, the critical
sections with their release, and the thread-local computation.  Memory is sequentially consistent (all
shared data is only touched under its lock, which is what `Mutex`/`RwLock` guarantee).
-/

namespace Verif.Model

open Verif

/-- A `Mutex` (or an `RwLock` of which only the write side is used).  A panic while it is held poisons it,
and `lock().unwrap()` on a poisoned lock panics. -/
inductive Lock where
  | free | held | poisoned
  deriving DecidableEq, Repr

/-- Where a worker of `main` is. -/
inductive Pc (W : Type) where
  /-- about to call `iterator_arc.lock()`, line 125 -/
  | idle
  /-- holding the iterator, about to call `next`, line 126 -/
  | iterHeld
  /-- has a word, all locks released, about to compute, line 130 -/
  | got (w : W)
  /-- about to print the first of these lines (or none is left), line 145 -/
  | printing (lines : List (List UInt8)) (i j : Nat)
  /-- about to call `stats_arc.lock()`, line 154 -/
  | wantStats (i j : Nat)
  /-- holding the statistics, line 155 -/
  | statsHeld (i j : Nat)
  /-- about to call `total_counter_arc.write()`, line 159 -/
  | wantTotal
  /-- holding the total counter, line 160 -/
  | totalHeld
  /-- left the loop by `break`, line 129 -/
  | stopped
  /-- the thread has panicked -/
  | panicked
  deriving DecidableEq, Repr

/-- The shared data of one round of the `for pattern_length` loop and the positions of the `T` workers.
src/unfinished/parallel.rs:114-118 -/
structure PState (σ W : Type) (T : Nat) where
  iter : σ
  iterLock : Lock
  stats : List (List Nat)
  statsLock : Lock
  total : Nat
  totalLock : Lock
  /-- the lines printed so far (`println!` locks the standard output, so lines are never torn) -/
  out : List (List UInt8)
  pc : Fin T → Pc W

/-- The state when the workers have been spawned: `[[0; M]; M]` and `0`.
src/unfinished/parallel.rs:114-118 -/
def PState.init {σ W : Type} {T : Nat} (M : Nat) (it : σ) : PState σ W T :=
  { iter := it, iterLock := .free, stats := List.replicate M (List.replicate M 0), statsLock := .free,
    total := 0, totalLock := .free, out := [], pc := fun _ => .idle }

/-- `stats[i][j] += 1` with the overflow check of `i32`.  src/unfinished/parallel.rs:155 -/
def incStats (stats : List (List Nat)) (i j : Nat) : Res (List (List Nat)) := do
  let row ← rd stats i
  let v ← rd row j
  if v + 1 < 2147483648 then do
    let row ← wr row j (v + 1)
    wr stats i row
  else .error .arith

/-- One step of thread `t`; `none` if it is blocked or has ended.  `next` is `Iterator::next` of the
word source and `analyse` the computation of lines 130-151.  src/unfinished/parallel.rs:123-165.  The
counter `total` (a `usize`) is not checked for overflow: it counts the words. -/
def PState.step {σ W : Type} {T : Nat} (next : σ → Res (Option W × σ))
    (analyse : W → Res (Option (List (List UInt8) × Nat × Nat))) (s : PState σ W T) (t : Fin T) : Option (PState σ W T) :=
  let goto (s : PState σ W T) (p : Pc W) : PState σ W T := { s with pc := Function.update s.pc t p }
  match s.pc t with
  | .idle => match s.iterLock with
    | .free => some (goto { s with iterLock := .held } .iterHeld)
    | .held => none
    | .poisoned => some (goto s .panicked)
  | .iterHeld => match next s.iter with
    | .ok (none, it) => some (goto { s with iter := it, iterLock := .free } .stopped)
    | .ok (some w, it) => some (goto { s with iter := it, iterLock := .free } (.got w))
    | .error _ => some (goto { s with iterLock := .poisoned } .panicked)
  | .got w => match analyse w with
    | .ok none => some (goto s .idle)
    | .ok (some (ls, i, j)) => some (goto s (.printing ls i j))
    | .error _ => some (goto s .panicked)
  | .printing [] i j => some (goto s (.wantStats i j))
  | .printing (l :: ls) i j => some (goto { s with out := s.out ++ [l] } (.printing ls i j))
  | .wantStats i j => match s.statsLock with
    | .free => some (goto { s with statsLock := .held } (.statsHeld i j))
    | .held => none
    | .poisoned => some (goto s .panicked)
  | .statsHeld i j => match incStats s.stats i j with
    | .ok stats => some (goto { s with stats := stats, statsLock := .free } .wantTotal)
    | .error _ => some (goto { s with statsLock := .poisoned } .panicked)
  | .wantTotal => match s.totalLock with
    | .free => some (goto { s with totalLock := .held } .totalHeld)
    | .held => none
    | .poisoned => some (goto s .panicked)
  | .totalHeld => some (goto { s with total := s.total + 1, totalLock := .free } .idle)
  | .stopped => none
  | .panicked => none

/-- Some thread makes a step. -/
def PState.Step {σ W : Type} {T : Nat} (next : σ → Res (Option W × σ))
    (analyse : W → Res (Option (List (List UInt8) × Nat × Nat))) (s s' : PState σ W T) : Prop :=
  ∃ t, s.step next analyse t = some s'

/-- The states `main` can reach for one `pattern_length`, with `T` workers (4 in the code).
src/unfinished/parallel.rs:113-171 -/
def MainReachable {T : Nat} (patternLength : Nat) (s : PState LyndonWordGenerator (List Nat) T) : Prop :=
  Relation.ReflTransGen (PState.Step LyndonWordGenerator.next (analyseWord patternLength))
    (PState.init (MAX_LENGTH + 1) (LyndonWordGenerator.new MAX_LENGTH 2)) s

end Verif.Model
