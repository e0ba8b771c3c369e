import Verif.Byte
import Mathlib.Data.Nat.Init

/-!
# The run-time vocabulary of the model

A Rust function that may panic is modelled by a Lean function into `Res α`.  Nothing in this file
models a particular file of the repository; it fixes the meaning of indexing, checked arithmetic and
loops used by every definition under `Verif/Model`.
-/

namespace Verif

/-- Reasons why the Rust program stops without a result. -/
inductive Panic where
  /-- slice or vector index out of range -/
  | index
  /-- arithmetic overflow/underflow or division by zero, in the overflow-checked profile -/
  | arith
  /-- a failed `assert!` family macro -/
  | assert
  /-- `unwrap`/`expect` on `None`/`Err` -/
  | unwrap
  /-- `unreachable!` or an explicit `panic!` -/
  | explicit
  /-- allocation request the allocator must refuse (`capacity overflow`) -/
  | alloc
  /-- not a Rust panic: the model's loop fuel ran out (the loop may not terminate) -/
  | fuel
  deriving DecidableEq, Repr

/-- Result of a Rust computation: a value or a panic. -/
abbrev Res (α : Type _) := Except Panic α

instance {α : Type _} [DecidableEq α] : DecidableEq (Res α) := fun a b =>
  match a, b with
  | .ok x, .ok y => if h : x = y then isTrue (h ▸ rfl) else isFalse (fun h' => h (by injection h'))
  | .error x, .error y =>
      if h : x = y then isTrue (h ▸ rfl) else isFalse (fun h' => h (by injection h'))
  | .ok _, .error _ => isFalse (fun h => by injection h)
  | .error _, .ok _ => isFalse (fun h => by injection h)

/-- `v[i]` -/
def rd {α : Type _} (l : List α) (i : Nat) : Res α :=
  match l[i]? with
  | some x => .ok x
  | none => .error .index

/-- `v[i] = x` -/
def wr {α : Type _} (l : List α) (i : Nat) (x : α) : Res (List α) :=
  if i < l.length then .ok (l.set i x) else .error .index

/-- `a - b` on unsigned integers (overflow-checked profile) -/
def usub (a b : Nat) : Res Nat := if b ≤ a then .ok (a - b) else .error .arith

/-- `assert!(b)` -/
def assertR (b : Bool) : Res Unit := if b then .ok () else .error .assert

/-- `for i in lo..hi { body }` with loop state `s` -/
def forRange {σ : Type _} (lo hi : Nat) (s : σ) (body : Nat → σ → Res σ) : Res σ :=
  (List.range' lo (hi - lo)).foldlM (fun s i => body i s) s

/-- `for x in l { body }` with loop state `s` -/
def forEach {α σ : Type _} (l : List α) (s : σ) (body : α → σ → Res σ) : Res σ :=
  l.foldlM (fun s x => body x s) s

/-- `while cond { body }`; running out of fuel is the error `Panic.fuel`. -/
def whileLoop {σ : Type _} (fuel : Nat) (cond : σ → Res Bool) (body : σ → Res σ) (s : σ) : Res σ :=
  match fuel with
  | 0 => .error .fuel
  | fuel + 1 => do
    if ← cond s then whileLoop fuel cond body (← body s) else pure s

/-- `loop { body }`; the body returns `true` (with the final state) for `break`. -/
def loopR {σ : Type _} (fuel : Nat) (body : σ → Res (Bool × σ)) (s : σ) : Res σ :=
  match fuel with
  | 0 => .error .fuel
  | fuel + 1 => do
    let (brk, s') ← body s
    if brk then pure s' else loopR fuel body s'

/-- `for i in lo..hi { .. return x .. }`: runs the body until it returns `some x`. -/
def forFind {β : Type _} (lo hi : Nat) (body : Nat → Res (Option β)) : Res (Option β) :=
  go (hi - lo) lo
where
  /-- `d` iterations left, next index `i` -/
  go : Nat → Nat → Res (Option β)
    | 0, _ => .ok none
    | d + 1, i => do
      match ← body i with
      | some x => pure (some x)
      | none => go d (i + 1)

/-- `Ord::cmp` of two letters. -/
def ucmp {α : Type _} [LinearOrder α] (x y : α) : Ordering :=
  if x < y then .lt else if x = y then .eq else .gt

/-- Does the comparison return a value? -/
def isOk {α : Type _} : Res α → Bool
  | .ok _ => true
  | .error _ => false

/-- "not greater" for a comparison that returns a value -/
def notGt : Res Ordering → Bool
  | .ok .gt => false
  | .ok _ => true
  | .error _ => false

/-- insert `a` before the first element that is not smaller -/
def stableInsert {α : Type _} (le : α → α → Bool) (a : α) : List α → List α
  | [] => [a]
  | b :: l => if le a b then a :: b :: l else b :: stableInsert le a l

/-- stable sorting by insertion -/
def stableSort {α : Type _} (le : α → α → Bool) (l : List α) : List α :=
  l.foldr (stableInsert le) []

/-- `slice::sort_by(cmp)` for a comparison closure that may panic.  The sort may compare any two
elements, so we panic as soon as any comparison of two elements would; otherwise the result is the
stable sort, which for a total preorder is unique (so the algorithm does not matter; insertion is used
because the kernel can evaluate it). -/
def sortByR {α : Type _} (cmp : α → α → Res Ordering) (l : List α) : Res (List α) :=
  if l.all (fun a => l.all (fun b => isOk (cmp a b)))
  then .ok (stableSort (fun a b => notGt (cmp a b)) l)
  else .error .index

/-! ## Reasoning rules -/

section rules
variable {α β σ : Type _}

@[simp] theorem ok_bind (a : α) (f : α → Res β) : (Except.ok a >>= f : Res β) = f a := rfl
@[simp] theorem pure_bind' (a : α) (f : α → Res β) : ((pure a : Res α) >>= f : Res β) = f a := rfl
@[simp] theorem error_bind (e : Panic) (f : α → Res β) :
    ((Except.error e : Res α) >>= f : Res β) = Except.error e := rfl
theorem pure_ok (a : α) : (pure a : Res α) = .ok a := rfl

theorem rd_ok {l : List α} {i : Nat} (h : i < l.length) : rd l i = .ok l[i] := by
  simp [rd, h]

theorem rd_some {l : List α} {i : Nat} {x : α} (h : l[i]? = some x) : rd l i = .ok x := by
  simp [rd, h]

theorem rd_err {l : List α} {i : Nat} (h : l.length ≤ i) : rd l i = .error .index := by
  simp [rd, h]

theorem wr_ok {l : List α} {i : Nat} {x : α} (h : i < l.length) : wr l i x = .ok (l.set i x) := by
  simp [wr, h]

theorem wr_err {l : List α} {i : Nat} {x : α} (h : l.length ≤ i) : wr l i x = .error .index := by
  simp [wr]; omega

theorem usub_ok {a b : Nat} (h : b ≤ a) : usub a b = .ok (a - b) := by simp [usub, h]

theorem forRange_step {lo hi : Nat} (h : lo < hi) (s : σ) (body : Nat → σ → Res σ) :
    forRange lo hi s body = (body lo s >>= fun s' => forRange (lo + 1) hi s' body) := by
  unfold forRange
  obtain ⟨d, rfl⟩ : ∃ d, hi = lo + (d + 1) := ⟨hi - lo - 1, by omega⟩
  have e1 : lo + (d + 1) - lo = d + 1 := by omega
  have e2 : lo + (d + 1) - (lo + 1) = d := by omega
  rw [e1, e2, List.range'_succ]
  rfl

theorem forRange_done {lo hi : Nat} (h : hi ≤ lo) (s : σ) (body : Nat → σ → Res σ) :
    forRange lo hi s body = .ok s := by
  unfold forRange
  have : hi - lo = 0 := by omega
  rw [this]; rfl

/-- Invariant rule for `for` loops. -/
theorem forRange_inv (P : Nat → σ → Prop) {lo hi : Nat} {s : σ} {body : Nat → σ → Res σ}
    (hle : lo ≤ hi) (h0 : P lo s)
    (hstep : ∀ i s, lo ≤ i → i < hi → P i s → ∃ s', body i s = .ok s' ∧ P (i + 1) s') :
    ∃ s', forRange lo hi s body = .ok s' ∧ P hi s' := by
  obtain ⟨d, rfl⟩ : ∃ d, hi = lo + d := ⟨hi - lo, by omega⟩
  clear hle
  induction d generalizing lo s with
  | zero => exact ⟨s, forRange_done (by omega) _ _, h0⟩
  | succ d ih =>
    obtain ⟨s1, hb, h1⟩ := hstep lo s (le_refl _) (by omega) h0
    have e : lo + (d + 1) = (lo + 1) + d := by omega
    obtain ⟨s2, h2, h3⟩ := ih (lo := lo + 1) (s := s1) h1 (fun i s hi1 hi2 hP =>
      hstep i s (by omega) (by omega) hP)
    refine ⟨s2, ?_, by rw [e]; exact h3⟩
    rw [forRange_step (by omega), hb, ok_bind, e, h2]

theorem forEach_nil (s : σ) (body : α → σ → Res σ) : forEach [] s body = .ok s := rfl

theorem forEach_cons (x : α) (l : List α) (s : σ) (body : α → σ → Res σ) :
    forEach (x :: l) s body = (body x s >>= fun s' => forEach l s' body) := rfl

/-- Invariant rule for `for x in l`; the invariant sees the processed prefix. -/
theorem forEach_inv (P : List α → σ → Prop) {l : List α} {s : σ} {body : α → σ → Res σ}
    (h0 : P [] s)
    (hstep : ∀ pre x post s, l = pre ++ x :: post → P pre s →
      ∃ s', body x s = .ok s' ∧ P (pre ++ [x]) s') :
    ∃ s', forEach l s body = .ok s' ∧ P l s' := by
  suffices H : ∀ (pre post : List α) (s : σ), l = pre ++ post → P pre s →
      ∃ s', forEach post s body = .ok s' ∧ P l s' from H [] l s rfl h0
  intro pre post
  induction post generalizing pre with
  | nil => intro s hl hP; exact ⟨s, rfl, by simpa [hl] using hP⟩
  | cons x post ih =>
    intro s hl hP
    obtain ⟨s1, hb, h1⟩ := hstep pre x post s hl hP
    obtain ⟨s2, h2, h3⟩ := ih (pre ++ [x]) s1 (by simp [hl]) h1
    exact ⟨s2, by rw [forEach_cons, hb, ok_bind, h2], h3⟩

/-- Invariant/variant rule for `while` loops (total correctness). -/
theorem whileLoop_inv (I : σ → Prop) (μ : σ → Nat) {fuel : Nat} {cond : σ → Res Bool}
    {body : σ → Res σ} {s : σ} (h0 : I s) (hf : μ s < fuel)
    (hstep : ∀ s, I s → cond s = .ok false ∨
      (cond s = .ok true ∧ ∃ s', body s = .ok s' ∧ I s' ∧ μ s' < μ s)) :
    ∃ s', whileLoop fuel cond body s = .ok s' ∧ I s' ∧ cond s' = .ok false := by
  induction fuel generalizing s with
  | zero => omega
  | succ fuel ih =>
    rcases hstep s h0 with hc | ⟨hc, s', hb, hI, hμ⟩
    · exact ⟨s, by simp [whileLoop, hc, pure_ok], h0, hc⟩
    · obtain ⟨s2, h2, h3⟩ := ih hI (by omega)
      exact ⟨s2, by simp [whileLoop, hc, hb, h2], h3⟩

theorem whileLoop_false {fuel : Nat} {cond : σ → Res Bool} {body : σ → Res σ} {s : σ}
    (h : cond s = .ok false) : whileLoop (fuel + 1) cond body s = .ok s := by
  simp [whileLoop, h, pure_ok]

theorem whileLoop_true {fuel : Nat} {cond : σ → Res Bool} {body : σ → Res σ} {s s' : σ}
    (h : cond s = .ok true) (hb : body s = .ok s') :
    whileLoop (fuel + 1) cond body s = whileLoop fuel cond body s' := by
  simp [whileLoop, h, hb]

/-- Invariant/variant rule for `loop` with `break`. -/
theorem loopR_inv (I Q : σ → Prop) (μ : σ → Nat) {fuel : Nat} {body : σ → Res (Bool × σ)} {s : σ}
    (h0 : I s) (hf : μ s < fuel)
    (hstep : ∀ s, I s → (∃ s', body s = .ok (true, s') ∧ Q s') ∨
      (∃ s', body s = .ok (false, s') ∧ I s' ∧ μ s' < μ s)) :
    ∃ s', loopR fuel body s = .ok s' ∧ Q s' := by
  induction fuel generalizing s with
  | zero => omega
  | succ fuel ih =>
    rcases hstep s h0 with ⟨s', hb, hQ⟩ | ⟨s', hb, hI, hμ⟩
    · exact ⟨s', by simp [loopR, hb, pure_ok], hQ⟩
    · obtain ⟨s2, h2, h3⟩ := ih hI (by omega)
      exact ⟨s2, by simp [loopR, hb, h2], h3⟩

theorem forFind_done {β : Type _} {lo hi : Nat} (h : hi ≤ lo) (body : Nat → Res (Option β)) :
    forFind lo hi body = .ok none := by
  unfold forFind
  have : hi - lo = 0 := by omega
  rw [this]; rfl

theorem forFind_step {β : Type _} {lo hi : Nat} (h : lo < hi) (body : Nat → Res (Option β)) :
    forFind lo hi body = (body lo >>= fun r => match r with
      | some x => pure (some x)
      | none => forFind (lo + 1) hi body) := by
  unfold forFind
  obtain ⟨d, hd⟩ : ∃ d, hi - lo = d + 1 := ⟨hi - lo - 1, by omega⟩
  have e2 : hi - (lo + 1) = d := by omega
  rw [hd, e2]
  rfl

/-- The body returns at the first index `m`. -/
theorem forFind_some {β : Type _} {lo hi m : Nat} {x : β} {body : Nat → Res (Option β)}
    (h1 : lo ≤ m) (h2 : m < hi) (hpre : ∀ i, lo ≤ i → i < m → body i = .ok none)
    (hm : body m = .ok (some x)) : forFind lo hi body = .ok (some x) := by
  obtain ⟨d, rfl⟩ : ∃ d, m = lo + d := ⟨m - lo, by omega⟩
  clear h1
  induction d generalizing lo with
  | zero => rw [forFind_step (by omega)]; simp at hm; simp [hm, pure_ok]
  | succ d ih =>
    rw [forFind_step (by omega), hpre lo (le_refl _) (by omega)]
    simp only [ok_bind]
    exact ih (lo := lo + 1) (by omega) (fun i h h' => hpre i (by omega) (by omega))
      (by rw [← hm]; congr 1; omega)

/-- The body never returns. -/
theorem forFind_none {β : Type _} {lo hi : Nat} {body : Nat → Res (Option β)}
    (hpre : ∀ i, lo ≤ i → i < hi → body i = .ok none) : forFind lo hi body = .ok none := by
  by_cases h : lo ≤ hi
  · obtain ⟨d, rfl⟩ : ∃ d, hi = lo + d := ⟨hi - lo, by omega⟩
    clear h
    induction d generalizing lo with
    | zero => exact forFind_done (by omega) _
    | succ d ih =>
      rw [forFind_step (by omega), hpre lo (le_refl _) (by omega)]
      simp only [ok_bind]
      have e : lo + (d + 1) = (lo + 1) + d := by omega
      rw [e]
      exact ih (fun i h h' => hpre i (by omega) (by omega))
  · exact forFind_done (by omega) _

theorem sortByR_ok {cmp : α → α → Res Ordering} {l : List α}
    (h : ∀ a ∈ l, ∀ b ∈ l, isOk (cmp a b) = true) :
    sortByR cmp l = .ok (stableSort (fun a b => notGt (cmp a b)) l) := by
  unfold sortByR
  rw [if_pos]
  simpa [List.all_eq_true] using h

end rules

end Verif
