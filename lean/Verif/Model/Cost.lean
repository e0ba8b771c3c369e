import Verif.Model.Core

/-! # `src/core.rs` with a counter of letter comparisons

The generic functions of `core.rs` call the comparison operators of the caller's letter type.  The definitions
below repeat those of Model/Core line by line and add `tick` before every such call; the theorems
`..._erase` of Lemmas/Cost show that forgetting the counter gives back the model of Model/Core. -/

namespace Verif.Model

open Verif

variable {α : Type}

/-- A computation that counts: takes the counter, returns the value and the new counter, or panics. -/
abbrev RC (β : Type) : Type := StateT Nat Res β

/-- One call of a comparison operator of the letter type. -/
def tick : RC Unit := fun c => .ok ((), c + 1)

/-- `while` with a counting condition and body; as `whileLoop` of Rust.lean. -/
def whileC {σ : Type} : Nat → (σ → RC Bool) → (σ → RC σ) → σ → RC σ
  | 0, _, _, _ => fun _ => .error .fuel
  | fuel + 1, cond, body, s => do
    let b ← cond s
    if b then do
      let s' ← body s
      whileC fuel cond body s'
    else pure s

/-- `for i in lo..hi` with a counting body; as `forRange` of Rust.lean. -/
def forRangeC {σ : Type} (lo hi : Nat) (s : σ) (body : Nat → σ → RC σ) : RC σ :=
  (List.range' lo (hi - lo)).foldlM (fun s i => body i s) s

/-- src/core.rs:336; see `duvalCond` -/
def duvalCondC [LinearOrder α] (text : List α) (n : Nat) (s : Nat × Nat) : RC Bool := do
  let (i, j) := s
  if j ≠ n then do
    let a ← (rd text i : Res α)
    let b ← (rd text j : Res α)
    tick
    pure (decide (a ≤ b))
  else pure false

/-- src/core.rs:337-343; see `duvalBody` -/
def duvalBodyC [LinearOrder α] (text : List α) (k : Nat) (s : Nat × Nat) : RC (Nat × Nat) := do
  let (i, j) := s
  let a ← (rd text i : Res α)
  let b ← (rd text j : Res α)
  tick
  let i := if a < b then k else i
  let a ← (rd text i : Res α)
  let b ← (rd text j : Res α)
  tick
  let i := if a = b then i + 1 else i
  pure (i, j + 1)

/-- src/core.rs:334-352; see `duvalOuter`.  The emission loop compares no letters. -/
def duvalOuterC [LinearOrder α] (text : List α) (s : Nat × List Nat) : RC (Nat × List Nat) := do
  let (k, out) := s
  let n := text.length
  let (i, j) ← whileC (n + 1) (duvalCondC text n) (duvalBodyC text k) (k, k + 1)
  (loopR (n + 1) (duvalEmit i j) (k, out) : Res (Nat × List Nat))

/-- src/core.rs:329-355; see `duval` -/
def duvalC [LinearOrder α] (text : List α) : RC (List Nat) := do
  let n := text.length
  let (_, out) ← whileC (n + 1) (fun s => pure (decide (s.1 < n))) (duvalOuterC text) (0, [])
  pure out

/-- src/core.rs:223; see `borderCond` -/
def borderCondC [DecidableEq α] (text : List α) (i : Nat) (length : Nat) : RC Bool := do
  if length > 0 then do
    let a ← (rd text (length - 1) : Res α)
    let b ← (rd text i : Res α)
    tick
    pure (decide (a ≠ b))
  else pure false

/-- src/core.rs:221-227; see `borderStep` -/
def borderStepC [DecidableEq α] (text : List α) (i : Nat) (border : List Nat) : RC (List Nat) := do
  let length ← (rd border i : Res Nat)
  let length ← whileC (text.length + 2) (borderCondC text i)
    (fun length => do
      let l1 ← (usub length 1 : Res Nat)
      (rd border l1 : Res Nat)) length
  pure (border ++ [length + 1])

/-- src/core.rs:217-232; see `borderArray` -/
def borderArrayC [DecidableEq α] (text : List α) : RC (List Nat) := do
  let n := text.length
  let border ← forRangeC 0 n [0] (borderStepC text)
  match border with
  | [] => pure []
  | b0 :: rest => do
    let rest ← (rest.mapM (fun e => usub e 1) : Res (List Nat))
    pure (b0 :: rest)

/-- src/core.rs:265-267; see `plcpCond` -/
def plcpCondC [DecidableEq α] (text : List α) (a b : Nat) (length : Nat) : RC Bool := do
  if a + length < text.length ∧ b + length < text.length then do
    let x ← (rd text (a + length) : Res α)
    let y ← (rd text (b + length) : Res α)
    tick
    pure (decide (x = y))
  else pure false

/-- src/core.rs:257-275; see `computePlcp` -/
def computePlcpC [DecidableEq α] (text : List α) (phi : List Nat) : RC (List Nat) := do
  (assertR (decide (text.length = phi.length)) : Res Unit)
  let (plcp, _) ← forRangeC 0 text.length (List.replicate text.length 0, 0)
    (fun b (s : List Nat × Nat) => do
      let (plcp, length) := s
      let a ← (rd phi b : Res Nat)
      let length ← whileC (text.length + 1) (plcpCondC text a b) (fun l => pure (l + 1)) length
      let plcp ← (wr plcp b (asU32 length) : Res (List Nat))
      pure (plcp, length - 1))
  pure plcp

/-- src/core.rs:296-303, 313-320; see `jump` -/
def jumpC [LinearOrder α] (arr : List α) (sv : List Nat) (i : Nat) : Nat → Nat → RC Nat
  | 0, _ => fun _ => .error .fuel
  | fuel + 1, p => do
    if p ≠ INVALID then do
      let x ← (rd arr p : Res α)
      let y ← (rd arr i : Res α)
      tick
      if x < y then pure (asU32 p)
      else do
        let p' ← (rd sv p : Res Nat)
        jumpC arr sv i fuel p'
    else pure INVALID

/-- src/core.rs:291-306; see `computePsv` -/
def computePsvC [LinearOrder α] (arr : List α) : RC (List Nat) := do
  let psv := List.replicate arr.length 0
  let psv ← (wr psv 0 INVALID : Res (List Nat))
  forRangeC 1 arr.length psv (fun i psv => do
    let p ← (usub i 1 : Res Nat)
    let psv ← (wr psv i INVALID : Res (List Nat))
    let v ← jumpC arr psv i (arr.length + 1) p
    (wr psv i v : Res (List Nat)))

/-- src/core.rs:308-323; see `computeNsv` -/
def computeNsvC [LinearOrder α] (arr : List α) : RC (List Nat) := do
  let nsv := List.replicate arr.length 0
  let l ← (usub arr.length 1 : Res Nat)
  let nsv ← (wr nsv l INVALID : Res (List Nat))
  forRangeC 0 l nsv (fun t nsv => do
    let i := l - 1 - t
    let nsv ← (wr nsv i INVALID : Res (List Nat))
    let v ← jumpC arr nsv i (arr.length + 1) (i + 1)
    (wr nsv i v : Res (List Nat)))

/-- src/core.rs:79-96; see `lyndonConjugate`.  Only `duval` compares letters. -/
def lyndonConjugateC [LinearOrder α] (text : List α) : RC Nat := do
  let n := text.length
  let doubletext := text ++ text
  let factors ← duvalC doubletext
  let factors := factors ++ [2 * n]
  let f0 ← (rd factors 0 : Res Nat)
  if f0 + 1 = n then pure 0
  else do
    let hi ← (usub factors.length 1 : Res Nat)
    let r ← (forFind 0 hi (fun x => do
      let e ← rd factors (x + 1)
      if e + 1 ≥ n then
        let b ← rd factors x
        pure (some (b + 1))
      else pure none) : Res (Option Nat))
    match r with
    | some p => pure p
    | none => (.error .explicit : Res Nat)

/-- src/core.rs:100-107; see `isPrimitive`.  Only `border_array` compares letters. -/
def isPrimitiveC [DecidableEq α] (text : List α) : RC Bool := do
  let border ← borderArrayC text
  let period ← (smallestPeriod border : Res Nat)
  if period = text.length then pure true
  else do
    let p ← (smallestPeriod border : Res Nat)
    if p = 0 then (.error .arith : Res Bool) else pure (decide (text.length % p ≠ 0))

end Verif.Model
