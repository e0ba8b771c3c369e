import Verif.Model.Core

/-! # Model of `src/bin/mus.rs`

`sufsort` is `cdivsufsort::sort_in_place`; reading the input file, the clock and the printed line are not
modelled. -/

namespace Verif.Model

open Verif

/-- The closure `getlength` of `get_mus`.  src/bin/mus.rs:28-35 -/
def musGetLength (sa isa lcp : List Nat) (i : Nat) : Res Nat := do
  let isai ← rd isa i
  if isai + 1 = sa.length then rd lcp isai
  else do
    let a ← rd lcp isai
    let b ← rd lcp (isai + 1)
    pure (max a b)

/-- `get_mus`.  src/bin/mus.rs:25-53 -/
def getMus (sa isa lcp : List Nat) : Res (List (Nat × Nat)) := do
  let n ← usub sa.length 1
  forRange 0 n [] (fun i mus => do
    let elli ← musGetLength sa isa lcp i
    assertR (decide (elli + i < sa.length))
    if elli + i ≥ n then pure mus
    else do
      let nextell ← musGetLength sa isa lcp (i + 1)
      if elli ≤ nextell then pure (mus ++ [(i, elli + 1)]) else pure mus)

/-- What `main` computes from the text it read (and what the unit tests compute from theirs).
src/bin/mus.rs:71-93 and 101-115.  Note that `main` does not append a sentinel. -/
def musTool (sufsort : List UInt8 → List Nat) (text : List UInt8) : Res (List (Nat × Nat)) := do
  let sa := sufsort text
  let isa ← inversePermutation 2147483647 sa
  let phi ← computePhi sa
  let plcp ← computePlcp text phi
  let lcp ← computeLcp plcp sa
  getMus sa isa lcp

end Verif.Model
