import Verif.Model.Core
import Verif.Model.Streams
import Verif.Model.Attractor
import Verif.Spec.LyndonFile

/-!
# Model of `src/bin/lyndonfactorization.rs`

The decimal formatting of `usize` (`{}`) and the bytes of format-string literals are
`Spec.decimal` and `Spec.ascii`.
-/

namespace Verif.Model

open Verif Spec

/-- The condition of the `break`: the last factor, ending at the last text position, whose letter is 0.
src/bin/lyndonfactorization.rs:76-78 -/
def lyndonFileStop (text : List UInt8) (factors : List Nat) (id : Nat) : Res Bool := do
  let l ← usub factors.length 1
  if id = l then do
    let e ← rd factors id
    if e + 1 = text.length then do
      let n1 ← usub text.length 1
      let c ← rd text n1
      pure (decide (c = 0))
    else pure false
  else pure false

/-- The header and the body written in one round of the loop.
src/bin/lyndonfactorization.rs:88-97 -/
def lyndonFileRecord (text : List UInt8) (factors : List Nat) (id : Nat) : Res (List UInt8) := do
  let id1 ← usub id 1
  let p ← rd factors id1
  let e ← rd factors id
  let body ← slice text (p + 1) (e + 1)
  pure (ascii "\n>Factor " ++ decimal (id + 1) ++ ascii " : " ++ decimal (p + 1) ++ ascii " -> " ++
    decimal (e + 1) ++ ascii "\n" ++ body)

/-- `for factor_id in 1..factors.len() { if .. { break; } .. }` with `d` rounds left.
src/bin/lyndonfactorization.rs:74-98 -/
def lyndonFileLoop (text : List UInt8) (factors : List Nat) : Nat → Nat → List UInt8 → Res (List UInt8)
  | 0, _, out => .ok out
  | d + 1, id, out => do
    let stop ← lyndonFileStop text factors id
    if stop then pure out
    else do
      let r ← lyndonFileRecord text factors id
      lyndonFileLoop text factors d (id + 1) (out ++ r)

/-- `main` with an output file: the number of factors printed on stdout and the bytes of the file.
src/bin/lyndonfactorization.rs:53-100.  The bytes already written when a later write panics and the elapsed
time are not modelled; the logging and the debug check at the end are in `Model/LyndonLog`. -/
def lyndonfactorizationMain (text : List UInt8) : Res (Nat × List UInt8) := do
  let factors ← duval text
  match factors.getLast? with
  | none => .error .unwrap
  | some e => do
    assertR (decide (e + 1 = text.length))
    let e0 ← rd factors 0
    let first ← slice text 0 (e0 + 1)
    let out ← lyndonFileLoop text factors (factors.length - 1) 1 (ascii ">Factor 1\n" ++ first)
    pure (factors.length, out)

end Verif.Model
