import Verif.Model.Mains
import Verif.Spec.LogLine

/-!
# Model of the logging and of the final check of `src/bin/lyndonfactorization.rs`

`level` is the highest level that is logged (`RUST_LOG`; 1, only errors, if the variable is not set; 0 for `off`).  A message is its level and
its text; the time stamp and the name of the module that `env_logger` puts in front are not modelled.  The two messages before
`env_logger::init()` are never logged.  `Build.checked` stands for the build with debug assertions.
-/

namespace Verif.Model

open Verif Spec

/-- A message that is logged if its level is enabled. -/
def logMsg (level : Nat) (l : Level) (msg : List UInt8) : List Message := if l.rank ≤ level then [(l, msg)] else []

/-- `#[cfg(debug_assertions)] { .. debug_assert_eq!(factors, core::isa_lyndon_factorization(&isa)); }`, the positions being `i32`.
src/bin/lyndonfactorization.rs:103-115 -/
def lyndonSelfCheck (m : Build) (level : Nat) (sufsort : List UInt8 → List Nat) (text : List UInt8) (factors : List Nat) :
    Res Unit :=
  if Level.debug.rank ≤ level then
    match m with
    | .wrapping => .ok ()
    | .checked => do
      let isa ← inversePermutation 2147483647 (sufsort text)
      let fs ← isaLyndonFactorization isa
      assertR (decide (factors = fs))
  else .ok ()

/-- The messages `writing Factor ..` of the loop that writes the report, with `d` rounds left.
src/bin/lyndonfactorization.rs:74-87 -/
def lyndonFileMsgs (level : Nat) (text : List UInt8) (factors : List Nat) : Nat → Nat → Res (List Message)
  | 0, _ => .ok []
  | d + 1, id => do
    let stop ← lyndonFileStop text factors id
    if stop then pure []
    else do
      let id1 ← usub id 1
      let p ← rd factors id1
      let e ← rd factors id
      let rest ← lyndonFileMsgs level text factors d (id + 1)
      pure (logMsg level .info (ascii "writing Factor " ++ decimal (id + 1) ++ ascii " : " ++ decimal (p + 1) ++ ascii " -> " ++
        decimal (e + 1)) ++ rest)

/-- `main` of `lyndonfactorization` with what it logs: the messages, the world, and `length=`, `factors=` of the result line.
src/bin/lyndonfactorization.rs:31-116 -/
def lyndonfactorizationLogged (m : Build) (level : Nat) (sufsort : List UInt8 → List Nat) (creatable : String → Bool)
    (inn out : Option String) (prefixLength : Nat) (stdin : List UInt8) (w : World) :
    List Message × World × Res (Nat × Nat) :=
  let log0 := logMsg level .info (ascii "read text")
  match readVector inn prefixLength stdin w with
  | .error e => (log0, w, .error e)
  | .ok text =>
    match duval text with
    | .error e => (log0, w, .error e)
    | .ok factors =>
      match factors.getLast? with
      | none => (log0, w, .error .unwrap)
      | some e =>
        if e + 1 = text.length then
          let log1 := log0 ++ logMsg level .debug (ascii "Lyndon factorization : " ++ listText factors)
          let check := fun log w => (log, w, (lyndonSelfCheck m level sufsort text factors).map fun _ => (prefixLength, factors.length))
          match out with
          | none => check log1 w
          | some n =>
            match openOut creatable (some n) w with
            | .error e => (log1, w, .error e)
            | .ok w =>
              match lyndonFileMsgs level text factors (factors.length - 1) 1, lyndonfactorizationMain text with
              | .ok msgs, .ok (_, file) => check (log1 ++ msgs) (writeOut (some n) file w)
              | .error e, _ => (log1, w, .error e)
              | _, .error e => (log1, w, .error e)
        else (log0, w, .error .assert)

end Verif.Model
