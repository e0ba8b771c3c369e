import Verif.Model.Lz
import Verif.Model.Generators
import Verif.Spec.LyndonFile

/-! # Model of `main` in `src/bin/enumerate_lexparse.rs`

The constants `length = 32` and `alphabet_size = 2` are parameters.  The list `perms` stands for
`items.iter().permutations(items.len()).unique()` (crate `itertools`). -/

namespace Verif.Model

open Verif Spec

/-- `items`: the letters `a`, `b`, ... .  src/bin/enumerate_lexparse.rs:70-73 -/
def lexItems (alphabetSize : Nat) : List UInt8 :=
  (List.range alphabetSize).map fun i => UInt8.ofNat (97 + i)

/-- `char_map[&c]`, where `char_map` maps `b'a' + i` to `perm[i]`; a missing key panics.
src/bin/enumerate_lexparse.rs:77-80, 83 -/
def charMap (perm : List UInt8) (c : UInt8) : Res UInt8 :=
  if 97 ≤ c.toNat then
    match perm[c.toNat - 97]? with
    | some x => .ok x
    | none => .error .explicit
  else .error .explicit

/-- The renamed text: all letters but the last one are mapped.  src/bin/enumerate_lexparse.rs:81-84 -/
def lexRename (perm origtext : List UInt8) : Res (List UInt8) := do
  let m ← usub origtext.length 1
  forRange 0 m origtext (fun i text => do
    let c ← rd origtext i
    let x ← charMap perm c
    wr text i x)

/-- One permutation: rename, factorize, remember the number of factors.
src/bin/enumerate_lexparse.rs:74-98 -/
def lexPermRound (sufsort : List UInt8 → List Nat) (origtext perm : List UInt8)
    (list : List (Nat × List UInt8)) : Res (List (Nat × List UInt8)) := do
  let text ← lexRename perm origtext
  let factors ← countLexparseFactors sufsort text
  pure (list ++ [(factors.length, text)])

/-- `{:?}` of a `str` consisting of letters `a`..`z` and zero bytes; other strings do not occur (they are an
error here).  src/bin/enumerate_lexparse.rs:106-107 -/
def lexDebug (text : List UInt8) : Res (List UInt8) := do
  let body ← text.mapM (fun c =>
    if c = 0 then .ok (ascii "\\0")
    else if 97 ≤ c.toNat ∧ c.toNat ≤ 122 then .ok [c] else .error .explicit)
  pure ([34] ++ body.flatten ++ [34])

/-- One text of the outer loop; state: the output and `largest_difference`.
src/bin/enumerate_lexparse.rs:64-112 -/
def lexTextRound (sufsort : List UInt8 → List Nat) (perms : List (List UInt8)) (origtext : List UInt8)
    (s : List UInt8 × Nat) : Res (List UInt8 × Nat) := do
  let list ← forEach perms [] (lexPermRound sufsort (origtext ++ [0]))
  let list := stableSort (fun a b => decide (a.1 ≤ b.1)) list
  match list.getLast? with
  | none => .error .unwrap
  | some last => do
    let first ← rd list 0
    let distance ← usub last.1 first.1
    if distance ≥ s.2 then do
      let x ← lexDebug first.2
      let y ← lexDebug last.2
      pure (s.1 ++ decimal distance ++ ascii ": " ++ x ++ ascii " <-> " ++ y ++ [10], distance)
    else pure s

/-- `main`: what it prints.  src/bin/enumerate_lexparse.rs:47-114 -/
def enumerateLexparseMain (sufsort : List UInt8 → List Nat) (alphabetSize length : Nat)
    (perms : List (List UInt8)) : Res (List UInt8) := do
  let texts ← kmerTexts alphabetSize length
  let s ← forEach texts ([], 0) (lexTextRound sufsort perms)
  pure s.1

end Verif.Model
