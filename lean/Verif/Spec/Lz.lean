import Verif.Model.Lz

/-! # Specification vocabulary: Lempel-Ziv and lex parses

Only the record type `LZFactor` is shared with the model. -/

namespace Verif.Spec

open Verif.Model (LZFactor)

/-- The `l` letters of `t` at `j` and at `i` exist and agree. -/
def Occ {α : Type} (t : List α) (j i l : Nat) : Prop :=
  j + l ≤ t.length ∧ i + l ≤ t.length ∧ ∀ k, k < l → t[j + k]? = t[i + k]?

/-- `fs` is the greedy LZ77 parse of `t[i..]`: a letter not seen before is a literal; otherwise a factor
copies, from an earlier start at distance `pos`, the longest length any earlier start offers. -/
def GreedyLz (t : List UInt8) : Nat → List LZFactor → Prop
  | i, [] => i = t.length
  | i, f :: fs =>
    (∃ c, t[i]? = some c ∧ f = ⟨c.toNat, 0⟩ ∧ (∀ j, j < i → t[j]? ≠ some c) ∧
      GreedyLz t (i + 1) fs) ∨
    (0 < f.len ∧ (∃ j, j < i ∧ f.pos = i - j ∧ Occ t j i f.len) ∧
      (∀ j l, j < i → Occ t j i l → l ≤ f.len) ∧ GreedyLz t (i + f.len) fs)

/-- `ls` are the phrase lengths of some parse of `t[i..]` into single letters and copies from earlier
starts (overlap allowed). -/
def IsParse (t : List UInt8) : Nat → List Nat → Prop
  | i, [] => i = t.length
  | i, l :: ls => i + l ≤ t.length ∧ (l = 1 ∨ ∃ j, j < i ∧ Occ t j i l) ∧ IsParse t (i + l) ls

/-- `z` is the smallest number of phrases of a parse of `t`. -/
def MinParse (t : List UInt8) (z : Nat) : Prop :=
  (∃ ls, IsParse t 0 ls ∧ ls.length = z) ∧ ∀ ls, IsParse t 0 ls → z ≤ ls.length

/-- The number of letters a factor stands for. -/
def factorLength (f : LZFactor) : Nat := if f.len = 0 then 1 else f.len

/-- The text `s` satisfies the equations stated by the lex-parse factors `fs` placed from position `i`:
a literal names its letter, a copy `(pos, len)` states `s[i..i+len) = s[pos..pos+len)`; the factors end at
the end of `s`. -/
def Satisfies (s : List UInt8) : Nat → List LZFactor → Prop
  | i, [] => i = s.length
  | i, f :: fs =>
    ((f.len = 0 ∧ ∃ c, s[i]? = some c ∧ f.pos = c.toNat) ∨ (0 < f.len ∧ Occ s f.pos i f.len)) ∧
      Satisfies s (i + factorLength f) fs

/-- The last positions of consecutive phrases of the lengths `ls`, the first one starting at `i`. -/
def phraseEnds : Nat → List Nat → List Nat
  | _, [] => []
  | i, l :: ls => (i + l - 1) :: phraseEnds (i + l) ls

end Verif.Spec
