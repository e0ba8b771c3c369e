import Mathlib.Data.List.Lex

/-!
# Specification vocabulary: words

Textbook notions used in the property statements.  Nothing here refers to the model.
Words are lists; `<` on words is the lexicographic order (a proper prefix is smaller), which is
Rust's order on slices.
-/

namespace Verif.Spec

variable {α : Type}

/-- The `i`-th rotation (conjugate) `w[i..] ++ w[..i]`. -/
def rot (i : Nat) (w : List α) : List α := w.drop i ++ w.take i

/-- `u` and `w` are rotations of one another. -/
def Conj (u w : List α) : Prop := ∃ i, i ≤ w.length ∧ u = rot i w

/-- A Lyndon word: non-empty and strictly smaller than each of its proper non-empty suffixes. -/
def IsLyndon [LinearOrder α] (w : List α) : Prop :=
  w ≠ [] ∧ ∀ u v, u ≠ [] → v ≠ [] → w = u ++ v → w < v

/-- A Lyndon factorization of `t`: Lyndon words in non-increasing order whose concatenation is `t`. -/
def IsLyndonFactorization [LinearOrder α] (fs : List (List α)) (t : List α) : Prop :=
  fs.flatten = t ∧ (∀ f ∈ fs, IsLyndon f) ∧ fs.Pairwise (fun f g => g ≤ f)

/-- `t` has exactly `n` Lyndon factors. -/
def LyndonFactors [LinearOrder α] (t : List α) (n : Nat) : Prop :=
  (∃ fs, IsLyndonFactorization fs t) ∧ ∀ fs, IsLyndonFactorization fs t → fs.length = n

/-- The pieces `t[s..=e0]`, `t[e0+1..=e1]`, ... cut by the (inclusive) end positions `e0, e1, ...`. -/
def pieces (t : List α) : Nat → List Nat → List (List α)
  | _, [] => []
  | s, e :: es => (t.drop s).take (e + 1 - s) :: pieces t (e + 1) es

/-- A necklace: not larger than any of its rotations. -/
def IsNecklace [LinearOrder α] (w : List α) : Prop := ∀ i, i < w.length → w ≤ rot i w

/-- `p` is a period of `w`. -/
def IsPeriod (p : Nat) (w : List α) : Prop := ∀ i, i + p < w.length → w[i]? = w[i + p]?

/-- `b` is the length of a proper border of `w`: the prefix and the suffix of length `b` agree. -/
def IsBorderLen (b : Nat) (w : List α) : Prop := b < w.length ∧ w.take b = w.drop (w.length - b)

/-- `k`-fold repetition. -/
def power (u : List α) : Nat → List α
  | 0 => []
  | k + 1 => u ++ power u k

/-- Not a repetition `u^k` with `k ≥ 2`. -/
def IsPrimitive (w : List α) : Prop := ¬ ∃ u k, 2 ≤ k ∧ w = power u k

end Verif.Spec
