import Verif.Spec.Attractor

/-! # Specification vocabulary: the suffix tree of a text -/

namespace Verif.Spec

variable {α : Type}

/-- The text continues an occurrence of `u` with the letter `a`, but not every occurrence: another one is followed by another letter or
stands at the end of the text.  (The empty word occurs everywhere, also at the end.) -/
def Forks (T u : List α) (a : α) : Prop :=
  (u ++ [a]) <:+: T ∧ ∃ j, OccursAt u T j ∧ ¬ OccursAt (u ++ [a]) T j

/-- An edge of the suffix tree: the word of the upper node, the first letter of the edge, the word of the lower node and the first and the
last entry of the suffix array that belong to the lower node. -/
structure TreeEdge (α : Type) where
  upper : List α
  letter : α
  lower : List α
  first : Nat
  last : Nat

/-- The word of the upper node and the first letter of the edge. -/
def TreeEdge.stem (x : TreeEdge α) : List α := x.upper ++ [x.letter]

/-- `L` lists the edges of the suffix tree of `T`, each once, with the intervals of the list of positions `sa`: the edges leave the words at
which the text forks; the lower word is the longest word every occurrence of the stem extends to; its interval consists of
the entries at which it occurs. -/
structure IsSuffixTree (T : List α) (sa : List Nat) (L : List (TreeEdge α)) : Prop where
  once : (L.map TreeEdge.stem).Nodup
  forks : ∀ u a, (∃ x ∈ L, x.upper = u ∧ x.letter = a) ↔ Forks T u a
  lower : ∀ x ∈ L, ∀ v, x.stem <+: v → ((∀ j, OccursAt x.stem T j → OccursAt v T j) ↔ v <+: x.lower)
  interval : ∀ x ∈ L, ∀ r (h : r < sa.length), (x.first ≤ r ∧ r ≤ x.last) ↔ OccursAt x.lower T sa[r]
  range : ∀ x ∈ L, x.first ≤ x.last ∧ x.last < sa.length

/-- The edges are listed in postorder, from left to right: an edge comes before the others that end further to the right, and before the
shorter ones that end at the same entry. -/
def PostOrder (L : List (TreeEdge α)) : Prop :=
  L.Pairwise fun x y => x.last < y.last ∨ (x.last = y.last ∧ y.lower.length < x.lower.length)

/-- The beginning of a list up to and including the first entry with the property. -/
def throughFirst (p : α → Prop) [DecidablePred p] : List α → List α
  | [] => []
  | x :: xs => if p x then [x] else x :: throughFirst p xs

example : throughFirst (fun x => x = 2) [1, 3, 2, 5, 2] = [1, 3, 2] := by decide

end Verif.Spec
