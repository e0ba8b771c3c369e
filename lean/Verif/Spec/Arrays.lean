import Verif.Spec.Words

/-!
# Specification vocabulary: permutations, suffix arrays, common prefixes, smaller values
-/

namespace Verif.Spec

variable {α : Type}

/-- `p` is a permutation of `0..p.length`. -/
def IsPermutation (p : List Nat) : Prop := p.Perm (List.range p.length)

/-- `q` is the inverse of the permutation `p`. -/
def IsInverse (p q : List Nat) : Prop :=
  q.length = p.length ∧ (∀ i, i < p.length → ∃ x, p[i]? = some x ∧ q[x]? = some i) ∧
    (∀ i, i < p.length → ∃ x, q[i]? = some x ∧ p[x]? = some i)

/-- `sa` lists the start positions of all (non-empty) suffixes of `t` in increasing lexicographic order
of the suffixes. -/
def IsSuffixArray [LinearOrder α] (t : List α) (sa : List Nat) : Prop :=
  sa.Perm (List.range t.length) ∧ sa.Pairwise (fun a b => t.drop a < t.drop b)

/-- Length of the longest common prefix. -/
def lcpLen [DecidableEq α] : List α → List α → Nat
  | a :: u, b :: v => if a = b then lcpLen u v + 1 else 0
  | _, _ => 0

/-- `v` is the previous-smaller-value entry for index `i`: the largest `j < i` with `arr[j] < arr[i]`,
or `invalid` if there is none. -/
def IsPsv [LinearOrder α] (invalid : Nat) (arr : List α) (i v : Nat) : Prop :=
  ∃ x, arr[i]? = some x ∧
    ((v = invalid ∧ ∀ j y, j < i → arr[j]? = some y → x ≤ y) ∨
     (v < i ∧ (∃ y, arr[v]? = some y ∧ y < x) ∧ ∀ j y, v < j → j < i → arr[j]? = some y → x ≤ y))

/-- `v` is the next-smaller-value entry for index `i`: the smallest `j > i` with `arr[j] < arr[i]`,
or `invalid` if there is none. -/
def IsNsv [LinearOrder α] (invalid : Nat) (arr : List α) (i v : Nat) : Prop :=
  ∃ x, arr[i]? = some x ∧
    ((v = invalid ∧ ∀ j y, i < j → arr[j]? = some y → x ≤ y) ∨
     (i < v ∧ (∃ y, arr[v]? = some y ∧ y < x) ∧ ∀ j y, i < j → j < v → arr[j]? = some y → x ≤ y))

end Verif.Spec
