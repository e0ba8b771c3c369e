import Verif.Byte
import Mathlib.Data.List.Infix

/-! # Specification vocabulary: morphisms and the words generated by them -/

namespace Verif.Spec

variable {α : Type}

/-- The `k`-fold application of the morphism `f` to the word `w`. -/
def iter (f : α → List α) : Nat → List α → List α
  | 0, w => w
  | k + 1, w => (iter f k w).flatMap f

/-- Fibonacci words: `a`, `ab`, and then each word is the previous one followed by the one before. -/
def fibWord : Nat → List UInt8
  | 0 => [97]
  | 1 => [97, 98]
  | k + 2 => fibWord (k + 1) ++ fibWord k

/-- Tribonacci words: `a`, `ab`, `abac`, and then the three previous words, latest first. -/
def tribWord : Nat → List UInt8
  | 0 => [97]
  | 1 => [97, 98]
  | 2 => [97, 98, 97, 99]
  | k + 3 => tribWord (k + 2) ++ tribWord (k + 1) ++ tribWord k

/-- The morphism `a -> ab, b -> a`. -/
def fibMor (c : UInt8) : List UInt8 := if c = 97 then [97, 98] else [97]

/-- The morphism `a -> ab, b -> ac, c -> a`. -/
def tribMor (c : UInt8) : List UInt8 := if c = 97 then [97, 98] else if c = 98 then [97, 99] else [97]

/-- The morphism `a -> ab, b -> ba`. -/
def tmMor (c : UInt8) : List UInt8 := if c = 97 then [97, 98] else [98, 97]

/-- The morphism `a -> ab, b -> aa`. -/
def pdMor (c : UInt8) : List UInt8 := if c = 97 then [97, 98] else [97, 97]

/-- The morphism `d -> db, b -> cb, c -> da, a -> ca`. -/
def paperMor (c : UInt8) : List UInt8 :=
  if c = 100 then [100, 98] else if c = 98 then [99, 98] else if c = 99 then [100, 97] else [99, 97]

/-- The morphism `a -> abc, b -> ac, c -> b`. -/
def vtmMor (c : UInt8) : List UInt8 :=
  if c = 97 then [97, 98, 99] else if c = 98 then [97, 99] else [98]

/-- The morphism `a -> aab, b -> ab`. -/
def lyndonMor (c : UInt8) : List UInt8 := if c = 97 then [97, 97, 98] else [97, 98]

/-- Tribonacci numbers 1, 2, 4, 7, 13, ... -/
def tribNum : Nat → Nat
  | 0 => 1
  | 1 => 2
  | 2 => 4
  | k + 3 => tribNum (k + 2) + tribNum (k + 1) + tribNum k

end Verif.Spec
