import Verif.Props.Generators
import Verif.Lemmas.Mus

/-! # C37: everything `BinaryStringGenerator` returns -/

namespace Verif.Props

open Verif Spec Model

/-- The string of the `len` lowest bits of `q`, lowest bit first. -/
def bitString (len q : Nat) : List UInt8 := (List.range len).map fun i => if q.testBit i then 49 else 48

theorem bsg_all {len : Nat} (hl : len ≤ 64) (k : Nat) : ∀ (r : Nat),
    runIter BinaryStringGenerator.next k ⟨len, min r 18446744073709551615⟩ = .ok ((List.range' r k).map fun q =>
      if q < 18446744073709551615 then some (bitString len q) else none) := by
  induction k with
  | zero => intro r; rfl
  | succ k ih =>
    intro r
    by_cases hr : r < 18446744073709551615
    · have e := ih (r + 1)
      rw [Nat.min_eq_left (show r + 1 ≤ 18446744073709551615 by omega)] at e
      rw [Nat.min_eq_left (Nat.le_of_lt hr)]
      simp only [runIter, bsg_next hl hr, ok_bind, e, pure_ok]
      rw [List.range'_succ, List.map_cons, if_pos hr]; rfl
    · have e := ih (r + 1)
      rw [Nat.min_eq_right (show 18446744073709551615 ≤ r + 1 by omega)] at e
      rw [Nat.min_eq_right (Nat.not_lt.1 hr)]
      have : BinaryStringGenerator.next ⟨len, 18446744073709551615⟩ = .ok (none, ⟨len, 18446744073709551615⟩) := by
        rw [BinaryStringGenerator.next, if_pos rfl, pure_ok]
      simp only [runIter, this, ok_bind, e, pure_ok]
      rw [List.range'_succ, List.map_cons, if_neg hr]

/-- C37, the exact results (missing: see `C37_refuted`): for lengths up to 64, call number `q` (from 0 on) gives the
string of the bits of `q`, lowest bit first, as long as `q < 2^64 - 1`, and nothing from then on. -/
theorem C37_exact_partial (len : Nat) (hl : len ≤ 64) (k : Nat) :
    runIter BinaryStringGenerator.next k (BinaryStringGenerator.new len) = .ok ((List.range k).map fun q =>
      if q < 2 ^ 64 - 1 then some (bitString len q) else none) := by
  rw [List.range_eq_range']
  exact bsg_all hl k 0

/-- For length 64 one string, the one of 64 bytes `'1'`, is therefore never returned. -/
theorem C37_last_missing_refuted (k : Nat) : ∃ ws, runIter BinaryStringGenerator.next k (BinaryStringGenerator.new 64) =
    .ok ws ∧ some (List.replicate 64 49) ∉ ws := by
  refine ⟨_, C37_exact_partial 64 (by omega) k, fun h => ?_⟩
  obtain ⟨q, _, hq⟩ := List.mem_map.1 h
  split at hq
  · rename_i hlt
    injection hq with hq
    have hbit : ∀ i, i < 64 → q.testBit i = true := by
      intro i hi
      have h1 : (bitString 64 q)[i]? = some 49 := by
        rw [hq, List.getElem?_replicate, if_pos hi]
      rw [bitString, List.getElem?_map, List.getElem?_range hi, Option.map_some] at h1
      injection h1 with h1
      by_contra hb
      rw [if_neg hb] at h1
      exact absurd h1 (by decide)
    have : q = 2 ^ 64 - 1 := by
      apply Nat.eq_of_testBit_eq
      intro i
      rw [Nat.testBit_two_pow_sub_one]
      by_cases hi : i < 64
      · rw [hbit i hi, decide_eq_true hi]
      · rw [decide_eq_false hi]
        apply Nat.testBit_lt_two_pow
        exact Nat.lt_of_lt_of_le (show q < 2 ^ 64 by omega) (Nat.pow_le_pow_right (by omega) (by omega))
    omega
  · cases hq

/-- For longer strings the first call panics. -/
theorem C37_limit (len : Nat) (hl : 64 < len) (k : Nat) :
    runIter BinaryStringGenerator.next (k + 1) (BinaryStringGenerator.new len) = .error .arith := by
  have h : BinaryStringGenerator.next (BinaryStringGenerator.new len) = .error .arith := by
    rw [BinaryStringGenerator.next, BinaryStringGenerator.new, if_neg (show ¬ (0 : Nat) = _ by omega)]
    dsimp only
    rw [forRange_error (e := .arith) (m := 64) (Nat.zero_le _) hl]
    · rfl
    · intro i s _ hi
      left
      rw [if_pos hi, pure_ok]
      exact ⟨_, rfl⟩
    · intro s
      rw [if_neg (by omega)]
  simp only [runIter, h]; rfl

example := C37_limit 65 (by decide) 3

example : runIter BinaryStringGenerator.next 3 (BinaryStringGenerator.new 2) =
    .ok [some [48, 48], some [49, 48], some [48, 49]] := by
  rw [C37_exact_partial 2 (by omega)]; decide

end Verif.Props
