import Verif.Lemmas.Uniform
import Mathlib.Data.Nat.Digits.Defs
import Mathlib.Algebra.BigOperators.Group.List.Basic

/-! # Thue–Morse letters by digit sums -/

namespace Verif
open Spec Model

theorem tm_digits (i : Nat) : tm i = if (Nat.digits 2 i).sum % 2 = 0 then 97 else 98 := by
  induction i using Nat.strong_induction_on with
  | _ i ih =>
    rcases Nat.eq_zero_or_pos i with rfl | hi
    · rw [tm, fixLetter_zero]; simp
    · have hq := ih (i / 2) (by omega)
      rw [Nat.digits_def' (by omega) hi, List.sum_cons]
      rcases Nat.mod_two_eq_zero_or_one i with h | h
      · rw [h, Nat.zero_add, ← hq]
        have e : i = 2 * (i / 2) := by omega
        conv_lhs => rw [tm, e, fixLetter_even rfl]
        show tm0 (tm (i / 2)) = _
        rcases tm_values (i / 2) with h | h <;> rw [h] <;> decide
      · rw [h]
        have e : i = 2 * (i / 2) + 1 := by omega
        conv_lhs => rw [tm, e, fixLetter_odd]
        show tm1 (tm (i / 2)) = _
        rw [hq]
        rcases Nat.mod_two_eq_zero_or_one (Nat.digits 2 (i / 2)).sum with h | h
        · rw [if_pos h, if_neg (by omega)]; decide
        · rw [if_neg (by omega), if_pos (by omega)]; decide

end Verif
