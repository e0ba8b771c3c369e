import Verif.Lemmas.Overlap
import Verif.Props.WordUniform
import Verif.Props.WordMore

/-! # C79, C80: the words of `word` without repetitions -/

namespace Verif.Props
open Spec Model

/-- C79: for every order the code supports, `thuemorse_word` succeeds and its word is overlap-free: no factor has
the form `cucuc`. -/
theorem C79_thuemorse_overlap_free (k : Nat) (hk : k ≤ 62) : ∃ w, thuemorseWord k = .ok w ∧ OverlapFree w :=
  ⟨_, thuemorse_ok hk, tm_overlapFree _⟩

example := C79_thuemorse_overlap_free 62 (by decide)

/-- C79: in particular no nonempty word occurs three times in a row, whatever the order. -/
theorem C79_thuemorse_cube_free (k : Nat) (w : List UInt8) (h : thuemorseWord k = .ok w) (u : List UInt8)
    (hu : u ≠ []) : ¬ (u ++ u ++ u) <:+: w := by
  have hk : k ≤ 62 := by
    by_contra hk
    rcases C43_limit k (by omega) with e | e <;> rw [e] at h <;> cases h
  rw [thuemorse_ok hk] at h
  cases h
  intro hi
  obtain ⟨c, v, rfl⟩ := List.exists_cons_of_ne_nil hu
  refine tm_overlapFree (2 ^ k) c v (List.IsInfix.trans ?_ hi)
  exact ⟨[], v, by simp⟩

example := C79_thuemorse_cube_free 3 [97, 98, 98, 97, 98, 97, 97, 98] (by decide +kernel) [98, 97] (by decide)

/-- The word of order 3, with a square (`bb`) but no overlap; a square prolonged by its first letter is an overlap. -/
example : thuemorseWord 3 = .ok [97, 98, 98, 97, 98, 97, 97, 98] ∧
    ¬ OverlapFree ([97, 98, 97, 98, 97] : List UInt8) := by
  refine ⟨by decide +kernel, fun h => h 97 [98] ⟨[], [], rfl⟩⟩

/-- C80: for every order the code supports (see C51), `vtm_word` succeeds, its word has 1 letter for order 0 and
`3 * 2^(k-1)` letters for order `k`, and no nonempty word occurs twice in a row in it.  (`fuel` bounds the rounds of
the model's loops: any number larger than the length of the word will do.) -/
theorem C80_vtm_square_free (k : Nat) (hk : k ≤ 29) (fuel : Nat) (hfuel : 3 * 2 ^ k < fuel) :
    ∃ w, vtmWord fuel k = .ok w ∧ w.length = (if k = 0 then 1 else 3 * 2 ^ (k - 1)) ∧ SquareFree w := by
  have hn := vtm_iter k
  refine ⟨_, C51_vtm_word_partial k hk fuel ?_, ?_, ?_⟩
  · rw [hn, List.length_map, List.length_range]
    have : 2 ^ (k - 1) ≤ 2 ^ k := Nat.pow_le_pow_right (by omega) (by omega)
    have := Nat.two_pow_pos k
    split <;> omega
  · rw [hn, List.length_map, List.length_range]
  · rw [hn]
    exact vtm_squareFree _

example := C80_vtm_square_free 3 (by decide) 25 (by decide)

/-- C80: the letters of the word tell how the Thue–Morse word goes on: `a` for a step from `a` to `b`, `c` for a
step from `b` to `a`, `b` for two equal letters. -/
theorem C80_vtm_letters (k : Nat) (hk : k ≤ 29) (fuel : Nat) (hfuel : 3 * 2 ^ k < fuel) :
    vtmWord fuel k = .ok ((List.range (if k = 0 then 1 else 3 * 2 ^ (k - 1))).map (fun i =>
      if (Nat.digits 2 i).sum % 2 = (Nat.digits 2 (i + 1)).sum % 2 then 98
      else if (Nat.digits 2 i).sum % 2 = 0 then 97 else 99)) := by
  have hn := vtm_iter k
  rw [C51_vtm_word_partial k hk fuel ?_, hn]
  swap
  · rw [hn, List.length_map, List.length_range]
    have : 2 ^ (k - 1) ≤ 2 ^ k := Nat.pow_le_pow_right (by omega) (by omega)
    have := Nat.two_pow_pos k
    split <;> omega
  congr 1
  apply List.map_congr_left
  intro i _
  have e : ∀ j, tmb j = decide ((Nat.digits 2 j).sum % 2 ≠ 0) := by
    intro j
    unfold tmb
    rw [tm_digits j]
    by_cases h : (Nat.digits 2 j).sum % 2 = 0 <;> simp [h]
  unfold vtmLetter
  rw [e, e]
  generalize (Nat.digits 2 i).sum = x, (Nat.digits 2 (i + 1)).sum = y
  rcases Nat.mod_two_eq_zero_or_one x with a | a <;>
    rcases Nat.mod_two_eq_zero_or_one y with b | b <;> simp [a, b]

example := C80_vtm_letters 3 (by decide) 25 (by decide)

example : vtmWord 25 3 = .ok [97, 98, 99, 97, 99, 98, 97, 98, 99, 98, 97, 99] ∧
    ¬ SquareFree ([97, 98, 97, 98] : List UInt8) := by
  refine ⟨by decide +kernel, fun h => h [97, 98] (by simp) ⟨[], [], rfl⟩⟩

end Verif.Props
