import Verif.Lemmas.PdAttractor
import Verif.Props.Attractor
import Verif.Props.WordUniform

/-! # C63: the attractor of the period-doubling words

`test_attractor_period_doubling` (`src/bin/is_stringattractor.rs:289-298`) samples the orders 4 to 14. -/

namespace Verif.Props

open Verif Spec Model

/-- C63, about the words: for **every** order `k = n + 3 ≥ 3`, the positions `3·2^(k-3) - 1` and `3·2^(k-2) - 1`
form a string attractor of the `k`-fold iterate of `a → ab`, `b → aa` on `a`. -/
theorem C63_period_doubling_attractor (n : Nat) :
    IsAttractor (iter pdMor (n + 3) [97]) [3 * 2 ^ n - 1, 3 * 2 ^ (n + 1) - 1] := by
  have e : iter pdMor (n + 3) [97] = (List.range (2 ^ (n + 3))).map pd := iter_fixLetter pdMor_eq rfl (n + 3)
  rw [show 3 * 2 ^ (n + 1) = 6 * 2 ^ n by ring]
  refine pd_attractor (by rw [e]; simp; ring) ?_
  intro i h
  have e' : (iter pdMor (n + 3) [97])[i] = pd i := by simp [e]
  rw [e']
  exact pd_spec i

/-- C63, as the repository's test says it, for all its orders and all larger ones the suffix sorter can take:
`is_attractor` accepts `period_doubling_word(i - 1)` with sentinel and the positions `3·2^(i-4) - 1`,
`3·2^(i-3) - 1`, for `4 ≤ i ≤ 31`. -/
theorem C63_test_holds (sufsort : List UInt8 → List Nat) (hs : SortsSuffixes sufsort) (i : Nat) (h4 : 4 ≤ i)
    (h31 : i ≤ 31) :
    ∃ T, periodDoublingWord (i - 1) = .ok T ∧
      isAttractor sufsort (T ++ [0]) [3 * 2 ^ (i - 4) - 1, 3 * 2 ^ (i - 3) - 1] = .ok true := by
  obtain ⟨n, rfl⟩ := Nat.exists_eq_add_of_le' h4
  obtain ⟨w, h1, h2, h3, h5⟩ := C45_period_doubling (n + 3) (by omega)
  have hp : 2 ^ n ≤ 2 ^ 27 := Nat.pow_le_pow_right (by omega) (by omega)
  have hpos : 0 < 2 ^ n := by positivity
  have hl : w.length = 8 * 2 ^ n := by rw [h3]; ring
  refine ⟨w, h1, ?_⟩
  rw [show n + 4 - 4 = n by omega, show n + 4 - 3 = n + 1 by omega]
  refine (C25_attractor_exact sufsort hs w ?_ ?_ (by omega) _ ?_).1.2 ?_
  · rw [← List.length_pos_iff]; omega
  · intro x hx
    obtain ⟨i, hi, rfl⟩ := List.getElem_of_mem hx
    rcases (h5 i hi).1 with h | h <;> rw [h] <;> decide
  · intro p hp
    rw [hl, show 3 * 2 ^ (n + 1) = 6 * 2 ^ n by ring] at *
    simp only [List.mem_cons, List.not_mem_nil, or_false] at hp
    omega
  · rw [h2]
    exact C63_period_doubling_attractor n

example := C63_test_holds naiveSufsort naiveSufsort_sorts 8 (by decide) (by decide)

/-- Concrete case: order 4, positions 5 and 11; shifted by one, they are no attractor. -/
example : periodDoublingWord 4 =
      .ok [97, 98, 97, 97, 97, 98, 97, 98, 97, 98, 97, 97, 97, 98, 97, 97] ∧
    isAttractor naiveSufsort [97, 98, 97, 97, 97, 98, 97, 98, 97, 98, 97, 97, 97, 98, 97, 97, 0] [5, 11] = .ok true ∧
    isAttractor naiveSufsort [97, 98, 97, 97, 97, 98, 97, 98, 97, 98, 97, 97, 97, 98, 97, 97, 0] [6, 12] = .ok false := by
  decide +kernel

end Verif.Props
