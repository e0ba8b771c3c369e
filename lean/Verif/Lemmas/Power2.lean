import Verif.Lemmas.Uniform

/-! # The characteristic word of the powers of two -/

namespace Verif
open Spec Model

/-- the loop that advances the most significant bit -/
theorem power2Msb_ok {j msb : Nat} (hj : 1 ≤ j) (hlt : j < 2 ^ 62) (h : msb = 0 ∨ 2 ^ msb < j) :
    ∃ m, power2Msb j msb = .ok m ∧ (m = 0 ∨ 2 ^ m < j) ∧ j ≤ 2 ^ (m + 1) := by
  have hbound : ∀ m, m = 0 ∨ 2 ^ m < j → m < 62 := by
    intro m hm
    rcases hm with rfl | hm
    · omega
    · exact (Nat.pow_lt_pow_iff_right (by omega)).1 (hm.trans hlt)
  obtain ⟨m, h1, h2, h3⟩ := whileLoop_inv
    (cond := fun msb => (do let p ← shl1 (msb + 1); pure (decide (j > p)) : Res Bool))
    (body := fun msb => (pure (msb + 1) : Res Nat))
    (fun m => m = 0 ∨ 2 ^ m < j) (fun m => j - m) (fuel := j + 1) (s := msb) h (by omega)
    (by
      intro m hm
      have := hbound m hm
      have hs : (do let p ← shl1 (m + 1); pure (decide (j > p)) : Res Bool) = .ok (decide (j > 2 ^ (m + 1))) := by
        rw [shl1, if_pos (by omega)]; rfl
      rw [hs]
      by_cases hgt : j > 2 ^ (m + 1)
      · right
        refine ⟨by rw [decide_eq_true hgt], m + 1, rfl, Or.inr hgt, ?_⟩
        have : m + 1 < 2 ^ (m + 1) := Nat.lt_two_pow_self
        omega
      · left; rw [decide_eq_false hgt])
  refine ⟨m, h1, h2, ?_⟩
  have := hbound m h2
  rw [shl1, if_pos (by omega), ok_bind, pure_ok] at h3
  injection h3 with h3
  simpa using h3

theorem power2_test {j m : Nat} (hj : 1 ≤ j) (h1 : m = 0 ∨ 2 ^ m < j) (h2 : j ≤ 2 ^ (m + 1)) :
    ((j &&& (2 ^ m - 1)) > 0) ↔ ¬ ∃ e, j = 2 ^ e := by
  rw [Nat.and_two_pow_sub_one_eq_mod]
  rcases h1 with rfl | h1
  · simp only [Nat.pow_zero, Nat.mod_one, gt_iff_lt, lt_irrefl, false_iff, not_not]
    rcases (show j = 1 ∨ j = 2 by simp at h2; omega) with rfl | rfl
    · exact ⟨0, rfl⟩
    · exact ⟨1, rfl⟩
  · have hpow : 2 ^ (m + 1) = 2 * 2 ^ m := by rw [Nat.pow_succ, Nat.mul_comm]
    have hp : 0 < 2 ^ m := Nat.two_pow_pos m
    rcases Nat.lt_or_ge j (2 ^ (m + 1)) with h3 | h3
    · have e : j % 2 ^ m = j - 2 ^ m := by
        rw [Nat.mod_eq_sub_mod h1.le, Nat.mod_eq_of_lt (by omega)]
      rw [e]
      refine ⟨fun _ => ?_, fun _ => by omega⟩
      rintro ⟨e, rfl⟩
      have a1 := (Nat.pow_lt_pow_iff_right (a := 2) (by omega)).1 h1
      have a2 := (Nat.pow_lt_pow_iff_right (a := 2) (by omega)).1 h3
      omega
    · have e : j = 2 ^ (m + 1) := by omega
      rw [e, hpow]
      simp only [Nat.mul_mod_left, gt_iff_lt, lt_irrefl, false_iff, not_not]
      exact ⟨m + 1, hpow.symm⟩

open Classical in
/-- the letter at (0-based) position `i` -/
noncomputable def pow2Letter (i : Nat) : UInt8 := if ∃ e, i + 1 = 2 ^ e then 98 else 97

theorem power2_ok {k : Nat} (hk : k ≤ 62) :
    power2Sequence k = .ok ((List.range (2 ^ k - 1)).map pow2Letter ++ [0]) := by
  have hn : 2 ^ k ≤ 2 ^ 62 := Nat.pow_le_pow_right (by omega) hk
  have hn1 : 1 ≤ 2 ^ k := Nat.one_le_two_pow
  unfold power2Sequence
  rw [shl1, if_pos (by omega), ok_bind, zeroed, if_pos (by omega), ok_bind]
  obtain ⟨st, h1, h2, h3⟩ := forRange_inv
    (fun j (st : List UInt8 × Nat) =>
      st.1 = (List.range (j - 1)).map pow2Letter ++ List.replicate (2 ^ k - (j - 1)) 0 ∧ (st.2 = 0 ∨ 2 ^ st.2 < j))
    (lo := 1) (hi := 2 ^ k) (s := (List.replicate (2 ^ k) 0, 0))
    (body := fun j (st : List UInt8 × Nat) => do
      let msb ← power2Msb j st.2
      let p ← shl1 msb
      let m ← usub p 1
      let j1 ← usub j 1
      let text ← wr st.1 j1 (if (j &&& m) > 0 then 97 else 98)
      pure (text, msb)) hn1 ⟨by simp, Or.inl rfl⟩
    (by
      rintro j ⟨text, msb⟩ hj1 hj2 ⟨i1, i2⟩
      simp only at i1 i2
      obtain ⟨m, g1, g2, g3⟩ := power2Msb_ok hj1 (by omega) i2
      have hm : m < 63 := by
        rcases g2 with rfl | g2
        · omega
        · have := (Nat.pow_lt_pow_iff_right (a := 2) (by omega)).1 (g2.trans (hj2.trans_le hn))
          omega
      refine ⟨(text.set (j - 1) (pow2Letter (j - 1)), m), ?_, ?_, ?_⟩
      · simp only [g1, ok_bind]
        rw [shl1, if_pos (by omega), ok_bind, usub_ok Nat.one_le_two_pow, ok_bind, usub_ok hj1, ok_bind,
          wr_ok (by rw [i1]; simp; omega), ok_bind, pure_ok]
        congr 3
        have ht := power2_test hj1 g2 g3
        unfold pow2Letter
        rw [show j - 1 + 1 = j by omega]
        by_cases he : ∃ e, j = 2 ^ e
        · rw [if_pos he, if_neg (by rw [ht]; exact not_not.2 he)]
        · rw [if_neg he, if_pos (ht.2 he)]
      · simp only
        obtain ⟨i, rfl⟩ : ∃ i, j = i + 1 := ⟨j - 1, by omega⟩
        rw [i1, show i + 1 - 1 = i by omega, show i + 1 + 1 - 1 = i + 1 by omega,
          show 2 ^ k - i = (2 ^ k - (i + 1)) + 1 by omega, List.replicate_succ, List.range_succ]
        rw [List.set_append_right _ _ (by simp)]
        simp
      · simp only
        rcases g2 with rfl | g2
        · exact Or.inl rfl
        · exact Or.inr (by omega))
  rw [h1, ok_bind, h2, show 2 ^ k - (2 ^ k - 1) = 1 by omega]; rfl

end Verif
