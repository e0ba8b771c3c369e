import Mathlib.Data.Int.Log
import Mathlib.Algebra.Order.Round
import Verif.Lemmas.RoundingKmer

/-! # Rounding to the nearest `f64` is accurate -/

namespace Verif

open Verif.Model Verif.Spec

/-- Every number in the normal range has a close double. -/
theorem exists_double {x : ℝ} (h1 : tiny ≤ |x|) (h2 : |x| ≤ huge) :
    ∃ f, IsDouble f ∧ |f - x| ≤ 1 / 2 ^ 53 * |x| := by
  have hx : 0 < |x| := lt_of_lt_of_le tiny_pos h1
  set e := Int.log 2 |x| with he
  have l1 : (2 : ℝ) ^ e ≤ |x| := by
    have := Int.zpow_log_le_self (b := 2) (by norm_num) hx
    simpa using this
  have l2 : |x| < (2 : ℝ) ^ (e + 1) := by
    have := Int.lt_zpow_succ_log_self (b := 2) (by norm_num) |x|
    simpa using this
  have e1 : -1000 ≤ e := by
    by_contra hc
    push Not at hc
    have : (2 : ℝ) ^ (e + 1) ≤ 2 ^ (-1000 : ℤ) := zpow_le_zpow_right₀ (by norm_num) (by omega)
    have ht : tiny = (2 : ℝ) ^ (-1000 : ℤ) := by unfold tiny; rw [zpow_neg, one_div]; norm_cast
    linarith
  have e2 : e ≤ 1000 := by
    by_contra hc
    push Not at hc
    have : (2 : ℝ) ^ (1001 : ℤ) ≤ 2 ^ e := zpow_le_zpow_right₀ (by norm_num) (by omega)
    have ht : huge < (2 : ℝ) ^ (1001 : ℤ) := by
      unfold huge
      rw [← zpow_natCast]
      exact zpow_lt_zpow_right₀ (by norm_num) (by norm_num)
    linarith
  set s : ℝ := (2 : ℝ) ^ (e - 52) with hs
  have hs0 : 0 < s := by positivity
  have hes : (2 : ℝ) ^ e = s * 2 ^ 52 := by
    rw [hs, zpow_sub₀ (by norm_num)]
    have : (2 : ℝ) ^ (52 : ℤ) = 2 ^ 52 := by norm_cast
    rw [this]; field_simp
  have hes1 : (2 : ℝ) ^ (e + 1) = s * 2 ^ 53 := by
    rw [zpow_add_one₀ (by norm_num), hes]; ring
  set m := round (x / s) with hm
  have hr : |x / s - m| ≤ 1 / 2 := abs_sub_round (x / s)
  have herr : |(m : ℝ) * s - x| ≤ s / 2 := by
    have : (m : ℝ) * s - x = -((x / s - m) * s) := by field_simp; ring
    rw [this, abs_neg, abs_mul, abs_of_pos hs0]
    nlinarith
  refine ⟨m * s, ?_, ?_⟩
  · have hxs : |x / s| < 2 ^ 53 := by
      rw [abs_div, abs_of_pos hs0, div_lt_iff₀ hs0, mul_comm]
      rw [← hes1]; exact l2
    have hmr : |(m : ℝ)| < 2 ^ 53 + 1 := by
      have : |(m : ℝ)| ≤ |(m : ℝ) - x / s| + |x / s| := by simpa using abs_add_le ((m : ℝ) - x / s) (x / s)
      rw [abs_sub_comm] at this
      linarith
    have hmz : |m| ≤ 2 ^ 53 := by
      have : ((|m| : ℤ) : ℝ) < ((2 ^ 53 + 1 : ℤ) : ℝ) := by
        rw [Int.cast_abs]
        refine lt_of_lt_of_le hmr (le_of_eq ?_)
        norm_num
      have := Int.cast_lt.1 this
      omega
    rcases lt_or_eq_of_le hmz with h | h
    · exact ⟨m, e - 52, h, by omega, by omega, rfl⟩
    · have hmm : m = 2 ^ 53 ∨ m = -2 ^ 53 := by
        rcases abs_choice m with h' | h' <;> omega
      have hss : s * 2 = (2 : ℝ) ^ (e - 52 + 1) := by rw [zpow_add_one₀ (by norm_num)]
      rcases hmm with h' | h'
      · refine ⟨2 ^ 52, e - 52 + 1, by norm_num, by omega, by omega, ?_⟩
        rw [← hss, h']; push_cast; ring
      · refine ⟨-2 ^ 52, e - 52 + 1, by norm_num, by omega, by omega, ?_⟩
        rw [← hss, h']; push_cast; ring
  · refine herr.trans ?_
    have : s * 2 ^ 52 ≤ |x| := by rw [← hes]; exact l1
    rw [div_mul_eq_mul_div, one_mul, le_div_iff₀ (by positivity)]
    calc s / 2 * 2 ^ 53 = s * 2 ^ 52 := by ring
      _ ≤ _ := this

theorem Spec.IsDouble.of_nat {n : Nat} (hn : n ≤ 9007199254740992) : IsDouble n := by
  rcases Nat.lt_or_eq_of_le hn with h | h
  · refine ⟨n, 0, ?_, by omega, by omega, by simp⟩
    rw [abs_of_nonneg (by omega)]
    norm_num
    omega
  · refine ⟨2 ^ 52, 1, by norm_num, by omega, by omega, ?_⟩
    rw [h]; norm_num

theorem Spec.IsDouble.tiny : IsDouble Spec.tiny := by
  refine ⟨1, -1000, by norm_num, by omega, by omega, ?_⟩
  unfold Spec.tiny
  rw [zpow_neg, Int.cast_one, one_mul, one_div]
  norm_cast

theorem Spec.IsDouble.neg {f : ℝ} (h : IsDouble f) : IsDouble (-f) := by
  obtain ⟨m, e, h1, h2, h3, rfl⟩ := h
  exact ⟨-m, e, by rwa [abs_neg], h2, h3, by push_cast; ring⟩

theorem huge_big : Spec.tiny ≤ huge ∧ (9007199254740992 : ℝ) ≤ huge := by
  have := le_huge
  have h2 := tiny_le'
  constructor
  · exact h2.trans (le_trans (by norm_num) this)
  · exact le_trans (by norm_num) this

theorem Spec.Binary64.fl_double {A : Arith} (h : Binary64 A) {f : ℝ} (hf : IsDouble f) (hb : |f| ≤ huge) :
    A.fl f = f := by
  have := (h.nearest f hb).2 f hf
  rw [sub_self, abs_zero] at this
  have := abs_nonpos_iff.1 this
  linarith

theorem Spec.Binary64.fl_mono {A : Arith} (h : Binary64 A) {x y : ℝ} (hx : |x| ≤ huge) (hy : |y| ≤ huge)
    (hxy : x ≤ y) : A.fl x ≤ A.fl y := by
  rcases eq_or_lt_of_le hxy with rfl | hlt
  · exact le_refl _
  obtain ⟨a1, a2⟩ := h.nearest x hx
  obtain ⟨b1, b2⟩ := h.nearest y hy
  by_contra hc
  push Not at hc
  have h1 := a2 _ b1
  have h2 := b2 _ a1
  set p := A.fl x
  set q := A.fl y
  have h1' := (sq_le_sq).2 h1
  have h2' := (sq_le_sq).2 h2
  nlinarith

/-- Double precision arithmetic satisfies the standard model. -/
theorem Spec.Binary64.accurate {A : Arith} (h : Binary64 A) : Accurate A (1 / 2 ^ 53) (1 / 2 ^ 52) where
  u_nonneg := by positivity
  u_le := by norm_num
  v_nonneg := by positivity
  v_le := by norm_num
  fl_err := by
    intro x h1 h2
    obtain ⟨f, f1, f2⟩ := exists_double h1 h2
    exact ((h.nearest x h2).2 f f1).trans f2
  fl_tiny := by
    intro x hx
    have ht := tiny_pos
    have hb : |x| ≤ huge := hx.trans huge_big.1
    have hb2 : |tiny| ≤ huge := by rw [abs_of_pos ht]; exact huge_big.1
    have e1 := h.fl_double IsDouble.tiny hb2
    have e2 := h.fl_double IsDouble.tiny.neg (by rwa [abs_neg])
    rw [abs_le] at hx ⊢
    constructor
    · have := h.fl_mono (x := -tiny) (y := x) (by rwa [abs_neg]) hb hx.1
      rwa [e2] at this
    · have := h.fl_mono hb hb2 hx.2
      rwa [e1] at this
  fl_mono := fun x y hx hy hxy => h.fl_mono hx hy hxy
  fl_nat := by
    intro n hn
    apply h.fl_double (IsDouble.of_nat hn)
    rw [abs_of_nonneg (Nat.cast_nonneg _)]
    have : (n : ℝ) ≤ 9007199254740992 := by exact_mod_cast hn
    exact this.trans huge_big.2
  lg_err := by
    intro x h1 h2
    exact h.log2 _ (h.nearest x h1).1 h2

end Verif
