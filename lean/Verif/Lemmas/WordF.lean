import Verif.Model.WordF
import Verif.Lemmas.Binary64
import Mathlib.NumberTheory.Real.GoldenRatio

/-! # Rounding errors of the length estimates -/

namespace Verif

open Verif.Model Verif.Spec

variable {A : Arith} {u v : ℝ}

/-- `y` is `x` up to the relative error of `N` roundings. -/
def Rel (u : ℝ) (N : Nat) (x y : ℝ) : Prop := |y - x| ≤ ((1 + u) ^ N - 1) * |x|

theorem Rel.refl (x : ℝ) : Rel u 0 x x := by simp [Rel]

theorem Rel.mono (hu : 0 ≤ u) {N M : Nat} {x y : ℝ} (h : N ≤ M) (hr : Rel u N x y) : Rel u M x y := by
  have h2 : (1 + u) ^ N ≤ (1 + u) ^ M := pow_le_pow_right₀ (by linarith) h
  exact hr.trans (mul_le_mul_of_nonneg_right (by linarith) (abs_nonneg x))

/-- Size of a number with small relative error. -/
theorem Rel.size (hu : 0 ≤ u) (hu' : u ≤ 1 / 1024) {N : Nat} (hN : N ≤ 500) {x y : ℝ} (hr : Rel u N x y) :
    |y| ≤ 2 * |x| ∧ |x| ≤ 64 * |y| ∧ (1 + u) ^ N ≤ 1 + 2 * (N * u) := by
  have hNr : (N : ℝ) ≤ 500 := by exact_mod_cast hN
  have hNu : (N : ℝ) * u ≤ 500 * (1 / 1024) := mul_le_mul hNr hu' hu (by norm_num)
  have h1 := pow_err hu (N := N) (by linarith)
  have h0 := abs_nonneg x
  have h2 : |y - x| ≤ 2 * (N * u) * |x| := hr.trans (mul_le_mul_of_nonneg_right (by linarith) h0)
  have h2' : |y - x| ≤ 1000 / 1024 * |x| := h2.trans (mul_le_mul_of_nonneg_right (by linarith) h0)
  have h3 : |y| ≤ |y - x| + |x| := by simpa using abs_add_le (y - x) x
  have h4 : |x| ≤ |y - x| + |y| := by
    have := abs_add_le (x - y) y
    rw [sub_add_cancel, abs_sub_comm x y] at this
    exact this
  exact ⟨by linarith, by linarith, h1⟩

theorem Rel.mul (hu : 0 ≤ u) {N M : Nat} {x y x' y' : ℝ} (h : Rel u N x y) (h' : Rel u M x' y') :
    Rel u (N + M) (x * x') (y * y') := by
  unfold Rel at *
  have e : y * y' - x * x' = (y - x) * (y' - x') + (y - x) * x' + x * (y' - x') := by ring
  rw [e, abs_mul, pow_add]
  have h1 := abs_add_le ((y - x) * (y' - x') + (y - x) * x') (x * (y' - x'))
  have h2 := abs_add_le ((y - x) * (y' - x')) ((y - x) * x')
  rw [abs_mul] at h1
  rw [abs_mul, abs_mul] at h2
  have g1 : (1 : ℝ) ≤ (1 + u) ^ N := one_le_pow₀ (by linarith)
  have g2 : (1 : ℝ) ≤ (1 + u) ^ M := one_le_pow₀ (by linarith)
  have k1 : |y - x| * |y' - x'| ≤ ((1 + u) ^ N - 1) * |x| * (((1 + u) ^ M - 1) * |x'|) :=
    mul_le_mul h h' (abs_nonneg _) (mul_nonneg (by linarith) (abs_nonneg _))
  have k2 : |y - x| * |x'| ≤ ((1 + u) ^ N - 1) * |x| * |x'| := mul_le_mul_of_nonneg_right h (abs_nonneg _)
  have k3 : |x| * |y' - x'| ≤ |x| * (((1 + u) ^ M - 1) * |x'|) := mul_le_mul_of_nonneg_left h' (abs_nonneg _)
  nlinarith

/-- One more rounding. -/
theorem Rel.fl (h : Accurate A u v) {N : Nat} {x y : ℝ} (hr : Rel u N x y) (h1 : tiny ≤ |y|) (h2 : |y| ≤ huge) :
    Rel u (N + 1) x (A.fl y) := by
  have hu := h.u_nonneg
  have hf := h.fl_err y h1 h2
  unfold Rel at *
  have h3 : |y| ≤ |y - x| + |x| := by simpa using abs_add_le (y - x) x
  have h4 : |A.fl y - x| ≤ |A.fl y - y| + |y - x| := by
    have := abs_add_le (A.fl y - y) (y - x)
    simpa using this
  rw [pow_succ]
  nlinarith [mul_le_mul_of_nonneg_left (h3.trans (add_le_add_left hr |x|)) hu]

/-- Exponentiation by squaring. -/
theorem powiF_rel (h : Accurate A u v) : ∀ (b : Nat) (r a ρ α : ℝ) (N M m p : Nat), 0 < b → Rel u N α a → Rel u M ρ r →
    (1 / 2 : ℝ) ^ m ≤ |α| → |α| ≤ 2 ^ m → (1 / 2 : ℝ) ^ p ≤ |ρ| → |ρ| ≤ 2 ^ p → p + m * b ≤ 180 →
    M + b * (N + 1) ≤ 500 → Rel u (M + b * (N + 1)) (ρ * α ^ b) (powiF A r a b) := by
  have hu := h.u_nonneg
  have hu' := h.u_le
  -- a product of two factors within the range
  have prod : ∀ (x y x' y' : ℝ) (N M m p : Nat), Rel u N x y → Rel u M x' y' → (1 / 2 : ℝ) ^ m ≤ |x| → |x| ≤ 2 ^ m →
      (1 / 2 : ℝ) ^ p ≤ |x'| → |x'| ≤ 2 ^ p → m + p ≤ 180 → N + M ≤ 500 →
      Rel u (N + M + 1) (x * x') (A.fl (y * y')) ∧ (1 / 2 : ℝ) ^ (m + p) ≤ |x * x'| ∧ |x * x'| ≤ 2 ^ (m + p) := by
    intro x y x' y' N M m p h1 h2 h3 h4 h5 h6 h7 h8
    have e1 : (1 / 2 : ℝ) ^ (m + p) ≤ |x * x'| := by
      rw [abs_mul, pow_add]; exact mul_le_mul h3 h5 (by positivity) (abs_nonneg _)
    have e2 : |x * x'| ≤ 2 ^ (m + p) := by
      rw [abs_mul, pow_add]; exact mul_le_mul h4 h6 (abs_nonneg _) (by positivity)
    have hm := h1.mul hu h2
    obtain ⟨s1, s2, -⟩ := hm.size hu hu' h8
    refine ⟨hm.fl h ?_ ?_, e1, e2⟩
    · have k1 : (1 / 2 : ℝ) ^ 180 ≤ (1 / 2 : ℝ) ^ (m + p) := pow_le_pow_of_le_one (by norm_num) (by norm_num) h7
      have k2 := tiny_le
      have k3 : (1 / 2 : ℝ) ^ 180 ≤ 64 * |y * y'| := k1.trans (e1.trans s2)
      have k4 : (1 / 2 ^ 200 : ℝ) * 64 ≤ (1 / 2 : ℝ) ^ 180 := by norm_num
      linarith
    · have k1 : (2 : ℝ) ^ (m + p) ≤ 2 ^ 180 := pow_le_pow_right₀ (by norm_num) h7
      have k2 := le_huge
      have k3 : (2 : ℝ) * 2 ^ 180 ≤ 2 ^ 200 := by norm_num
      linarith
  intro b
  induction b using Nat.strong_induction_on with
  | _ b ih =>
    intro r a ρ α N M m p hb ha hr a1 a2 r1 r2 hp hN
    rw [powiF]
    have hbN : b * (N + 1) = b * N + b := by ring
    by_cases hodd : b % 2 = 1
    · have hb2 : b = 2 * (b / 2) + 1 := by omega
      simp only [if_pos hodd]
      have hmb : m * b = m * (2 * (b / 2)) + m := by
        conv_lhs => rw [hb2]
        ring
      have hNb : b * (N + 1) = (2 * (b / 2)) * (N + 1) + (N + 1) := by
        conv_lhs => rw [hb2]
        ring
      obtain ⟨c1, c2, c3⟩ := prod ρ r α a M N p m hr ha r1 r2 a1 a2 (by omega) (by omega)
      by_cases hz : b / 2 = 0
      · rw [dif_pos hz]
        have : b = 1 := by omega
        subst this
        rw [pow_one]
        exact c1.mono hu (by omega)
      · rw [dif_neg hz]
        have hmm : m + m ≤ m * (2 * (b / 2)) := by
          have : m * 2 ≤ m * (2 * (b / 2)) := Nat.mul_le_mul_left m (by omega)
          omega
        have hNN : 2 * (N + 1) ≤ (2 * (b / 2)) * (N + 1) := Nat.mul_le_mul_right _ (by omega)
        obtain ⟨d1, d2, d3⟩ := prod α a α a N N m m ha ha a1 a2 a1 a2 (by omega) (by omega)
        have hE : M + N + 1 + b / 2 * (N + N + 1 + 1) = M + b * (N + 1) := by rw [hNb]; ring
        have := ih (b / 2) (by omega) _ _ (ρ * α) (α * α) (N + N + 1) (M + N + 1) (m + m) (p + m) (by omega) d1 c1 d2 d3
          c2 c3 (by
            have : (m + m) * (b / 2) = m * (2 * (b / 2)) := by ring
            omega) (by omega)
        rw [hE] at this
        have hpow : ρ * α * (α * α) ^ (b / 2) = ρ * α ^ b := by
          conv_rhs => rw [hb2]
          rw [pow_succ, pow_mul, pow_two]; ring
        rwa [hpow] at this
    · have hb2 : b = 2 * (b / 2) := by omega
      simp only [if_neg hodd]
      rw [dif_neg (by omega)]
      have hmb : m * b = m * (2 * (b / 2)) := by rw [← hb2]
      have hNb : b * (N + 1) = (2 * (b / 2)) * (N + 1) := by rw [← hb2]
      have hmm : m + m ≤ m * (2 * (b / 2)) := by
        have : m * 2 ≤ m * (2 * (b / 2)) := Nat.mul_le_mul_left m (by omega)
        omega
      have hNN : 2 * (N + 1) ≤ (2 * (b / 2)) * (N + 1) := Nat.mul_le_mul_right _ (by omega)
      obtain ⟨d1, d2, d3⟩ := prod α a α a N N m m ha ha a1 a2 a1 a2 (by omega) (by omega)
      have hE : M + b / 2 * (N + N + 1 + 1) = M + b * (N + 1) := by rw [hNb]; ring
      have := ih (b / 2) (by omega) _ _ ρ (α * α) (N + N + 1) M (m + m) p (by omega) d1 hr d2 d3
        r1 r2 (by
          have : (m + m) * (b / 2) = m * (2 * (b / 2)) := by ring
          omega) (by omega)
      rw [hE] at this
      have hpow : ρ * (α * α) ^ (b / 2) = ρ * α ^ b := by
        conv_rhs => rw [hb2]
        rw [pow_mul, pow_two]
      rwa [hpow] at this

theorem sqrt5_bounds : 2.2360679774997896964 < Real.sqrt 5 ∧ Real.sqrt 5 < 2.23606797749978969642 := by
  constructor
  · rw [Real.lt_sqrt (by norm_num)]; norm_num
  · rw [Real.sqrt_lt' (by norm_num)]; norm_num

theorem sqrt5F_rel (h : Binary64 A) : Rel (1 / 2 ^ 53) 2 (Real.sqrt 5) (sqrt5F A) := by
  have hA := h.accurate
  obtain ⟨b1, b2⟩ := sqrt5_bounds
  have hf := hA.fl_err 2.23606797749978969641
    (by rw [abs_of_pos (by norm_num)]; have := tiny_le'; norm_num at *; linarith)
    (huge_of_le (by norm_num) (by norm_num))
  unfold Rel sqrt5F
  rw [abs_of_nonneg (Real.sqrt_nonneg 5)]
  rw [abs_of_pos (show (0 : ℝ) < 2.23606797749978969641 by norm_num), abs_le] at hf
  rw [abs_le]
  norm_num at *
  constructor <;> linarith [hf.1, hf.2]

theorem goldenF_rel (h : Binary64 A) : Rel (1 / 2 ^ 53) 4 Real.goldenRatio (goldenF A) := by
  have hA := h.accurate
  obtain ⟨b1, b2⟩ := sqrt5_bounds
  have h1 := sqrt5F_rel h
  have hs : Rel (1 / 2 ^ 53) 2 (1 + Real.sqrt 5) (1 + sqrt5F A) := by
    unfold Rel at *
    rw [add_sub_add_left_eq_sub]
    refine h1.trans (mul_le_mul_of_nonneg_left ?_ (by norm_num))
    rw [abs_of_nonneg (Real.sqrt_nonneg 5), abs_of_nonneg (by have := Real.sqrt_nonneg 5; linarith)]
    linarith
  have habs : |1 + Real.sqrt 5| = 1 + Real.sqrt 5 := abs_of_nonneg (by have := Real.sqrt_nonneg 5; linarith)
  have ht := tiny_le'
  have hh := le_huge
  have hh2 : (2 : ℝ) ^ 10 ≤ 2 ^ 200 := pow_le_pow_right₀ (by norm_num) (by norm_num)
  obtain ⟨s1, s2, -⟩ := hs.size hA.u_nonneg hA.u_le (by norm_num)
  rw [habs] at s1 s2
  have h2 := hs.fl hA (by norm_num at *; linarith) (by norm_num at *; linarith)
  have h3 := h2.mul hA.u_nonneg (Rel.refl (1 / 2))
  obtain ⟨t1, t2, -⟩ := h3.size hA.u_nonneg hA.u_le (by norm_num)
  have hmulabs : ∀ z : ℝ, |z * (1 / 2)| = |z| * (1 / 2) := fun z => by
    rw [abs_mul, abs_of_pos (show (0 : ℝ) < 1 / 2 by norm_num)]
  rw [hmulabs (1 + Real.sqrt 5), habs] at t1 t2
  have h4 := h3.fl hA (by norm_num at *; linarith) (by norm_num at *; linarith)
  have e : Real.goldenRatio = (1 + Real.sqrt 5) * (1 / 2) := by rw [Real.goldenRatio]; ring
  rw [e]
  unfold goldenF
  rw [div_eq_mul_one_div (A.fl (1 + sqrt5F A)) 2]
  exact h4

theorem golden_bounds : 1.618 < Real.goldenRatio ∧ Real.goldenRatio < 1.6181 := by
  obtain ⟨b1, b2⟩ := sqrt5_bounds
  rw [Real.goldenRatio]
  constructor <;> norm_num at * <;> linarith

theorem psiF_rel (h : Binary64 A) : Rel (1 / 2 ^ 53) 6 Real.goldenConj (psiF A) := by
  have hA := h.accurate
  have hg := goldenF_rel h
  obtain ⟨g1, g2⟩ := golden_bounds
  have hψ : Real.goldenConj = -1 / Real.goldenRatio := by
    rw [neg_div, one_div, Real.inv_goldenRatio, neg_neg]
  set φ := Real.goldenRatio
  set g := goldenF A
  have hg' := hg
  unfold Rel at hg
  rw [abs_of_pos (show 0 < φ by linarith), abs_le] at hg
  have hgpos : 0 < g := by norm_num at *; linarith
  have hpsi : psiF A = A.fl (-1 / g) := rfl
  clear_value φ g
  have hinv : Rel (1 / 2 ^ 53) 5 (-1 / φ) (-1 / g) := by
    unfold Rel
    have e1 : -1 / g - -1 / φ = (g - φ) / (g * φ) := by field_simp; ring
    have e2 : |(-1 : ℝ) / φ| = g / (g * φ) := by
      rw [abs_div, abs_neg, abs_one, abs_of_pos (show 0 < φ by linarith)]; field_simp
    have hp : 0 < g * φ := mul_pos hgpos (by linarith)
    rw [e1, e2, abs_div, abs_of_pos hp, ← mul_div_assoc]
    apply div_le_div_of_nonneg_right _ hp.le
    rw [abs_le]
    norm_num at *
    constructor <;> linarith
  have hle : |(-1 : ℝ) / φ| = 1 / φ := by rw [abs_div, abs_neg, abs_one, abs_of_pos (show 0 < φ by linarith)]
  have hφ1 : 1 / φ < 1 := by rw [div_lt_one (by linarith)]; norm_num at *; linarith
  have hφ2 : 1 / 2 < 1 / φ := by
    rw [div_lt_div_iff₀ (by norm_num) (by linarith)]; norm_num at *; linarith
  obtain ⟨s1, s2, -⟩ := hinv.size hA.u_nonneg hA.u_le (by norm_num)
  rw [hle] at s1 s2
  have ht := tiny_le'
  have hh := le_huge
  have hh2 : (2 : ℝ) ^ 10 ≤ 2 ^ 200 := pow_le_pow_right₀ (by norm_num) (by norm_num)
  rw [hψ, hpsi]
  have := hinv.fl hA (by norm_num at *; linarith) (by norm_num at *; linarith)
  exact this

/-- The last operations of the estimate. -/
theorem est_final {v : ℝ} (hA : Accurate A (1 / 2 ^ 53) v) {P P' Q Q' s w F : ℝ} (hF1 : 1 ≤ F) (hF2 : F ≤ 4052739537881)
    (b1 : 2.23606 ≤ w) (b2 : w ≤ 2.23607) (hPQ : P - Q = w * F) (hQa : |Q| ≤ 1) (e1 : |P' - P| ≤ 620 / 2 ^ 53 * P)
    (e2 : |Q' - Q| ≤ 868 / 2 ^ 53) (hs' : |s - w| ≤ 5 / 2 ^ 53) :
    |A.fl (A.fl (A.fl (P' - Q') / s) + 1) - 1 - F| ≤ F / 2 ^ 42 := by
  have hQ1 := abs_le.1 hQa
  have hwF : w * F ≤ 2.2361 * F := by
    apply mul_le_mul_of_nonneg_right _ (by linarith)
    norm_num at *; linarith
  have hwF2 : 2.236 * F ≤ w * F := by
    apply mul_le_mul_of_nonneg_right _ (by linarith)
    norm_num at *; linarith
  have hPF : P ≤ 3.2361 * F := by norm_num at *; linarith
  have ht : tiny ≤ 1 / 2 ^ 60 := tiny_le.trans (by norm_num)
  have ht0 := tiny_pos
  have e3 : |P' - Q' - w * F| ≤ 2880 / 2 ^ 53 * F := by
    rw [← hPQ]
    have : P' - Q' - (P - Q) = (P' - P) - (Q' - Q) := by ring
    rw [this]
    refine (abs_sub _ _).trans ?_
    norm_num at *; linarith
  have hb : ∀ z : ℝ, |z| ≤ 2 ^ 50 → |z| ≤ huge := by
    intro z hz
    exact hz.trans ((pow_le_pow_right₀ (by norm_num) (by norm_num)).trans le_huge)
  have e4 : |A.fl (P' - Q') - w * F| ≤ 2884 / 2 ^ 53 * F := by
    rw [abs_le] at e3
    have hz : |P' - Q'| ≤ 2.24 * F := by rw [abs_le]; norm_num at *; constructor <;> linarith
    have := hA.fl_abs (hb (P' - Q') (by norm_num at *; linarith))
    rw [abs_le] at this ⊢
    norm_num at *; constructor <;> linarith
  set D := A.fl (P' - Q')
  rw [abs_le] at hs'
  have hspos : 2.236 < s := by norm_num at *; linarith
  have e5 : |D / s - F| ≤ 1295 / 2 ^ 53 * F := by
    have hs0 : 0 < s := by linarith
    have e : D / s - F = (D - s * F) / s := by field_simp
    rw [e, abs_div, abs_of_pos hs0, div_le_iff₀ hs0]
    have k1 : |s * F - w * F| ≤ 5 / 2 ^ 53 * F := by
      rw [← sub_mul, abs_mul, abs_of_pos (show 0 < F by linarith)]
      exact mul_le_mul_of_nonneg_right (abs_le.2 hs') (by linarith)
    have k2 : 2.236 * (1295 / 2 ^ 53 * F) ≤ s * (1295 / 2 ^ 53 * F) :=
      mul_le_mul_of_nonneg_right hspos.le (by positivity)
    rw [abs_le] at e4 k1 ⊢
    norm_num at *; constructor <;> linarith
  have e6 : |A.fl (D / s) - F| ≤ 1298 / 2 ^ 53 * F := by
    rw [abs_le] at e5
    have hz : |D / s| ≤ 1.1 * F := by rw [abs_le]; norm_num at *; constructor <;> linarith
    have := hA.fl_abs (hb (D / s) (by norm_num at *; linarith))
    rw [abs_le] at this ⊢
    norm_num at *; constructor <;> linarith
  set E := A.fl (D / s)
  rw [abs_le] at e6
  have hz : |E + 1| ≤ 3 * F := by rw [abs_le]; norm_num at *; constructor <;> linarith
  have := hA.fl_abs (hb (E + 1) (by norm_num at *; linarith))
  rw [abs_le] at this ⊢
  norm_num at *; constructor <;> linarith

/-- The rounded estimate of the length of a Fibonacci word. -/
theorem fibonacciEstimateF_err (h : Binary64 A) {K : Nat} (h1 : 1 ≤ K) (h2 : K ≤ 62) :
    |A.fl (fibonacciEstimateF A K + 1) - 1 - Nat.fib K| ≤ Nat.fib K / 2 ^ 42 := by
  have hA := h.accurate
  obtain ⟨b1, b2⟩ := sqrt5_bounds
  obtain ⟨g1, g2⟩ := golden_bounds
  have hψ : Real.goldenConj = 1 - Real.goldenRatio := by
    rw [Real.goldenConj, Real.goldenRatio]; ring
  have hψa : |Real.goldenConj| = Real.goldenRatio - 1 := by
    rw [hψ, abs_of_neg (by norm_num at *; linarith)]; ring
  have hP := powiF_rel hA K 1 (goldenF A) 1 Real.goldenRatio 4 0 1 0 h1 (goldenF_rel h) (Rel.refl 1)
    (by rw [abs_of_pos (by linarith)]; norm_num at *; linarith)
    (by rw [abs_of_pos (by linarith)]; norm_num at *; linarith) (by norm_num) (by norm_num) (by omega) (by omega)
  have hQ := powiF_rel hA K 1 (psiF A) 1 Real.goldenConj 6 0 1 0 h1 (psiF_rel h) (Rel.refl 1)
    (by rw [hψa]; norm_num at *; linarith)
    (by rw [hψa]; norm_num at *; linarith) (by norm_num) (by norm_num) (by omega) (by omega)
  rw [one_mul] at hP hQ
  have hs := sqrt5F_rel h
  have hF := Real.coe_fib_eq K
  have hF1 : (1 : ℝ) ≤ Nat.fib K := by exact_mod_cast Nat.fib_pos.2 h1
  have hF2 : (Nat.fib K : ℝ) ≤ 4052739537881 := by
    have h62 : Nat.fib 62 = 4052739537881 := by decide +kernel
    exact_mod_cast h62 ▸ Nat.fib_mono h2
  have hKr : (K : ℝ) ≤ 62 := by exact_mod_cast h2
  obtain ⟨-, -, p3⟩ := hP.size hA.u_nonneg hA.u_le (by omega)
  obtain ⟨-, -, q3⟩ := hQ.size hA.u_nonneg hA.u_le (by omega)
  have hQa : |Real.goldenConj ^ K| ≤ 1 := by
    rw [abs_pow, hψa]
    exact pow_le_one₀ (by linarith) (by norm_num at *; linarith)
  have hPpos : 0 < Real.goldenRatio ^ K := by positivity
  unfold fibonacciEstimateF
  set P := Real.goldenRatio ^ K
  set Q := Real.goldenConj ^ K
  set P' := powiF A 1 (goldenF A) K
  set Q' := powiF A 1 (psiF A) K
  set s := sqrt5F A
  set F : ℝ := (Nat.fib K : ℝ)
  set w := Real.sqrt 5
  have hw : w ≠ 0 := by linarith
  have hPQ : P - Q = w * F := by rw [hF]; field_simp
  -- numeric bounds
  have e1 : |P' - P| ≤ 620 / 2 ^ 53 * P := by
    refine hP.trans ?_
    rw [abs_of_pos hPpos]
    apply mul_le_mul_of_nonneg_right _ hPpos.le
    push_cast at p3
    have : (K : ℝ) * (1 / 2 ^ 53) ≤ 62 * (1 / 2 ^ 53) := mul_le_mul_of_nonneg_right hKr (by positivity)
    linarith
  have e2 : |Q' - Q| ≤ 868 / 2 ^ 53 := by
    have : ((1 + 1 / 2 ^ 53 : ℝ) ^ (0 + K * (6 + 1)) - 1) * |Q| ≤ 868 / 2 ^ 53 * 1 := by
      apply mul_le_mul _ hQa (abs_nonneg _) (by norm_num)
      push_cast at q3
      have : (K : ℝ) * (1 / 2 ^ 53) ≤ 62 * (1 / 2 ^ 53) := mul_le_mul_of_nonneg_right hKr (by positivity)
      linarith
    refine hQ.trans ?_
    linarith
  exact est_final hA hF1 hF2 (by norm_num at *; linarith) (by norm_num at *; linarith) hPQ hQa e1 e2 (by
    unfold Rel at hs
    rw [abs_of_pos (show 0 < w by linarith)] at hs
    refine hs.trans ?_
    norm_num at *; linarith)

end Verif
