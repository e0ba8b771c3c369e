import Mathlib.Analysis.SpecialFunctions.Log.Deriv
import Mathlib.Analysis.Complex.ExponentialBounds
import Verif.Spec.Rounding
import Verif.Lemmas.EntropyKmer
import Verif.Lemmas.EntropyBounds

/-! # Rounding errors of the entropy tools -/

namespace Verif

open Spec Model

variable {A : Arith} {u v : ℝ}

theorem tiny_pos : 0 < tiny := by unfold tiny; positivity

theorem tiny_le : tiny ≤ 1 / 2 ^ 200 := by
  unfold tiny
  apply one_div_le_one_div_of_le (by positivity)
  exact pow_le_pow_right₀ (by norm_num) (by norm_num)

theorem tiny_le' : tiny ≤ 1 / 1024 := tiny_le.trans (by norm_num)

theorem le_huge : (2 : ℝ) ^ 200 ≤ huge := by
  unfold huge
  exact pow_le_pow_right₀ (by norm_num) (by norm_num)

theorem huge_of_le {x : ℝ} (h0 : 0 ≤ x) (h : x ≤ 2 ^ 120) : |x| ≤ huge := by
  rw [abs_of_nonneg h0]
  refine h.trans (le_trans ?_ le_huge)
  exact pow_le_pow_right₀ (by norm_num) (by norm_num)

theorem Spec.Accurate.fl_zero (h : Accurate A u v) : A.fl 0 = 0 := by
  have := h.fl_nat 0 (by norm_num); simpa using this

theorem Spec.Accurate.fl_nonneg (h : Accurate A u v) {x : ℝ} (hx : 0 ≤ x) (hb : x ≤ 2 ^ 120) : 0 ≤ A.fl x := by
  have := h.fl_mono 0 x (huge_of_le (le_refl _) (by positivity)) (huge_of_le hx hb) hx
  rwa [h.fl_zero] at this

theorem Spec.Accurate.fl_one_le (h : Accurate A u v) {x : ℝ} (hx : 1 ≤ x) (hb : x ≤ 2 ^ 120) : 1 ≤ A.fl x := by
  have := h.fl_mono 1 x (huge_of_le (by norm_num) (by norm_num)) (huge_of_le (by linarith) hb) hx
  have e := h.fl_nat 1 (by norm_num)
  rw [Nat.cast_one] at e
  rwa [e] at this

/-- Every rounding, including those that underflow. -/
theorem Spec.Accurate.fl_abs (h : Accurate A u v) {x : ℝ} (hb : |x| ≤ huge) :
    |A.fl x - x| ≤ u * |x| + 2 * tiny := by
  have hu := h.u_nonneg
  have ht := tiny_pos
  have h0 := abs_nonneg x
  rcases le_total tiny |x| with h1 | h1
  · have := h.fl_err x h1 hb
    linarith
  · have h2 := h.fl_tiny x h1
    have h3 := abs_sub (A.fl x) x
    nlinarith [mul_nonneg hu h0]

/-- Relative error of `N` roundings. -/
theorem pow_err (hu : 0 ≤ u) {N : Nat} (hN : (N : ℝ) * u ≤ 1 / 2) : (1 + u) ^ N ≤ 1 + 2 * (N * u) := by
  rcases Nat.eq_zero_or_pos N with rfl | hN0
  · simp
  have hN1 : (1 : ℝ) ≤ N := by exact_mod_cast hN0
  have hu1 : u ≤ 1 / 2 := by nlinarith
  have h1 : 1 - (N : ℝ) * u ≤ (1 - u) ^ N := by
    have := one_add_mul_le_pow (a := -u) (by linarith) N
    have e : (1 : ℝ) + -u = 1 - u := by ring
    rw [e] at this
    linarith
  have h2 : (1 + u) ^ N * (1 - u) ^ N ≤ 1 := by
    rw [← mul_pow]
    apply pow_le_one₀ <;> nlinarith
  have h3 : 0 ≤ (1 + u) ^ N := by positivity
  have h4 : (1 + u) ^ N * (1 - N * u) ≤ 1 := le_trans (mul_le_mul_of_nonneg_left h1 h3) h2
  have h5 : 0 ≤ (N : ℝ) * u := by positivity
  by_contra hc
  push Not at hc
  have : (1 + 2 * (N * u)) * (1 - N * u) < 1 := lt_of_lt_of_le (mul_lt_mul_of_pos_right hc (by linarith)) h4
  nlinarith

theorem Spec.Near.mono (h : Accurate A u v) {N M : Nat} {e e' x y : ℝ} (hx : 0 ≤ x) (he : 0 ≤ e) (hNM : N ≤ M)
    (hee : e ≤ e') (hn : Near u v N e x y) : Near u v M e' x y := by
  have hu := h.u_nonneg
  have hu' := h.u_le
  have hv := h.v_nonneg
  have hv' := h.v_le
  have h1 : (1 - u) ^ M ≤ (1 - u) ^ N := pow_le_pow_of_le_one (by linarith) (by linarith) hNM
  have h2 : (1 + u) ^ N ≤ (1 + u) ^ M := pow_le_pow_right₀ (by linarith) hNM
  have h3 : (0 : ℝ) ≤ (1 + u) ^ N := by positivity
  constructor
  · have : (1 - u) ^ M * (1 - v) * x ≤ (1 - u) ^ N * (1 - v) * x :=
      mul_le_mul_of_nonneg_right (mul_le_mul_of_nonneg_right h1 (by linarith)) hx
    linarith [hn.1]
  · have a1 : (1 + u) ^ N * (1 + v) ≤ (1 + u) ^ M * (1 + v) := mul_le_mul_of_nonneg_right h2 (by linarith)
    have a2 : (1 + u) ^ N * (1 + v) * (x + e) ≤ (1 + u) ^ M * (1 + v) * (x + e') :=
      mul_le_mul a1 (by linarith) (by linarith) (by positivity)
    exact hn.2.trans a2

/-- Numbers near a moderate number are moderate. -/
theorem Spec.Near.moderate (h : Accurate A u v) {N : Nat} {e x y : ℝ} (hN : (N : ℝ) * u ≤ 1 / 2) (hx0 : 0 ≤ x)
    (he0 : 0 ≤ e) (hx : x + e ≤ 2 ^ 118) (hn : Near u v N e x y) : y ≤ 2 ^ 120 := by
  have h1 := pow_err h.u_nonneg hN
  have hv := h.v_nonneg
  have hv' := h.v_le
  have h3 : 0 ≤ (1 + u) ^ N := by have := h.u_nonneg; positivity
  have h2 : (1 + u) ^ N * (1 + v) ≤ 4 := by nlinarith
  calc y ≤ _ := hn.2
    _ ≤ 4 * (x + e) := mul_le_mul_of_nonneg_right h2 (by linarith)
    _ ≤ 4 * 2 ^ 118 := by linarith
    _ = 2 ^ 120 := by norm_num

theorem Spec.Near.fl (h : Accurate A u v) {N : Nat} {e x y : ℝ} (hN : (N : ℝ) * u ≤ 1 / 2) (hx0 : 0 ≤ x)
    (he : 0 ≤ e) (hx : x + e ≤ 2 ^ 118) (hy : 0 ≤ y) (hn : Near u v N e x y) :
    0 ≤ A.fl y ∧ Near u v (N + 1) (e + 2 * tiny) x (A.fl y) := by
  have hu := h.u_nonneg
  have hu' := h.u_le
  have hv := h.v_nonneg
  have hb := hn.moderate h hN hx0 he hx
  refine ⟨h.fl_nonneg hy hb, ?_⟩
  have hf := h.fl_abs (huge_of_le hy hb)
  rw [abs_of_nonneg hy, abs_le] at hf
  have ht := tiny_pos
  constructor
  · have : (1 - u) * ((1 - u) ^ N * (1 - v) * x - e) ≤ (1 - u) * y := mul_le_mul_of_nonneg_left hn.1 (by linarith)
    rw [pow_succ]
    nlinarith [hf.1, mul_nonneg hu he]
  · have h1 : (1 + u) * y ≤ (1 + u) * ((1 + u) ^ N * (1 + v) * (x + e)) := mul_le_mul_of_nonneg_left hn.2 (by linarith)
    have h2 : 1 ≤ (1 + u) ^ (N + 1) := one_le_pow₀ (by linarith)
    have h3 : 1 ≤ (1 + u) ^ (N + 1) * (1 + v) := by nlinarith
    have h4 : 2 * tiny ≤ (1 + u) ^ (N + 1) * (1 + v) * (2 * tiny) := by nlinarith
    have h5 : (1 + u) ^ (N + 1) * (1 + v) * (x + (e + 2 * tiny)) =
      (1 + u) * ((1 + u) ^ N * (1 + v) * (x + e)) + (1 + u) ^ (N + 1) * (1 + v) * (2 * tiny) := by
      rw [pow_succ]; ring
    rw [h5]
    linarith [hf.2]

theorem Spec.Near.add {N : Nat} {e e' x x' y y' : ℝ} (hn : Near u v N e x y) (hn' : Near u v N e' x' y') :
    Near u v N (e + e') (x + x') (y + y') := by
  constructor
  · have := hn.1; have := hn'.1; nlinarith
  · have := hn.2; have := hn'.2; nlinarith

theorem Spec.Near.smul {N : Nat} {e x y c : ℝ} (hc : 0 ≤ c) (hn : Near u v N e x y) :
    Near u v N (c * e) (c * x) (c * y) := by
  constructor
  · have := mul_le_mul_of_nonneg_left hn.1 hc; nlinarith
  · have := mul_le_mul_of_nonneg_left hn.2 hc; nlinarith

/-- The logarithm of a rounded quotient. -/
theorem lg_near (h : Accurate A u v) {x : ℝ} (hx : 1 ≤ x) (hb : x ≤ 2 ^ 118) :
    0 ≤ A.lg (A.fl x) ∧ Near u v 0 (2 * u) (Real.logb 2 x) (A.lg (A.fl x)) := by
  have hu := h.u_nonneg
  have hu' := h.u_le
  have hv := h.v_nonneg
  have hv' := h.v_le
  have hb' : x ≤ 2 ^ 120 := hb.trans (by norm_num)
  have h1 := h.fl_one_le hx hb'
  have hx0 : 0 < x := by linarith
  have hf := h.fl_err x (by rw [abs_of_nonneg hx0.le]; linarith [tiny_le']) (huge_of_le hx0.le hb')
  rw [abs_of_nonneg hx0.le, abs_le] at hf
  have hl := h.lg_err x (huge_of_le hx0.le hb') h1
  rw [abs_le] at hl
  have hlog0 : 0 ≤ Real.logb 2 (A.fl x) := Real.logb_nonneg (by norm_num) h1
  have hln2 : (2 / 3 : ℝ) < Real.log 2 := by linarith [Real.log_two_gt_d9]
  have hln2' : 0 < Real.log 2 := by linarith
  -- upper bound for the exact logarithm of the rounded quotient
  have hup : Real.logb 2 (A.fl x) ≤ Real.logb 2 x + 2 * u := by
    have e1 : Real.log (A.fl x) ≤ Real.log ((1 + u) * x) := Real.log_le_log (by linarith) (by linarith [hf.2])
    rw [Real.log_mul (by linarith) hx0.ne'] at e1
    have e2 : Real.log (1 + u) ≤ u := by
      have := Real.log_le_sub_one_of_pos (show 0 < 1 + u by linarith); linarith
    unfold Real.logb
    rw [div_le_iff₀ hln2', add_mul, div_mul_cancel₀ _ hln2'.ne']
    nlinarith
  have hlo : Real.logb 2 x - 2 * u ≤ Real.logb 2 (A.fl x) := by
    have e1 : Real.log ((1 - u) * x) ≤ Real.log (A.fl x) :=
      Real.log_le_log (mul_pos (by linarith) hx0) (by linarith [hf.1])
    rw [Real.log_mul (by linarith) hx0.ne'] at e1
    have e2 : -(4 / 3 * u) ≤ Real.log (1 - u) := by
      have := Real.one_sub_inv_le_log_of_pos (show 0 < 1 - u by linarith)
      have hinv : (1 - u)⁻¹ ≤ 1 + 4 / 3 * u := by
        rw [inv_le_iff_one_le_mul₀ (by linarith)]; nlinarith
      linarith
    unfold Real.logb
    rw [le_div_iff₀ hln2', sub_mul, div_mul_cancel₀ _ hln2'.ne']
    nlinarith
  refine ⟨by nlinarith [hl.1], ?_, ?_⟩
  · rw [pow_zero, one_mul]
    nlinarith [hl.1, mul_nonneg hv hu, mul_le_mul_of_nonneg_left hlo (show 0 ≤ 1 - v by linarith)]
  · rw [pow_zero, one_mul]
    nlinarith [hl.2, mul_le_mul_of_nonneg_left hup (show 0 ≤ 1 + v by linarith)]

theorem logb_le_64 {x : ℝ} (h1 : 1 ≤ x) (h2 : x ≤ 9007199254740992) : Real.logb 2 x ≤ 64 := by
  rw [Real.logb_le_iff_le_rpow (by norm_num) (by linarith)]
  refine h2.trans ?_
  norm_num

theorem letterTermF_near (h : Accurate A u v) {n c : Nat} (hc : 0 < c) (hcn : c ≤ n) (hn : n ≤ 9007199254740992) :
    0 ≤ letterTermF A n c ∧
      Near u v 1 ((c : ℝ) * (2 * u + 2 * tiny)) ((c : ℝ) * Real.logb 2 ((n : ℝ) / c)) (letterTermF A n c) ∧
      0 ≤ (c : ℝ) * Real.logb 2 ((n : ℝ) / c) ∧ (c : ℝ) * Real.logb 2 ((n : ℝ) / c) ≤ c * 64 := by
  unfold letterTermF
  rw [h.fl_nat c (by omega), h.fl_nat n hn]
  have hc' : (1 : ℝ) ≤ c := by exact_mod_cast hc
  have hc2 : (c : ℝ) ≤ 9007199254740992 := by exact_mod_cast hcn.trans hn
  have hn2 : (n : ℝ) ≤ 9007199254740992 := by exact_mod_cast hn
  have hx : (1 : ℝ) ≤ (n : ℝ) / c := by
    rw [le_div_iff₀ (by linarith), one_mul]; exact_mod_cast hcn
  have hx2 : (n : ℝ) / c ≤ 9007199254740992 := by
    rw [div_le_iff₀ (by linarith)]; nlinarith
  obtain ⟨h1, h2⟩ := lg_near h hx (hx2.trans (by norm_num))
  have h3 : 0 ≤ (c : ℝ) * A.lg (A.fl ((n : ℝ) / c)) := mul_nonneg (by linarith) h1
  have hu := h.u_nonneg
  have hu' := h.u_le
  have ht := tiny_pos
  have hl := logb_le_64 hx hx2
  have hl0 : 0 ≤ Real.logb 2 ((n : ℝ) / c) := Real.logb_nonneg (by norm_num) hx
  have hv := h.v_nonneg
  have k1 : 0 ≤ (c : ℝ) * Real.logb 2 ((n : ℝ) / c) := mul_nonneg (by linarith) hl0
  have k2 : (c : ℝ) * Real.logb 2 ((n : ℝ) / c) ≤ c * 64 := mul_le_mul_of_nonneg_left hl (by linarith)
  obtain ⟨f1, f2⟩ := (h2.smul (c := (c : ℝ)) (by linarith)).fl h (by simp) k1 (by positivity)
    (by norm_num; nlinarith) h3
  exact ⟨f1, f2.mono h k1 (by positivity) (le_refl _) (by nlinarith), k1, k2⟩

theorem forEach_sim {β σ τ : Type} (R : Nat → σ → τ → Prop) {l : List β} {s s' : σ} {t : τ}
    {f : β → σ → Res σ} {g : β → τ → Res τ} (m : Nat) (h : forEach l s f = .ok s') (h0 : R m s t)
    (hstep : ∀ i x s t s', i < m + l.length → x ∈ l → R i s t → f x s = .ok s' →
      ∃ t', g x t = .ok t' ∧ R (i + 1) s' t') :
    ∃ t', forEach l t g = .ok t' ∧ R (m + l.length) s' t' := by
  induction l generalizing s t m with
  | nil => rw [forEach_nil] at h; injection h with h; subst h; exact ⟨t, rfl, h0⟩
  | cons x l ih =>
    rw [forEach_cons] at h
    rcases hf : f x s with e | s1
    · rw [hf] at h; cases h
    · rw [hf, ok_bind] at h
      obtain ⟨t1, g1, r1⟩ := hstep m x s t s1 (by simp) (by simp) h0 hf
      obtain ⟨t', g2, r2⟩ := ih (m + 1) h r1 (fun i x s t s' hi hx =>
        hstep i x s t s' (by rw [List.length_cons]; omega) (by simp [hx]))
      refine ⟨t', by rw [forEach_cons, g1, ok_bind, g2], ?_⟩
      rw [List.length_cons, show m + (l.length + 1) = m + 1 + l.length by omega]
      exact r2

theorem forRange_sim {σ τ : Type} (R : Nat → σ → τ → Prop) {lo hi : Nat} {s s' : σ} {t : τ}
    {f : Nat → σ → Res σ} {g : Nat → τ → Res τ} (hle : lo ≤ hi) (h : forRange lo hi s f = .ok s') (h0 : R lo s t)
    (hstep : ∀ i s t s', lo ≤ i → i < hi → R i s t → f i s = .ok s' → ∃ t', g i t = .ok t' ∧ R (i + 1) s' t') :
    ∃ t', forRange lo hi t g = .ok t' ∧ R hi s' t' := by
  obtain ⟨d, rfl⟩ : ∃ d, hi = lo + d := ⟨hi - lo, by omega⟩
  clear hle
  induction d generalizing lo s t with
  | zero =>
    rw [forRange_done (by omega)] at h
    injection h with h
    subst h
    exact ⟨t, forRange_done (by omega) _ _, h0⟩
  | succ d ih =>
    rw [forRange_step (by omega)] at h
    rcases hf : f lo s with e | s1
    · rw [hf] at h; cases h
    · rw [hf, ok_bind, show lo + (d + 1) = lo + 1 + d by omega] at h
      obtain ⟨t1, g1, r1⟩ := hstep lo s t s1 (by omega) (by omega) h0 hf
      obtain ⟨t', g2, r2⟩ := ih r1 h (fun i s t s' a b => hstep i s t s' (by omega) (by omega))
      refine ⟨t', ?_, by rw [show lo + (d + 1) = lo + 1 + d by omega]; exact r2⟩
      rw [forRange_step (by omega), g1, ok_bind, show lo + (d + 1) = lo + 1 + d by omega, g2]

theorem sum_counts (s : List UInt8) :
    (((List.range 256).map (fun i => s.count (UInt8.ofNat i))).map (fun c : Nat => (c : ℝ))).sum = s.length := by
  induction s with
  | nil =>
    rw [List.map_map, List.length_nil, Nat.cast_zero]
    apply List.sum_eq_zero
    intro x hx
    obtain ⟨i, -, rfl⟩ := List.mem_map.1 hx
    simp
  | cons c s ih =>
    have e : ((List.range 256).map (fun i => (c :: s).count (UInt8.ofNat i))).map (fun c : Nat => (c : ℝ)) =
        (List.range 256).map (fun i => ((s.count (UInt8.ofNat i) : Nat) : ℝ) + if i = c.toNat then 1 else 0) := by
      rw [List.map_map]
      apply List.map_congr_left
      intro i hi
      rw [List.mem_range] at hi
      simp only [Function.comp, List.count_cons]
      by_cases h : i = c.toNat
      · subst h; simp
      · have : ¬ c = UInt8.ofNat i := by
          rintro rfl; apply h; simp [Nat.mod_eq_of_lt hi]
        simp [h, this]
    rw [e, List.sum_map_add]
    rw [List.map_map] at ih
    have e2 : ((List.range 256).map (fun i => ((s.count (UInt8.ofNat i) : Nat) : ℝ))).sum = s.length := ih
    have e3 : ((List.range 256).map (fun i => if i = c.toNat then (1 : ℝ) else 0)).sum = 1 := by
      have hc : c.toNat < 256 := c.toNat_lt
      rw [← List.sum_toFinset _ List.nodup_range, List.toFinset_range]
      simp [hc]
    rw [e2, e3]
    simp

/-- Zero-order entropy in floating point. -/
theorem zeroOrderF_near (h : Accurate A u v) {s : List UInt8} (hs : s ≠ []) (hn : s.length ≤ 9007199254740992) :
    ∃ y, zeroOrderEntropyF A s = .ok y ∧ 0 ≤ y ∧ Near u v 258 (2 * u + 6 * tiny) (zeroOrder s) y := by
  have hu := h.u_nonneg
  have hu' := h.u_le
  have ht := tiny_pos
  have ht' := tiny_le'
  have hreal := zeroOrderEntropy_ok s
  simp only [zeroOrderEntropy] at hreal
  simp only [zeroOrderEntropyF]
  rw [charCounters_ok, ok_bind] at hreal ⊢
  dsimp only at hreal ⊢
  rw [if_neg (by rw [List.length_eq_zero_iff]; exact hs)]
  set cs := (List.range 256).map (fun i => s.count (UInt8.ofNat i)) with hcs
  have hcl : ∀ c ∈ cs, c ≤ s.length := by
    intro c hc
    rw [hcs, List.mem_map] at hc
    obtain ⟨i, -, rfl⟩ := hc
    exact List.count_le_length
  have hlen : cs.length = 256 := by rw [hcs]; simp
  have hl : (0 : ℝ) < s.length := by exact_mod_cast List.length_pos_iff.2 hs
  rcases hf : forEach cs (0 : ℝ) (fun count sum => if count > 0 then
      (pure (sum + (count : ℝ) * Real.logb 2 ((s.length : ℝ) / count)) : Res ℝ) else pure sum) with e | a
  · rw [hf] at hreal; cases hreal
  rw [hf, ok_bind, pure_ok] at hreal
  injection hreal with hreal
  -- a ghost weight runs along
  obtain ⟨⟨a', w⟩, hg, ha', hw⟩ : ∃ p : ℝ × ℝ, forEach cs ((0 : ℝ), (0 : ℝ)) (fun count (p : ℝ × ℝ) => if count > 0 then
      (pure (p.1 + (count : ℝ) * Real.logb 2 ((s.length : ℝ) / count), p.2 + count) : Res (ℝ × ℝ)) else pure p) =
        .ok p ∧ p.1 = a ∧ p.2 = s.length := by
    have key : ∀ (l : List Nat) (x y r : ℝ), forEach l x (fun count sum => if count > 0 then
        (pure (sum + (count : ℝ) * Real.logb 2 ((s.length : ℝ) / count)) : Res ℝ) else pure sum) = .ok r →
        forEach l (x, y) (fun count (p : ℝ × ℝ) => if count > 0 then
          (pure (p.1 + (count : ℝ) * Real.logb 2 ((s.length : ℝ) / count), p.2 + count) : Res (ℝ × ℝ)) else pure p) =
          .ok (r, y + (l.map (fun c : Nat => (c : ℝ))).sum) := by
      intro l
      induction l with
      | nil => intro x y r hr; rw [forEach_nil] at hr; injection hr with hr; simp [forEach_nil, hr]
      | cons c l ih =>
        intro x y r hr
        rw [forEach_cons] at hr ⊢
        rcases Nat.eq_zero_or_pos c with rfl | hc
        · rw [if_neg (by simp), pure_bind'] at hr ⊢
          rw [ih _ _ _ hr]; simp
        · rw [if_pos hc, pure_bind'] at hr ⊢
          rw [ih _ _ _ hr]; simp; ring
    exact ⟨_, key cs 0 0 a hf, rfl, by dsimp only; rw [zero_add]; exact sum_counts s⟩
  obtain ⟨b, hb, ⟨hx0, hw0, hxw, hwi, hb0, hnear⟩⟩ := forEach_sim
    (fun i (p : ℝ × ℝ) (b : ℝ) => 0 ≤ p.1 ∧ 0 ≤ p.2 ∧ p.1 ≤ p.2 * 64 ∧ p.2 ≤ i * 9007199254740992 ∧ 0 ≤ b ∧
      Near u v (i + 1) (p.2 * (2 * u + 4 * tiny)) p.1 b)
    (g := fun count sum => if count > 0 then
      (pure (A.fl (sum + letterTermF A s.length count)) : Res ℝ) else pure sum) (t := 0) 0 hg
    ⟨le_refl _, le_refl _, by simp, by simp, le_refl _, by constructor <;> simp⟩ (by
      rintro i c ⟨x, w⟩ b s' hi hc ⟨h1, h2, hA, hB, h3, h4⟩ hstep
      dsimp only at h1 h2 hA hB h4 hstep
      rw [hlen] at hi
      have hi' : (i : ℝ) ≤ 256 := by exact_mod_cast (show i ≤ 256 by omega)
      rcases Nat.eq_zero_or_pos c with rfl | hc0
      · rw [if_neg (by simp)] at hstep ⊢
        injection hstep with hstep
        subst hstep
        exact ⟨b, rfl, h1, h2, hA, by push_cast; linarith, h3,
          h4.mono h h1 (by positivity) (by omega) (le_refl _)⟩
      · rw [if_pos hc0] at hstep ⊢
        injection hstep with hstep
        subst hstep
        obtain ⟨t1, t2, hterm, hterm64⟩ := letterTermF_near h hc0 (hcl c hc) hn
        have hc' : (1 : ℝ) ≤ c := by exact_mod_cast hc0
        have hc2 : (c : ℝ) ≤ 9007199254740992 := by exact_mod_cast (hcl c hc).trans hn
        have t3 := t2.mono h hterm (by positivity) (show 1 ≤ i + 1 by omega) (le_refl _)
        have hiu := mul_le_mul_of_nonneg_right hi' hu
        have hE1 : w * (2 * u + 4 * tiny) ≤ w * 1 := mul_le_mul_of_nonneg_left (by linarith) h2
        have hE2 : (c : ℝ) * (2 * u + 2 * tiny) ≤ c * 1 := mul_le_mul_of_nonneg_left (by linarith) (by linarith)
        have hct : 1 * (2 * tiny) ≤ (c : ℝ) * (2 * tiny) := mul_le_mul_of_nonneg_right hc' (by linarith)
        obtain ⟨f1, f2⟩ := (h4.add t3).fl h (by push_cast; linarith) (by linarith) (by positivity)
          (by norm_num; linarith) (by linarith)
        refine ⟨_, rfl, by dsimp only; linarith, by dsimp only; linarith, by dsimp only; linarith,
          by push_cast; linarith, f1, ?_⟩
        dsimp only
        refine f2.mono h (by linarith) (by positivity) (le_refl _) ?_
        linarith)
  rw [hb, ok_bind, pure_ok, h.fl_nat _ hn]
  dsimp only at ha' hw hnear hw0 hx0 hxw
  rw [hlen, hw, ha'] at hnear
  rw [ha'] at hx0 hxw
  rw [hw] at hxw
  have hy0 : 0 ≤ b / (s.length : ℝ) := by positivity
  have h5 := hnear.smul (c := ((s.length : ℝ))⁻¹) (by positivity)
  have e1 : (s.length : ℝ)⁻¹ * ((s.length : ℝ) * (2 * u + 4 * tiny)) = 2 * u + 4 * tiny := by field_simp
  have e2 : (s.length : ℝ)⁻¹ * a = a / s.length := by field_simp
  have e3 : (s.length : ℝ)⁻¹ * b = b / s.length := by field_simp
  rw [e1, e2, e3] at h5
  have e4 : a / s.length ≤ 64 := by rw [div_le_iff₀ hl]; linarith
  obtain ⟨f1, f2⟩ := h5.fl h (by push_cast; linarith) (by positivity) (by positivity) (by norm_num; linarith) hy0
  rw [← hreal]
  refine ⟨_, rfl, f1, ?_⟩
  exact f2.mono h (by positivity) (by positivity) (le_refl _) (by linarith)

/-- Eight bits per letter. -/
theorem Spec.zeroOrder_le_eight (s : List UInt8) : zeroOrder s ≤ 8 := by
  rcases eq_or_ne s [] with rfl | hs
  · simp [zeroOrder]
  refine (zeroOrder_le s hs).trans ?_
  have h1 : s.toFinset.card ≤ 256 := by
    have hsub : s.toFinset.image UInt8.toNat ⊆ Finset.range 256 := by
      intro x hx
      rw [Finset.mem_image] at hx
      obtain ⟨b, -, rfl⟩ := hx
      exact Finset.mem_range.2 b.toNat_lt
    have := Finset.card_le_card hsub
    rw [Finset.card_image_of_injective _ (fun a b e => UInt8.toNat_inj.1 e), Finset.card_range] at this
    exact this
  have h2 : 0 < s.toFinset.card := by
    rw [Finset.card_pos]
    obtain ⟨x, hx⟩ := List.exists_mem_of_ne_nil s hs
    exact ⟨x, by simpa using hx⟩
  rw [Real.logb_le_iff_le_rpow (by norm_num) (by exact_mod_cast h2)]
  have : ((s.toFinset.card : Nat) : ℝ) ≤ 256 := by exact_mod_cast h1
  refine this.trans ?_
  norm_num

theorem Spec.kthOrder_le_eight (s : List UInt8) (k : Nat) : kthOrder s k ≤ 8 := by
  induction k with
  | zero => rw [kthOrder_zero]; exact zeroOrder_le_eight s
  | succ k ih => exact (kthOrder_succ_le s k).trans ih

theorem contextLetters_eq (S : List UInt8) (k : Nat) (sa : List Nat) (b len : Nat) :
    contextLetters S k sa b len = .ok ((((sa.drop b).take len).filter (fun p => decide (p + k < S.length))).map
      (fun p => S.getD (p + k) 0)) := by
  simp only [contextLetters]
  obtain ⟨v, h1, h2⟩ := forEach_inv
    (fun pre (v : List UInt8) => v = (pre.filter (fun p => decide (p + k < S.length))).map (fun p => S.getD (p + k) 0))
    (l := (sa.drop b).take len) (s := [])
    (body := fun p v => if p + k < S.length then do
      let c ← rd S (p + k)
      pure (v ++ [c]) else pure v) rfl (by
      intro pre x post s e hv
      by_cases hx : x + k < S.length
      · rw [if_pos hx, rd_ok hx, ok_bind]
        exact ⟨_, rfl, by rw [hv, List.filter_append, List.map_append]; simp [hx]⟩
      · rw [if_neg hx]
        exact ⟨_, rfl, by rw [hv, List.filter_append, List.map_append]; simp [hx]⟩)
  rw [h1, h2]

theorem computeContextF_near (h : Accurate A u v) {S : List UInt8} {sa : List Nat} {k b len : Nat} {x : ℝ}
    (hb : b < sa.length) (hlen : 0 < len) (hf : sa.getD b 0 + k < S.length) (hn : len ≤ 9007199254740992)
    (hx : computeContext S k sa b len = .ok x) :
    0 ≤ x ∧ x ≤ len * 8 ∧ ∃ y, computeContextF A S k sa b len = .ok y ∧ 0 ≤ y ∧
      Near u v 259 ((len : ℝ) * (2 * u + 8 * tiny)) x y := by
  simp only [computeContext] at hx
  simp only [computeContextF]
  rw [contextLetters_eq, ok_bind] at hx ⊢
  set vs := (((sa.drop b).take len).filter (fun p => decide (p + k < S.length))).map (fun p => S.getD (p + k) 0) with hv
  rw [zeroOrderEntropy_ok, ok_bind, pure_ok] at hx
  injection hx with hx
  have hmem : sa.getD b 0 ∈ (sa.drop b).take len := by
    rw [List.mem_take_iff_getElem]
    refine ⟨0, by simp; omega, ?_⟩
    simp [List.getD_eq_getElem?_getD, hb]
  have hne : vs ≠ [] := by
    intro e
    rw [hv, List.map_eq_nil_iff, List.filter_eq_nil_iff] at e
    exact e _ hmem (by simpa using hf)
  have hvl : vs.length ≤ len := by
    rw [hv, List.length_map]
    exact (List.length_filter_le _ _).trans (List.length_take_le _ _)
  obtain ⟨y, g1, g2, g3⟩ := zeroOrderF_near h hne (by omega)
  have hu := h.u_nonneg
  have hu' := h.u_le
  have ht := tiny_pos
  have ht' := tiny_le'
  have hl : (1 : ℝ) ≤ len := by exact_mod_cast hlen
  have hl2 : (len : ℝ) ≤ 9007199254740992 := by exact_mod_cast hn
  have h0 := zeroOrder_nonneg vs
  have h8 := zeroOrder_le_eight vs
  rw [g1, ok_bind, pure_ok, h.fl_nat _ hn]
  subst hx
  have hx8 : (len : ℝ) * zeroOrder vs ≤ len * 8 := mul_le_mul_of_nonneg_left h8 (by linarith)
  obtain ⟨f1, f2⟩ := (g3.smul (c := (len : ℝ)) (by linarith)).fl h (by push_cast; linarith) (by positivity)
    (by positivity) (by norm_num; nlinarith) (by positivity)
  refine ⟨by positivity, hx8, _, rfl, f1, ?_⟩
  exact f2.mono h (by positivity) (by positivity) (le_refl _) (by nlinarith)

theorem kthOrderF_near (h : Accurate A u v) {sufsort : List UInt8 → List Nat} (hsort : SortsSuffixes sufsort)
    {T : List UInt8} (h0 : T ≠ []) (hT : ∀ x ∈ T, x ≠ 0) (hlen : T.length < 2147483647) {k : Nat}
    (hk : 0 < k) (hN : ((T.length + 262 : Nat) : ℝ) * u ≤ 1 / 2) :
    ∃ y, kthOrderEntropyF A sufsort (T ++ [0]) k = .ok y ∧ 0 ≤ y ∧
      Near u v (T.length + 262) (4 * u + 22 * tiny) (kthOrder (T ++ [0]) k) y := by
  have hu := h.u_nonneg
  have hu' := h.u_le
  have ht := tiny_pos
  have ht' := tiny_le'
  have hNle : ∀ m : Nat, m ≤ T.length + 262 → (m : ℝ) * u ≤ 1 / 2 := by
    intro m hm
    have : (m : ℝ) ≤ (T.length + 262 : Nat) := by exact_mod_cast hm
    exact (mul_le_mul_of_nonneg_right this hu).trans hN
  have hreal := kthOrderEntropy_ok hsort h0 hT hlen hk
  have hs := hsort (T ++ [0]) (by simp; omega)
  have hl1 : (T ++ [(0 : UInt8)]).length = T.length + 1 := by simp
  have hpos := List.length_pos_iff.2 h0
  obtain ⟨phi, plcp, lcp, g1, g2, g3, g4, g5, g6, g7, g8, g9⟩ := lcpChain hs (by omega) (by omega)
  have hsl := hs.length
  have C := treeCtx_build hT hs ⟨by omega, fun i h hi => g8 i h hi⟩
  set S := T ++ [(0 : UInt8)] with hS
  set sa := sufsort S with hsa
  -- the two suffixes around an lcp entry `≥ k` are followed by a letter
  have hfol : ∀ i w, 0 < i → lcp[i]? = some w → k ≤ w → i < S.length ∧ sa.getD (i - 1) 0 + k < S.length := by
    intro i w hi hw hkw
    have hi2 : i < S.length := by rw [← g7]; exact (List.getElem?_eq_some_iff.1 hw).1
    refine ⟨hi2, ?_⟩
    have e := C.hlcp i hi hi2
    rw [hw] at e
    injection e with e
    rw [e, C.C.symm] at hkw
    exact C.followed hk hi2 (by omega) (by omega) hkw
  simp only [kthOrderEntropy, assertR] at hreal
  simp only [kthOrderEntropyF, assertR]
  have hany : (!(S.take (S.length - 1)).any (fun x => decide (x = 0))) = true := by
    rw [hl1, Nat.add_sub_cancel, hS, List.take_left' rfl]
    simp only [Bool.not_eq_true', List.any_eq_false, decide_eq_true_eq]
    exact hT
  rw [if_pos (by simpa using hk), ok_bind, usub_ok (by omega), ok_bind, if_pos hany, ok_bind, g1, ok_bind, g3,
    ok_bind, g6, ok_bind] at hreal ⊢
  rcases hf : forRange 0 lcp.length ((0 : ℝ), 0) (kthStep S k sa lcp) with e | ⟨sum, cc⟩
  · rw [hf] at hreal; cases hreal
  rw [hf, ok_bind] at hreal
  obtain ⟨⟨sumF, ccF⟩, hF, hcc, hs0, hsF0, w, hw0, hwi, hnear, hrun⟩ := forRange_sim
    (fun i (p q : ℝ × Nat) => p.2 = q.2 ∧ 0 ≤ p.1 ∧ 0 ≤ q.1 ∧ ∃ w : Nat, p.1 ≤ w * 8 ∧ w + p.2 ≤ i ∧
      Near u v (i + 259) ((w : ℝ) * (2 * u + 10 * tiny)) p.1 q.1 ∧
      ∀ j, i - p.2 ≤ j → j < i → ∃ z, lcp[j]? = some z ∧ k ≤ z)
    (g := kthStepF A S k sa lcp) (t := ((0 : ℝ), 0)) (Nat.zero_le _) hf
    ⟨rfl, le_refl _, le_refl _, 0, by simp, by simp, by constructor <;> simp, by intros; omega⟩ (by
      rintro i ⟨x, c⟩ ⟨y, c'⟩ s' - hi ⟨e1, e2, e3, w, e4, e5, e6, e7⟩ hstep
      dsimp only at e1 e2 e3 e4 e5 e6 e7
      subst e1
      simp only [kthStep] at hstep
      simp only [kthStepF]
      rw [rd_ok hi, ok_bind] at hstep ⊢
      by_cases c1 : c > 0 ∧ lcp[i] < k
      · rw [if_pos c1] at hstep ⊢
        simp only [assertR] at hstep ⊢
        by_cases hi0 : i > 0
        swap
        · rw [if_neg (by simpa using hi0)] at hstep; cases hstep
        rw [if_pos (by simpa using hi0), ok_bind] at hstep ⊢
        rw [usub_ok (by omega), ok_bind] at hstep ⊢
        by_cases hic : 1 ≤ i - c
        swap
        · rw [usub, if_neg hic] at hstep; cases hstep
        rw [usub_ok hic, ok_bind] at hstep ⊢
        rcases hx : computeContext S k sa (i - c - 1) (c + 1) with e | val
        · rw [hx] at hstep; cases hstep
        rw [hx, ok_bind] at hstep
        injection hstep with hstep
        subst hstep
        obtain ⟨z, z1, z2⟩ := e7 (i - c) (le_refl _) (by omega)
        obtain ⟨z3, z4⟩ := hfol (i - c) z (by omega) z1 z2
        obtain ⟨v0, v8, yv, y1, y2, y3⟩ := computeContextF_near h (len := c + 1) (by omega) (by omega) z4
          (by omega) hx
        rw [y1, ok_bind]
        have y4 := y3.mono h v0 (by positivity) (show 259 ≤ i + 259 by omega) (le_refl _)
        have hwr : (w : ℝ) + (c + 1 : Nat) ≤ 4294967296 := by
          exact_mod_cast (show w + (c + 1) ≤ 4294967296 by omega)
        have hwr0 : (0 : ℝ) ≤ w := Nat.cast_nonneg _
        have hwr1 : (1 : ℝ) ≤ (c + 1 : Nat) := by push_cast; linarith [Nat.cast_nonneg (α := ℝ) c]
        have hE1 : (w : ℝ) * (2 * u + 10 * tiny) ≤ w * 1 := mul_le_mul_of_nonneg_left (by linarith) hwr0
        have hE2 : ((c + 1 : Nat) : ℝ) * (2 * u + 8 * tiny) ≤ (c + 1 : Nat) * 1 :=
          mul_le_mul_of_nonneg_left (by linarith) (by linarith)
        have hct : 1 * (2 * tiny) ≤ ((c + 1 : Nat) : ℝ) * (2 * tiny) := mul_le_mul_of_nonneg_right hwr1 (by linarith)
        obtain ⟨f1, f2⟩ := (e6.add y4).fl h (hNle _ (by omega)) (by linarith) (by positivity)
          (le_trans (show _ ≤ 9 * (4294967296 : ℝ) by linarith) (by norm_num)) (by linarith)
        refine ⟨_, rfl, rfl, by dsimp only; linarith, f1, w + (c + 1), by rw [Nat.cast_add w]; dsimp only; linarith,
          by dsimp only; omega, ?_, by intros; dsimp only at *; omega⟩
        rw [show i + 1 + 259 = i + 259 + 1 by omega]
        refine f2.mono h (by linarith) (by positivity) (le_refl _) ?_
        rw [Nat.cast_add w]
        linarith
      · rw [if_neg c1] at hstep ⊢
        by_cases c2 : lcp[i] ≥ k
        · rw [if_pos c2] at hstep ⊢
          injection hstep with hstep
          subst hstep
          refine ⟨_, rfl, rfl, e2, e3, w, e4, by dsimp only; omega,
            e6.mono h e2 (by positivity) (by omega) (le_refl _), ?_⟩
          intro j j1 j2
          dsimp only at j1
          rcases Nat.lt_succ_iff_lt_or_eq.1 j2 with j3 | j3
          · exact e7 j (by omega) j3
          · subst j3; exact ⟨_, List.getElem?_eq_getElem hi, c2⟩
        · rw [if_neg c2] at hstep ⊢
          injection hstep with hstep
          subst hstep
          refine ⟨_, rfl, rfl, e2, e3, w, e4, by dsimp only; omega,
            e6.mono h e2 (by positivity) (by omega) (le_refl _), ?_⟩
          intro j j1 j2
          dsimp only at j1
          have hc0 : c = 0 := by
            by_contra hc
            exact c1 ⟨by omega, by omega⟩
          omega)
  rw [hF, ok_bind]
  dsimp only at hcc hs0 hsF0 hwi hnear hrun hreal ⊢
  subst hcc
  rw [usub_ok (by omega), ok_bind, rd_ok (by omega), ok_bind] at hreal ⊢
  have hSpos : (0 : ℝ) < S.length := by rw [hl1]; positivity
  rw [h.fl_nat S.length (by omega)]
  -- dividing the final sums
  have hSr : (S.length : ℝ) ≤ 2147483648 := by exact_mod_cast (show S.length ≤ 2147483648 by omega)
  have fin : ∀ (m w : Nat) (X Y : ℝ), m ≤ T.length + 261 → w ≤ S.length + 1 → 0 ≤ X → X ≤ w * 8 → 0 ≤ Y →
      Near u v m ((w : ℝ) * (2 * u + 10 * tiny)) X Y → 0 ≤ A.fl (Y / S.length) ∧
      Near u v (T.length + 262) (4 * u + 22 * tiny) (X / S.length) (A.fl (Y / S.length)) := by
    intro m w X Y hm hw hX hX8 hY hN
    have h5 := hN.smul (c := ((S.length : ℝ))⁻¹) (by positivity)
    have e2 : (S.length : ℝ)⁻¹ * X = X / S.length := by field_simp
    have e3 : (S.length : ℝ)⁻¹ * Y = Y / S.length := by field_simp
    have hw' : (w : ℝ) ≤ 2 * S.length := by
      have : w ≤ 2 * S.length := by omega
      exact_mod_cast this
    have e1 : (S.length : ℝ)⁻¹ * ((w : ℝ) * (2 * u + 10 * tiny)) ≤ 4 * u + 20 * tiny := by
      rw [inv_mul_le_iff₀ hSpos]
      nlinarith
    have e4 : X / S.length ≤ 16 := by rw [div_le_iff₀ hSpos]; linarith
    rw [e2, e3] at h5
    obtain ⟨f1, f2⟩ := h5.fl h (hNle _ (by omega)) (by positivity) (by positivity) (by norm_num; linarith)
      (by positivity)
    exact ⟨f1, f2.mono h (by positivity) (by positivity) (by omega) (by linarith)⟩
  by_cases hc : lcp[lcp.length - 1] ≥ k ∧ cc > 0
  · rw [if_pos hc] at hreal ⊢
    rw [usub_ok (by omega), ok_bind] at hreal ⊢
    by_cases hic : 1 ≤ lcp.length - cc
    swap
    · rw [usub, if_neg hic] at hreal; cases hreal
    rw [usub_ok hic, ok_bind] at hreal ⊢
    rcases hx : computeContext S k sa (lcp.length - cc - 1) (cc + 1) with e | val
    · rw [hx] at hreal; cases hreal
    rw [hx, ok_bind, pure_bind', pure_ok] at hreal
    injection hreal with hreal
    obtain ⟨z, z1, z2⟩ := hrun (lcp.length - cc) (le_refl _) (by omega)
    obtain ⟨z3, z4⟩ := hfol _ z (by omega) z1 z2
    obtain ⟨v0, v8, yv, y1, y2, y3⟩ := computeContextF_near h (len := cc + 1) (by omega) (by omega) z4
      (by omega) hx
    rw [y1, ok_bind, pure_bind', pure_ok, ← hreal]
    have y4 := y3.mono h v0 (by positivity) (show 259 ≤ lcp.length + 259 by omega) (le_refl _)
    have hwr : (w : ℝ) + (cc + 1 : Nat) ≤ 4294967296 := by
      exact_mod_cast (show w + (cc + 1) ≤ 4294967296 by omega)
    have hwr0 : (0 : ℝ) ≤ w := Nat.cast_nonneg _
    have hwr1 : (1 : ℝ) ≤ (cc + 1 : Nat) := by push_cast; linarith [Nat.cast_nonneg (α := ℝ) cc]
    have hE1 : (w : ℝ) * (2 * u + 10 * tiny) ≤ w * 1 := mul_le_mul_of_nonneg_left (by linarith) hwr0
    have hE2 : ((cc + 1 : Nat) : ℝ) * (2 * u + 8 * tiny) ≤ (cc + 1 : Nat) * 1 :=
      mul_le_mul_of_nonneg_left (by linarith) (by linarith)
    have hct : 1 * (2 * tiny) ≤ ((cc + 1 : Nat) : ℝ) * (2 * tiny) := mul_le_mul_of_nonneg_right hwr1 (by linarith)
    obtain ⟨k1, k2⟩ := (hnear.add y4).fl h (hNle _ (by omega)) (by linarith) (by positivity)
      (le_trans (show _ ≤ 9 * (4294967296 : ℝ) by linarith) (by norm_num)) (by linarith)
    have y5 := k2.mono h (e' := ((w + (cc + 1) : Nat) : ℝ) * (2 * u + 10 * tiny)) (by linarith) (by positivity)
      (le_refl _) (by rw [Nat.cast_add w]; linarith)
    obtain ⟨f1, f2⟩ := fin _ _ _ _ (by omega) (by omega) (by linarith) (by rw [Nat.cast_add w]; linarith) k1 y5
    exact ⟨_, rfl, f1, f2⟩
  · rw [if_neg hc] at hreal ⊢
    rw [pure_bind', pure_ok] at hreal ⊢
    injection hreal with hreal
    rw [← hreal]
    obtain ⟨f1, f2⟩ := fin _ _ _ _ (by omega) (by omega) hs0 hw0 hsF0 hnear
    exact ⟨_, rfl, f1, f2⟩

end Verif
