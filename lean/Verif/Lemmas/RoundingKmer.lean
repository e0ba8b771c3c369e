import Verif.Lemmas.Rounding
import Verif.Lemmas.EntropyKmer
import Verif.Lemmas.EntropyBounds

/-! # Rounding errors of the k-mer tool, and explicit bounds -/

namespace Verif

open Verif.Model Verif.Spec

variable {A : Arith} {u v : ℝ}

theorem pow_lower (hu1 : u ≤ 1) (N : Nat) : 1 - (N : ℝ) * u ≤ (1 - u) ^ N := by
  have := one_add_mul_le_pow (a := -u) (by linarith) N
  have e : (1 : ℝ) + -u = 1 - u := by ring
  rw [e] at this
  linarith

/-- The distance of two `Near` numbers. -/
theorem Spec.Near.abs_le (h : Accurate A u v) {N : Nat} {e x y : ℝ} (hx : 0 ≤ x) (he : 0 ≤ e)
    (hN : (N : ℝ) * u ≤ 1 / 2) (hn : Near u v N e x y) :
    |y - x| ≤ 2 * (N * u + v) * x + 4 * e := by
  have hu := h.u_nonneg
  have hu' := h.u_le
  have hv := h.v_nonneg
  have hv' := h.v_le
  have h1 := pow_err hu hN
  have h2 := pow_lower (u := u) (by linarith) N
  have h5 : 0 ≤ (N : ℝ) * u := by positivity
  obtain ⟨n1, n2⟩ := hn
  set a := (N : ℝ) * u
  have h6 : (1 + u) ^ N * (1 + v) ≤ 1 + 2 * a + 2 * v := by
    calc (1 + u) ^ N * (1 + v) ≤ (1 + 2 * a) * (1 + v) := mul_le_mul_of_nonneg_right h1 (by linarith)
      _ ≤ _ := by nlinarith
  have h7 : 1 - a - v ≤ (1 - u) ^ N * (1 - v) := by
    calc 1 - a - v ≤ (1 - a) * (1 - v) := by nlinarith
      _ ≤ _ := mul_le_mul_of_nonneg_right h2 (by linarith)
  have h8 : (1 + u) ^ N * (1 + v) ≤ 4 := by nlinarith
  rw [_root_.abs_le]
  constructor
  · have := mul_le_mul_of_nonneg_right h7 hx
    nlinarith
  · have e1 := mul_le_mul_of_nonneg_right h6 hx
    have e2 := mul_le_mul_of_nonneg_right h8 he
    nlinarith

theorem mapTermF_near (h : Accurate A u v) {c : Nat} (hc : 0 < c) (hn : c ≤ 9007199254740992) :
    0 ≤ mapTermF A c ∧ Near u v 1 (2 * tiny) ((c : ℝ) * Real.logb 2 c) (mapTermF A c) ∧
      0 ≤ (c : ℝ) * Real.logb 2 c ∧ (c : ℝ) * Real.logb 2 c ≤ 9007199254740992 * 64 := by
  unfold mapTermF
  rw [h.fl_nat c hn]
  have hc' : (1 : ℝ) ≤ c := by exact_mod_cast hc
  have hc2 : (c : ℝ) ≤ 9007199254740992 := by exact_mod_cast hn
  have hv := h.v_nonneg
  have hv' := h.v_le
  have hl : 0 ≤ Real.logb 2 (c : ℝ) := Real.logb_nonneg (by norm_num) hc'
  have hl2 := logb_le_64 hc' hc2
  have h1 := h.lg_err c (huge_of_le (by linarith) (hc2.trans (by norm_num))) (by rw [h.fl_nat c hn]; exact hc')
  rw [h.fl_nat c hn, abs_le] at h1
  have h2 : 0 ≤ A.lg (c : ℝ) := by nlinarith [h1.1]
  have h3 : 0 ≤ (c : ℝ) * A.lg c := by positivity
  have h4 : (c : ℝ) * Real.logb 2 c ≤ 9007199254740992 * 64 := mul_le_mul hc2 hl2 hl (by norm_num)
  have h5 : 0 ≤ (c : ℝ) * Real.logb 2 c := by positivity
  have : Near u v 0 0 (Real.logb 2 (c : ℝ)) (A.lg c) := by
    constructor
    · rw [pow_zero]; nlinarith [h1.1]
    · rw [pow_zero]; nlinarith [h1.2]
  obtain ⟨f1, f2⟩ := (this.smul (c := (c : ℝ)) (by linarith)).fl h (by simp) h5 (by simp)
    (by rw [mul_zero, add_zero]; exact h4.trans (by norm_num)) h3
  refine ⟨f1, ?_, h5, h4⟩
  simpa using f2

/-- Summing the terms of a map in any order. -/
theorem mapSumF_near (h : Accurate A u v) (m : List (Nat × Nat)) (hm : ∀ p ∈ m, 0 < p.2 ∧ p.2 ≤ 9007199254740992)
    (hml : m.length ≤ 9007199254740992) (hN : ((m.length + 1 : Nat) : ℝ) * u ≤ 1 / 2) :
    ∃ y, forEach m (0 : ℝ) (fun kmer sum => (pure (A.fl (sum + mapTermF A kmer.2)) : Res ℝ)) = .ok y ∧ 0 ≤ y ∧
      Near u v (m.length + 1) (m.length * (4 * tiny)) (m.map (fun p => (p.2 : ℝ) * Real.logb 2 p.2)).sum y := by
  have ht := tiny_pos
  have ht' := tiny_le'
  have hu := h.u_nonneg
  have key := forEach_sim (σ := ℝ) (τ := ℝ)
    (fun i x b => 0 ≤ x ∧ x ≤ i * (9007199254740992 * 64) ∧ 0 ≤ b ∧ Near u v (i + 1) (i * (4 * tiny)) x b)
    (f := fun (p : Nat × Nat) x => pure (x + (p.2 : ℝ) * Real.logb 2 p.2))
    (g := fun kmer sum => (pure (A.fl (sum + mapTermF A kmer.2)) : Res ℝ)) (l := m) (s := 0) (t := 0)
    (s' := 0 + (m.map (fun p => (p.2 : ℝ) * Real.logb 2 p.2)).sum) 0
    (forEach_sum m (fun p : Nat × Nat => (p.2 : ℝ) * Real.logb 2 p.2) 0)
    ⟨le_refl _, by simp, le_refl _, by constructor <;> simp⟩ (by
      rintro i p x b s' hi hp ⟨h1, hb, h2, h3⟩ hstep
      injection hstep with hstep
      subst hstep
      obtain ⟨t1, t2, t3, t5⟩ := mapTermF_near h (hm p hp).1 (hm p hp).2
      have t4 := t2.mono h t3 (by positivity) (show 1 ≤ i + 1 by omega) (le_refl _)
      have hi1 : (i : ℝ) ≤ 9007199254740992 := by exact_mod_cast (show i ≤ 9007199254740992 by omega)
      have hi0 : (0 : ℝ) ≤ i := Nat.cast_nonneg _
      have hNi : ((i + 1 : Nat) : ℝ) * u ≤ 1 / 2 := by
        have : ((i + 1 : Nat) : ℝ) ≤ (m.length + 1 : Nat) := by exact_mod_cast (show i + 1 ≤ m.length + 1 by omega)
        exact (mul_le_mul_of_nonneg_right this hu).trans hN
      have hE : (i : ℝ) * (4 * tiny) ≤ i * 1 := mul_le_mul_of_nonneg_left (by linarith) hi0
      obtain ⟨f1, f2⟩ := (h3.add t4).fl h hNi (by linarith) (by positivity)
        (le_trans (show _ ≤ 9007199254740993 * (9007199254740992 * 64) + 9007199254740993 by linarith)
          (by norm_num)) (by linarith)
      refine ⟨_, rfl, by linarith, by push_cast; linarith, f1, ?_⟩
      refine f2.mono h (by linarith) (by positivity) (le_refl _) ?_
      push_cast; linarith)
  obtain ⟨y, e, -, -, h2, h3⟩ := key
  refine ⟨y, e, h2, ?_⟩
  simpa using h3

theorem incMap_entries (ks : List Nat) :
    (ks.foldl incMap []).length ≤ ks.length ∧
    (∀ p ∈ ks.foldl incMap [], 0 < p.2 ∧ p.2 ≤ ks.length) ∧
    ((ks.foldl incMap []).map (fun p => (p.2 : ℝ))).sum = ks.length := by
  obtain ⟨h1, h2⟩ := incMap_fold ks
  refine ⟨?_, ?_, ?_⟩
  · have h3 : ((ks.foldl incMap []).map Prod.fst) ⊆ ks := by
      intro a ha
      rw [List.mem_map] at ha
      obtain ⟨⟨a, c⟩, hp, rfl⟩ := ha
      exact ((h2 a c).1 hp).1
    have := (List.subperm_of_subset h1 h3).length_le
    simpa using this
  · rintro ⟨a, c⟩ hp
    obtain ⟨ha, rfl⟩ := (h2 a c).1 hp
    exact ⟨List.count_pos_iff.2 ha, List.count_le_length⟩
  · rw [incMap_sum ks (fun c => (c : ℝ)), ← Nat.cast_sum]
    exact_mod_cast List.sum_toFinset_count_eq_length ks

/-- The exact sum over a map of counts. -/
theorem incMap_xlog_le (ks : List Nat) {n : Nat} (hn : ks.length ≤ n) (hn0 : 0 < n) :
    ((ks.foldl incMap []).map (fun p => (p.2 : ℝ) * Real.logb 2 p.2)).sum ≤ n * Real.logb 2 n := by
  obtain ⟨-, h2, h3⟩ := incMap_entries ks
  have hn1 : (1 : ℝ) ≤ n := by exact_mod_cast hn0
  have hl : 0 ≤ Real.logb 2 (n : ℝ) := Real.logb_nonneg (by norm_num) hn1
  calc ((ks.foldl incMap []).map (fun p => (p.2 : ℝ) * Real.logb 2 p.2)).sum
      ≤ ((ks.foldl incMap []).map (fun p => (p.2 : ℝ) * Real.logb 2 n)).sum := by
        apply List.sum_le_sum
        intro p hp
        obtain ⟨e1, e2⟩ := h2 p hp
        have e1' : (0 : ℝ) < p.2 := by exact_mod_cast e1
        apply mul_le_mul_of_nonneg_left _ e1'.le
        exact Real.logb_le_logb_of_le (by norm_num) e1' (by exact_mod_cast le_trans e2 hn)
    _ = ((ks.foldl incMap []).map (fun p => (p.2 : ℝ))).sum * Real.logb 2 n := by
        rw [List.sum_map_mul_right]
    _ ≤ _ := by
        rw [h3]
        exact mul_le_mul_of_nonneg_right (by exact_mod_cast hn) hl

/-- The last two operations of the k-mer tool. -/
theorem kmer_final (h : Accurate A u v) {n G L H X Y x z : ℝ} (hn1 : 1 ≤ n) (hG : 0 ≤ G) (hL : 0 ≤ L) (hH : 0 ≤ H)
    (hXY : n * H = X - Y) (x2 : |x - X| ≤ 2 * G * (n * L) + n * (16 * tiny))
    (z2 : |z - Y| ≤ 2 * G * (n * L) + n * (16 * tiny)) (x3 : 0 ≤ x) (x4 : x ≤ 2 ^ 120) (z3 : 0 ≤ z) (z4 : z ≤ 2 ^ 120) :
    |A.fl (A.fl (x - z) / n) - H| ≤ 3 * u * H + 8 * G * L + 64 * tiny := by
  have ht := tiny_pos
  have ht' := tiny_le'
  have hu := h.u_nonneg
  have hu' := h.u_le
  have hn0 : 0 < n := by linarith
  have b1 : |x - z| ≤ 2 ^ 120 := by
    rw [_root_.abs_le]; constructor <;> linarith
  have b1' : |x - z| ≤ huge := by
    have := huge_of_le (abs_nonneg (x - z)) b1
    rwa [abs_abs] at this
  have f1 := h.fl_abs b1'
  set d := A.fl (x - z)
  have b2 : |d / n| ≤ huge := by
    have e1 : |d| ≤ 2 * 2 ^ 120 + 1 := by
      have e2 : |d| ≤ |d - (x - z)| + |x - z| := by simpa using abs_add_le (d - (x - z)) (x - z)
      have e3 : u * |x - z| ≤ 1 / 1024 * |x - z| := mul_le_mul_of_nonneg_right hu' (abs_nonneg _)
      linarith
    rw [abs_div, abs_of_pos hn0]
    have e4 : |d| / n ≤ |d| := div_le_self (abs_nonneg _) hn1
    exact (e4.trans e1).trans (le_trans (by norm_num) le_huge)
  have f2 := h.fl_abs b2
  set y := A.fl (d / n)
  have g1 : |x - z - n * H| ≤ n * (4 * G * L + 32 * tiny) := by
    rw [hXY]
    have : x - z - (X - Y) = (x - X) - (z - Y) := by ring
    rw [this]
    refine le_trans (abs_sub _ _) ?_
    linarith
  have g2 : |(x - z) / n - H| ≤ 4 * G * L + 32 * tiny := by
    have : (x - z) / n - H = (x - z - n * H) / n := by field_simp
    rw [this, abs_div, abs_of_pos hn0, div_le_iff₀ hn0]
    linarith
  have f1' : |d / n - (x - z) / n| ≤ u * |(x - z) / n| + 2 * tiny := by
    rw [← sub_div, abs_div, abs_div, ← mul_div_assoc, abs_of_pos hn0]
    have e1 := div_le_div_of_nonneg_right f1 hn0.le
    rw [add_div] at e1
    have e2 : 2 * tiny / n ≤ 2 * tiny := div_le_self (by linarith) hn1
    linarith
  set q := (x - z) / n
  set p := d / n
  set K := 4 * G * L + 32 * tiny with hK
  have hGL : 0 ≤ G * L := mul_nonneg hG hL
  have hK0 : 0 ≤ K := by rw [hK]; linarith
  have k1 : |q| ≤ H + K := by
    have : |q| ≤ |q - H| + |H| := by simpa using abs_add_le (q - H) H
    rw [abs_of_nonneg hH] at this
    linarith
  have k2 : |p| ≤ (1 + u) * |q| + 2 * tiny := by
    have : |p| ≤ |p - q| + |q| := by simpa using abs_add_le (p - q) q
    linarith
  have k3 : |y - H| ≤ |y - p| + |p - q| + |q - H| := by
    have := abs_add_le (y - p) (p - q)
    have h2 := abs_add_le (y - p + (p - q)) (q - H)
    have e : y - p + (p - q) + (q - H) = y - H := by ring
    rw [e] at h2
    linarith
  have k4 : |y - H| ≤ u * ((1 + u) * (H + K) + 2 * tiny) + u * (H + K) + 4 * tiny + K := by
    have e1 := mul_le_mul_of_nonneg_left k2 hu
    have e2 := mul_le_mul_of_nonneg_left k1 hu
    have e3 : u * ((1 + u) * |q| + 2 * tiny) ≤ u * ((1 + u) * (H + K) + 2 * tiny) := by
      apply mul_le_mul_of_nonneg_left _ hu
      have := mul_le_mul_of_nonneg_left k1 (show 0 ≤ 1 + u by linarith)
      linarith
    linarith
  have huu : u * u ≤ u * (1 / 1024) := mul_le_mul_of_nonneg_left hu' hu
  have m1 : u * u * H ≤ u * (1 / 1024) * H := mul_le_mul_of_nonneg_right huu hH
  have m2 : u * u * K ≤ u * (1 / 1024) * K := mul_le_mul_of_nonneg_right huu hK0
  have m3 : u * K ≤ 1 / 1024 * K := mul_le_mul_of_nonneg_right hu' hK0
  have m4 : 0 ≤ u * H := mul_nonneg hu hH
  have m5 : u * (2 * tiny) ≤ 1 / 1024 * (2 * tiny) := mul_le_mul_of_nonneg_right hu' (by linarith)
  have m6 : |y - H| ≤ 3 * u * H + 5 / 4 * K + 5 * tiny := by
    calc |y - H| ≤ _ := k4
      _ ≤ _ := by nlinarith
  rw [hK] at m6
  nlinarith

theorem kmerF_near (h : Accurate A u v) {T : List UInt8} (hT : ∀ x ∈ T, x ≠ 0) {k : Nat} (hk : 1 ≤ k)
    (hk7 : k ≤ 7) (hkl : k ≤ T.length + 1) (hlen : T.length < 9007199254740992)
    (hN : ((T.length + 2 : Nat) : ℝ) * u ≤ 1 / 2)
    {ord ord' : List (Nat × Nat) → List (Nat × Nat)} (ho : ∀ m, (ord m).Perm m) (ho' : ∀ m, (ord' m).Perm m) :
    ∃ y, entropyViaKmerCountingF A ord ord' (T ++ [0]) k = .ok (y, T.length + 1) ∧
      |y - kthOrder (T ++ [0]) k| ≤ 3 * u * kthOrder (T ++ [0]) k +
        8 * (((T.length + 2 : Nat) : ℝ) * u + v) * Real.logb 2 (T.length + 1 : Nat) + 64 * tiny := by
  have ht := tiny_pos
  have ht' := tiny_le'
  have hu := h.u_nonneg
  have hu' := h.u_le
  have hv := h.v_nonneg
  have hl1 : (T ++ [(0 : UInt8)]).length = T.length + 1 := by simp
  have hreal := entropyViaKmerCounting_ok hT hk hk7 hkl
  have hH := kthOrder_nonneg (T ++ [0]) k
  obtain ⟨r, hr⟩ := kmerCounts_ok (S := T ++ [0]) hk hk7 (by omega)
  simp only [entropyViaKmerCounting] at hreal
  simp only [entropyViaKmerCountingF]
  rw [hr, ok_bind] at hreal ⊢
  dsimp only at hreal ⊢
  rw [forEach_sum, ok_bind, forEach_sum, ok_bind, pure_ok, zero_add, zero_add] at hreal
  injection hreal with hreal
  rw [Prod.mk.injEq] at hreal
  have hreal := hreal.1
  set ks := (List.range ((T ++ [(0 : UInt8)]).length - k + 1)).map (fun i => enc (win (T ++ [0]) k i)) with hks
  set ks' := (List.range ((T ++ [(0 : UInt8)]).length - k)).map (fun i => enc (win (T ++ [0]) (k + 1) i)) with hks'
  have hkl1 : ks.length ≤ T.length + 1 := by rw [hks]; simp; omega
  have hkl2 : ks'.length ≤ T.length + 1 := by rw [hks']; simp
  have main : ∀ (ks : List Nat) (o : List (Nat × Nat) → List (Nat × Nat)), (∀ m, (o m).Perm m) → ks.length ≤ T.length + 1 →
      ∃ y, forEach (o (ks.foldl incMap [])) (0 : ℝ) (fun kmer sum => (pure (A.fl (sum + mapTermF A kmer.2)) : Res ℝ)) = .ok y ∧
        |y - ((ks.foldl incMap []).map (fun p => (p.2 : ℝ) * Real.logb 2 p.2)).sum| ≤
          2 * (((T.length + 2 : Nat) : ℝ) * u + v) * ((T.length + 1 : Nat) * Real.logb 2 (T.length + 1 : Nat)) +
            (T.length + 1 : Nat) * (16 * tiny) ∧ 0 ≤ y ∧ y ≤ 2 ^ 120 := by
    intro ks o hp hk
    obtain ⟨e1, e2, -⟩ := incMap_entries ks
    obtain ⟨y, a1, a2, a3⟩ := mapSumF_near h (o (ks.foldl incMap [])) (by
      intro p hp1
      have := e2 p ((hp _).mem_iff.1 hp1)
      exact ⟨this.1, by omega⟩) (by rw [(hp _).length_eq]; omega) (by
        rw [(hp _).length_eq]
        have : (((ks.foldl incMap []).length + 1 : Nat) : ℝ) ≤ (T.length + 2 : Nat) := by
          exact_mod_cast (show (ks.foldl incMap []).length + 1 ≤ T.length + 2 by omega)
        exact (mul_le_mul_of_nonneg_right this hu).trans hN)
    refine ⟨y, a1, ?_⟩
    rw [((hp (ks.foldl incMap [])).map _).sum_eq, (hp _).length_eq] at a3
    have hpos : 0 ≤ ((ks.foldl incMap []).map (fun p => (p.2 : ℝ) * Real.logb 2 p.2)).sum := by
      apply List.sum_nonneg
      intro x hx
      rw [List.mem_map] at hx
      obtain ⟨p, hp, rfl⟩ := hx
      have : (1 : ℝ) ≤ p.2 := by exact_mod_cast (e2 p hp).1
      exact mul_nonneg (by linarith) (Real.logb_nonneg (by norm_num) this)
    have hml : (((ks.foldl incMap []).length : Nat) : ℝ) ≤ (T.length + 1 : Nat) := by
      exact_mod_cast (show (ks.foldl incMap []).length ≤ T.length + 1 by omega)
    have a4 := a3.mono h (e' := (T.length + 1 : Nat) * (4 * tiny)) hpos (by positivity)
      (show (ks.foldl incMap []).length + 1 ≤ T.length + 2 by omega)
      (mul_le_mul_of_nonneg_right hml (by positivity))
    have a5 := a4.abs_le h hpos (by positivity) hN
    have a6 := incMap_xlog_le ks hk (by omega)
    refine ⟨?_, a2, ?_⟩
    · refine le_trans a5 ?_
      have := mul_le_mul_of_nonneg_left a6 (show 0 ≤ 2 * (((T.length + 2 : Nat) : ℝ) * u + v) by positivity)
      linarith
    · have hT1 : ((T.length + 1 : Nat) : ℝ) ≤ 9007199254740992 := by
        exact_mod_cast (show T.length + 1 ≤ 9007199254740992 by omega)
      have hT0 : (1 : ℝ) ≤ ((T.length + 1 : Nat) : ℝ) := by exact_mod_cast (show 1 ≤ T.length + 1 by omega)
      have hl0 : 0 ≤ Real.logb 2 ((T.length + 1 : Nat) : ℝ) := Real.logb_nonneg (by norm_num) hT0
      have hl := mul_le_mul hT1 (logb_le_64 hT0 hT1) hl0 (by norm_num)
      have hE : ((T.length + 1 : Nat) : ℝ) * (4 * tiny) ≤ (T.length + 1 : Nat) * 1 :=
        mul_le_mul_of_nonneg_left (by linarith) (by linarith)
      exact a4.moderate h hN hpos (by positivity)
        (le_trans (show _ ≤ (9007199254740992 * 64 + 9007199254740992 : ℝ) by linarith) (by norm_num))
  obtain ⟨x, x1, x2, x3, x4⟩ := main ks ord ho hkl1
  obtain ⟨z, z1, z2, z3, z4⟩ := main ks' ord' ho' hkl2
  rw [x1, ok_bind, z1, ok_bind, pure_ok, hl1, h.fl_nat _ (by omega)]
  refine ⟨_, rfl, ?_⟩
  rw [hl1] at hreal
  have hn1 : (1 : ℝ) ≤ ((T.length + 1 : Nat) : ℝ) := by exact_mod_cast (show 1 ≤ T.length + 1 by omega)
  have hn0 : ((T.length + 1 : Nat) : ℝ) ≠ 0 := by linarith
  refine kmer_final h hn1 (by positivity) (Real.logb_nonneg (by norm_num) hn1) hH ?_ x2 z2 x3 x4 z3 z4
  rw [← hreal, mul_div_cancel₀ _ hn0]

end Verif
