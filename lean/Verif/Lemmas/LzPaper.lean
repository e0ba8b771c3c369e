import Verif.Lemmas.LzWords
import Verif.Lemmas.Uniform

/-! # The number of Lempel-Ziv phrases of the paperfolding words -/

namespace Verif

open Spec Model

/-! ### Blocks of a 2-uniform morphism -/

theorem fixLetter_block {x : UInt8} {f0 f1 : UInt8 → UInt8} (hx : f0 x = x) {a b : Nat}
    (h : fixLetter x f0 f1 a = fixLetter x f0 f1 b) (k i : Nat) (hi : i < 2 ^ k) :
    fixLetter x f0 f1 (a * 2 ^ k + i) = fixLetter x f0 f1 (b * 2 ^ k + i) := by
  induction k generalizing i with
  | zero =>
    have : i = 0 := by simpa using hi
    subst this
    simpa using h
  | succ k ih =>
    have hp : 2 ^ (k + 1) = 2 * 2 ^ k := by rw [Nat.pow_succ, Nat.mul_comm]
    have h := ih (i / 2) (by omega)
    have ha : ∀ a, a * 2 ^ (k + 1) = 2 * (a * 2 ^ k) := fun a => by rw [hp]; ring
    rcases Nat.mod_two_eq_zero_or_one i with h2 | h2
    · rw [ha, ha, show 2 * (a * 2 ^ k) + i = 2 * (a * 2 ^ k + i / 2) by omega,
        show 2 * (b * 2 ^ k) + i = 2 * (b * 2 ^ k + i / 2) by omega, fixLetter_even hx, fixLetter_even hx, h]
    · rw [ha, ha, show 2 * (a * 2 ^ k) + i = 2 * (a * 2 ^ k + i / 2) + 1 by omega,
        show 2 * (b * 2 ^ k) + i = 2 * (b * 2 ^ k + i / 2) + 1 by omega, fixLetter_odd, fixLetter_odd, h]

theorem fixLetter_copy {x : UInt8} {f0 f1 : UInt8 → UInt8} (hx : f0 x = x) {a b m k : Nat}
    (h : ∀ c, c < m → fixLetter x f0 f1 (a + c) = fixLetter x f0 f1 (b + c)) (i : Nat) (hi : i < m * 2 ^ k) :
    fixLetter x f0 f1 (a * 2 ^ k + i) = fixLetter x f0 f1 (b * 2 ^ k + i) := by
  have h0 := Nat.two_pow_pos k
  have hc : i / 2 ^ k < m := by rw [Nat.div_lt_iff_lt_mul h0]; exact hi
  have hr := Nat.mod_lt i h0
  have e := Nat.div_add_mod i (2 ^ k)
  have e' : ∀ a, a * 2 ^ k + i = (a + i / 2 ^ k) * 2 ^ k + i % 2 ^ k := by
    intro a
    rw [Nat.add_mul, Nat.mul_comm (i / 2 ^ k)]; omega
  rw [e' a, e' b]
  exact fixLetter_block hx (h _ hc) k _ hr

/-! ### The word over four letters -/

/-- The letters `p, ..., q` do not occur in this order before. -/
def PfFirst (p q : Nat) : Prop := ∀ j, j < p → ∃ k, k ≤ q - p ∧ pf (j + k) ≠ pf (p + k)

theorem pf_val (i : Nat) : pf i = (if i % 2 = 0 then (if i / 2 % 2 = 0 then 100 else 99)
    else pf1 (pf (i / 2))) := by
  rcases Nat.mod_two_eq_zero_or_one i with h | h
  · rw [if_pos h]
    conv_lhs => rw [show i = 2 * (i / 2) by omega, pf_even]
    have hv := pf_values (i / 2)
    rcases Nat.mod_two_eq_zero_or_one (i / 2) with h2 | h2
    · rw [if_pos h2]; rcases hv.1 h2 with e | e <;> rw [e] <;> decide
    · rw [if_neg (by omega)]; rcases hv.2 h2 with e | e <;> rw [e] <;> decide
  · rw [if_neg (by omega)]
    conv_lhs => rw [show i = 2 * (i / 2) + 1 by omega, pf_odd]

theorem pf_parity {i j : Nat} (h : pf i = pf j) : i % 2 = j % 2 := by
  have hi := pf_values i
  have hj := pf_values j
  rcases Nat.mod_two_eq_zero_or_one i with a | a <;> rcases Nat.mod_two_eq_zero_or_one j with b | b
  · omega
  · exfalso
    rcases hi.1 a with e | e <;> rcases hj.2 b with f | f <;> rw [e, f] at h <;> exact absurd h (by decide)
  · exfalso
    rcases hi.2 a with e | e <;> rcases hj.1 b with f | f <;> rw [e, f] at h <;> exact absurd h (by decide)
  · omega

theorem pf1_inj {i j : Nat} (hp : i % 2 = j % 2) (h : pf1 (pf i) = pf1 (pf j)) : pf i = pf j := by
  have hi := pf_values i
  have hj := pf_values j
  rcases Nat.mod_two_eq_zero_or_one i with a | a
  · rcases hi.1 a with e | e <;> rcases hj.1 (by omega) with f | f <;> rw [e, f] at h ⊢ <;>
      exact absurd h (by decide)
  · rcases hi.2 a with e | e <;> rcases hj.2 (by omega) with f | f <;> rw [e, f] at h ⊢ <;>
      exact absurd h (by decide)

theorem PfFirst.double {p q : Nat} (h : PfFirst p q) (hpq : p < q) : PfFirst (2 * p + 1) (2 * q + 1) := by
  intro j hj
  by_contra hc
  push Not at hc
  have par := pf_parity (hc 0 (by omega))
  obtain ⟨j', rfl⟩ : ∃ j', j = 2 * j' + 1 := ⟨j / 2, by omega⟩
  have par2 : j' % 2 = p % 2 := by
    have := hc 1 (by omega)
    rw [pf_val (2 * j' + 1 + 1), pf_val (2 * p + 1 + 1), if_pos (show (2 * j' + 1 + 1) % 2 = 0 by omega),
      if_pos (show (2 * p + 1 + 1) % 2 = 0 by omega)] at this
    split at this <;> split at this
    · omega
    · exact absurd this (by decide)
    · exact absurd this (by decide)
    · omega
  obtain ⟨k, hk, hne⟩ := h j' (by omega)
  have := hc (2 * k) (by omega)
  rw [show 2 * j' + 1 + 2 * k = 2 * (j' + k) + 1 by omega,
    show 2 * p + 1 + 2 * k = 2 * (p + k) + 1 by omega, pf_odd, pf_odd] at this
  exact hne (pf1_inj (by omega) this)

theorem pfFirst_pow {a b : Nat} (hab : a < b) (ha : 0 < a) (h : PfFirst (a - 1) (b - 1)) (m : Nat) :
    PfFirst (a * 2 ^ m - 1) (b * 2 ^ m - 1) := by
  induction m with
  | zero => simpa using h
  | succ m ih =>
    have h0 : 0 < 2 ^ m := Nat.two_pow_pos m
    have h1 : a * 2 ^ m < b * 2 ^ m := Nat.mul_lt_mul_of_pos_right hab h0
    have h2 : 0 < a * 2 ^ m := Nat.mul_pos ha h0
    have := ih.double (by omega)
    rwa [show a * 2 ^ (m + 1) - 1 = 2 * (a * 2 ^ m - 1) + 1 by rw [Nat.pow_succ, ← Nat.mul_assoc]; omega,
      show b * 2 ^ (m + 1) - 1 = 2 * (b * 2 ^ m - 1) + 1 by rw [Nat.pow_succ, ← Nat.mul_assoc]; omega]

theorem pf_first_small : (∀ p, p < 6 → PfFirst p (p + 1)) ∧ PfFirst 7 9 ∧ PfFirst 10 11 ∧ PfFirst 11 12 := by
  refine ⟨?_, ?_, ?_, ?_⟩
  · intro p hp
    have : ∀ p, p < 6 → ∀ j, j < p → ∃ k, k ≤ p + 1 - p ∧ pf (j + k) ≠ pf (p + k) := by decide +kernel
    exact this p hp
  · have : ∀ j, j < 7 → ∃ k, k ≤ 2 ∧ pf (j + k) ≠ pf (7 + k) := by decide +kernel
    exact this
  · have : ∀ j, j < 10 → ∃ k, k ≤ 1 ∧ pf (j + k) ≠ pf (10 + k) := by decide +kernel
    exact this
  · have : ∀ j, j < 11 → ∃ k, k ≤ 1 ∧ pf (j + k) ≠ pf (11 + k) := by decide +kernel
    exact this

theorem pf_forced_small (n p : Nat) (hp : p ≤ 6) (hn : p < n) : Forced ((List.range n).map pf) p p := by
  induction p with
  | zero => exact .zero
  | succ p ih =>
    exact (ih (by omega) (by omega)).succ (Nat.le_refl _)
      (firstAt_range (by omega) hn (pf_first_small.1 p (by omega)))

theorem pf_forced_big (m n : Nat) (h : 8 * 2 ^ m ≤ n) : ∃ e, e < 8 * 2 ^ m ∧
    Forced ((List.range n).map pf) (3 * m + 6) e := by
  induction m with
  | zero => exact ⟨6, by omega, pf_forced_small n 6 (by omega) (by omega)⟩
  | succ m ih =>
    have h0 := Nat.two_pow_pos m
    have e : 2 ^ (m + 1) = 2 * 2 ^ m := by rw [Nat.pow_succ, Nat.mul_comm]
    obtain ⟨e', he', f⟩ := ih (by omega)
    have A := pfFirst_pow (a := 8) (b := 10) (by omega) (by omega) pf_first_small.2.1 m
    have B := pfFirst_pow (a := 11) (b := 12) (by omega) (by omega) pf_first_small.2.2.1 m
    have C := pfFirst_pow (a := 12) (b := 13) (by omega) (by omega) pf_first_small.2.2.2 m
    refine ⟨13 * 2 ^ m - 1, by omega, ?_⟩
    exact ((f.succ (by omega) (firstAt_range (by omega) (by omega) A)).succ (by omega)
      (firstAt_range (by omega) (by omega) B)).succ (by omega) (firstAt_range (by omega) (by omega) C)

/-- The copies that double the word. -/
theorem pf_copies (m : Nat) :
    (∀ i, i < 7 * 2 ^ m → pf (0 * 2 ^ m + i) = pf (16 * 2 ^ m + i)) ∧
    (∀ i, i < 2 * 2 ^ m → pf (11 * 2 ^ m + i) = pf (23 * 2 ^ m + i)) ∧
    (∀ i, i < 7 * 2 ^ m → pf (9 * 2 ^ m + i) = pf (25 * 2 ^ m + i)) := by
  have v1 : ∀ c, c < 7 → pf (0 + c) = pf (16 + c) := by decide +kernel
  have v2 : ∀ c, c < 2 → pf (11 + c) = pf (23 + c) := by decide +kernel
  have v3 : ∀ c, c < 7 → pf (9 + c) = pf (25 + c) := by decide +kernel
  exact ⟨fixLetter_copy rfl v1, fixLetter_copy rfl v2, fixLetter_copy rfl v3⟩

theorem pf_parse (m : Nat) : ∃ ls, IsParse ((List.range (16 * 2 ^ m)).map pf) 0 ls ∧ ls.length = 3 * m + 10 := by
  induction m with
  | zero =>
    refine ⟨List.replicate 6 1 ++ [2] ++ [3] ++ [1] ++ [4], ?_, by simp⟩
    have v0 : ∀ k, k < 2 → pf (2 + k) = pf (6 + k) := by decide +kernel
    have v1 : ∀ k, k < 3 → pf (0 + k) = pf (8 + k) := by decide +kernel
    have v2 : ∀ k, k < 1 → pf (5 + k) = pf (11 + k) := by decide +kernel
    have v3 : ∀ k, k < 4 → pf (4 + k) = pf (12 + k) := by decide +kernel
    exact isParse_range (isParse_range (isParse_range (isParse_range (isParse_singles _ _ _ (by simp)) (by omega) v0)
      (by omega) v1) (by omega) v2) (by omega) v3
  | succ m ih =>
    obtain ⟨ls, h1, h2⟩ := ih
    have h0 := Nat.two_pow_pos m
    obtain ⟨c1, c2, c3⟩ := pf_copies m
    have e : 16 * 2 ^ (m + 1) = 16 * 2 ^ m + 7 * 2 ^ m + 2 * 2 ^ m + 7 * 2 ^ m := by rw [Nat.pow_succ]; omega
    refine ⟨ls ++ [7 * 2 ^ m] ++ [2 * 2 ^ m] ++ [7 * 2 ^ m], ?_, by simp [h2]; omega⟩
    rw [e]
    refine isParse_range (j := 9 * 2 ^ m) (isParse_range (j := 11 * 2 ^ m) (isParse_range (j := 0 * 2 ^ m) h1
      (by omega) c1) (by omega) ?_) (by omega) ?_
    · rwa [show 16 * 2 ^ m + 7 * 2 ^ m = 23 * 2 ^ m by omega]
    · rwa [show 16 * 2 ^ m + 7 * 2 ^ m + 2 * 2 ^ m = 25 * 2 ^ m by omega]

theorem pf_parse_small : (∃ ls, IsParse ((List.range 4).map pf) 0 ls ∧ ls.length = 4) ∧
    ∃ ls, IsParse ((List.range 8).map pf) 0 ls ∧ ls.length = 7 := by
  refine ⟨⟨List.replicate 4 1, isParse_singles _ _ _ (by simp), by simp⟩,
    ⟨List.replicate 6 1 ++ [2], ?_, by simp⟩⟩
  have v0 : ∀ k, k < 2 → pf (2 + k) = pf (6 + k) := by decide +kernel
  exact isParse_range (isParse_singles _ _ _ (by simp)) (by omega) v0

/-! ### The binary word -/

theorem paper_even (n : Nat) : paper (2 * n) = if n % 2 = 0 then 49 else 48 := by
  unfold paper
  rw [if_pos (by omega), show 2 * n / 2 = n by omega]
  by_cases h : n % 2 = 0
  · rw [if_pos h]; exact (bin0_pf n).2 h
  · rw [if_neg h]
    have : ¬ bin0 (pf n) = 49 := fun e => h ((bin0_pf n).1 e)
    unfold bin0 at this ⊢
    split at this
    · exact absurd rfl this
    · rw [if_neg (by assumption)]

theorem paper_odd (n : Nat) : paper (2 * n + 1) = paper n := by
  unfold paper
  rw [if_neg (by omega), show (2 * n + 1) / 2 = n by omega]
  rcases Nat.mod_two_eq_zero_or_one n with h | h
  · rw [if_pos h, ← bin1_pf0, ← pf_even, show 2 * (n / 2) = n by omega]
  · rw [if_neg (by omega)]
    conv_lhs => rw [show n = 2 * (n / 2) + 1 by omega, pf_odd, bin1_pf1]

/-- The letters `p, ..., q` do not occur in this order before. -/
def PaperFirst (p q : Nat) : Prop := ∀ j, j < p → ∃ k, k ≤ q - p ∧ paper (j + k) ≠ paper (p + k)

theorem PaperFirst.double {p q : Nat} (h : PaperFirst p q) (hpq : p + 3 ≤ q) :
    PaperFirst (2 * p + 1) (2 * q + 1) := by
  intro j hj
  by_contra hc
  push Not at hc
  rcases Nat.mod_two_eq_zero_or_one j with hj2 | hj2
  · -- the letters from `p` on would alternate
    have alt : ∀ k, k ≤ 3 → paper (p + k) = if (j / 2 + k) % 2 = 0 then 49 else 48 := by
      intro k hk
      have := hc (2 * k) (by omega)
      rw [show j + 2 * k = 2 * (j / 2 + k) by omega, paper_even,
        show 2 * p + 1 + 2 * k = 2 * (p + k) + 1 by omega, paper_odd] at this
      exact this.symm
    obtain ⟨i, hi, hp⟩ : ∃ i, i ≤ 1 ∧ (p + i) % 2 = 0 := by
      rcases Nat.mod_two_eq_zero_or_one p with h | h
      · exact ⟨0, by omega, by omega⟩
      · exact ⟨1, by omega, by omega⟩
    have a := alt i (by omega)
    have b := alt (i + 2) (by omega)
    rw [show p + i = 2 * ((p + i) / 2) by omega, paper_even] at a
    rw [show p + (i + 2) = 2 * ((p + i) / 2 + 1) by omega, paper_even] at b
    have e : (j / 2 + (i + 2)) % 2 = (j / 2 + i) % 2 := by omega
    rw [e] at b
    have ab := a.trans b.symm
    rcases Nat.mod_two_eq_zero_or_one ((p + i) / 2) with h | h
    · rw [if_pos h, if_neg (by omega)] at ab; exact absurd ab (by decide)
    · rw [if_neg (by omega), if_pos (by omega)] at ab; exact absurd ab (by decide)
  · obtain ⟨j', rfl⟩ : ∃ j', j = 2 * j' + 1 := ⟨j / 2, by omega⟩
    obtain ⟨k, hk, hne⟩ := h j' (by omega)
    have := hc (2 * k) (by omega)
    rw [show 2 * j' + 1 + 2 * k = 2 * (j' + k) + 1 by omega,
      show 2 * p + 1 + 2 * k = 2 * (p + k) + 1 by omega, paper_odd, paper_odd] at this
    exact hne this

theorem paperFirst_pow {a b : Nat} (hab : a + 3 ≤ b) (ha : 0 < a) (h : PaperFirst (a - 1) (b - 1)) (m : Nat) :
    PaperFirst (a * 2 ^ m - 1) (b * 2 ^ m - 1) := by
  induction m with
  | zero => simpa using h
  | succ m ih =>
    have h0 : 0 < 2 ^ m := Nat.two_pow_pos m
    have h1 : (a + 3) * 2 ^ m ≤ b * 2 ^ m := Nat.mul_le_mul_right _ hab
    have h2 : 0 < a * 2 ^ m := Nat.mul_pos ha h0
    rw [Nat.add_mul] at h1
    have := ih.double (by omega)
    rwa [show a * 2 ^ (m + 1) - 1 = 2 * (a * 2 ^ m - 1) + 1 by rw [Nat.pow_succ, ← Nat.mul_assoc]; omega,
      show b * 2 ^ (m + 1) - 1 = 2 * (b * 2 ^ m - 1) + 1 by rw [Nat.pow_succ, ← Nat.mul_assoc]; omega]

theorem paper_first_small (pq : Nat × Nat)
    (h : pq ∈ [(0, 1), (1, 2), (2, 3), (5, 6), (7, 9), (11, 13), (15, 19), (21, 23), (23, 29), (31, 39), (43, 47),
      (47, 51)]) : PaperFirst pq.1 pq.2 := by
  have : ∀ pq ∈ [(0, 1), (1, 2), (2, 3), (5, 6), (7, 9), (11, 13), (15, 19), (21, 23), (23, 29), (31, 39), (43, 47),
      (47, 51)], ∀ j, j < pq.1 → ∃ k, k ≤ pq.2 - pq.1 ∧ paper (j + k) ≠ paper (pq.1 + k) := by decide +kernel
  exact this pq h

theorem paper_forced_small (n : Nat) : (16 ≤ n → Forced ((List.range n).map paper) 6 13) ∧
    (32 ≤ n → Forced ((List.range n).map paper) 9 29) ∧ (64 ≤ n → Forced ((List.range n).map paper) 12 51) := by
  have g : ∀ p q, (p, q) ∈ [(0, 1), (1, 2), (2, 3), (5, 6), (7, 9), (11, 13), (15, 19), (21, 23), (23, 29), (31, 39),
      (43, 47), (47, 51)] → p < q → q < n → FirstAt ((List.range n).map paper) p q :=
    fun p q h h1 h2 => firstAt_range h1 h2 (paper_first_small (p, q) h)
  have f6 : 16 ≤ n → Forced ((List.range n).map paper) 6 13 := fun h =>
    (((((Forced.zero.succ (Nat.le_refl _) (g 0 1 (by decide) (by omega) (by omega))).succ (Nat.le_refl _)
      (g 1 2 (by decide) (by omega) (by omega))).succ (Nat.le_refl _) (g 2 3 (by decide) (by omega) (by omega))).succ
      (by omega) (g 5 6 (by decide) (by omega) (by omega))).succ (by omega)
      (g 7 9 (by decide) (by omega) (by omega))).succ (by omega) (g 11 13 (by decide) (by omega) (by omega))
  have f9 : 32 ≤ n → Forced ((List.range n).map paper) 9 29 := fun h =>
    (((f6 (by omega)).succ (by omega) (g 15 19 (by decide) (by omega) (by omega))).succ (by omega)
      (g 21 23 (by decide) (by omega) (by omega))).succ (by omega) (g 23 29 (by decide) (by omega) (by omega))
  exact ⟨f6, f9, fun h =>
    (((f9 (by omega)).succ (by omega) (g 31 39 (by decide) (by omega) (by omega))).succ (by omega)
      (g 43 47 (by decide) (by omega) (by omega))).succ (by omega) (g 47 51 (by decide) (by omega) (by omega))⟩

theorem paper_forced_big (m n : Nat) (h : 64 * 2 ^ m ≤ n) : ∃ e, e < 52 * 2 ^ m ∧
    Forced ((List.range n).map paper) (3 * m + 12) e := by
  induction m with
  | zero => exact ⟨51, by omega, (paper_forced_small n).2.2 (by omega)⟩
  | succ m ih =>
    have h0 := Nat.two_pow_pos m
    have e : 2 ^ (m + 1) = 2 * 2 ^ m := by rw [Nat.pow_succ, Nat.mul_comm]
    obtain ⟨e', he', f⟩ := ih (by omega)
    have A := paperFirst_pow (a := 32) (b := 40) (by omega) (by omega) (paper_first_small (31, 39) (by decide)) (m + 1)
    have B := paperFirst_pow (a := 44) (b := 48) (by omega) (by omega) (paper_first_small (43, 47) (by decide)) (m + 1)
    have C := paperFirst_pow (a := 48) (b := 52) (by omega) (by omega) (paper_first_small (47, 51) (by decide)) (m + 1)
    refine ⟨52 * 2 ^ (m + 1) - 1, by omega, ?_⟩
    exact ((f.succ (by omega) (firstAt_range (by omega) (by omega) A)).succ (by omega)
      (firstAt_range (by omega) (by omega) B)).succ (by omega) (firstAt_range (by omega) (by omega) C)

/-- A copy in the word over four letters is one in the binary word. -/
theorem paper_copy {a b l : Nat} (h : ∀ i, i < l → pf (a + i) = pf (b + i)) (i : Nat) (hi : i < 2 * l) :
    paper (2 * a + i) = paper (2 * b + i) := by
  have := h (i / 2) (by omega)
  unfold paper
  rw [show (2 * a + i) / 2 = a + i / 2 by omega, show (2 * b + i) / 2 = b + i / 2 by omega, this,
    show (2 * a + i) % 2 = i % 2 by omega, show (2 * b + i) % 2 = i % 2 by omega]

theorem paper_parse_small : (∃ ls, IsParse ((List.range 16).map paper) 0 ls ∧ ls.length = 7) ∧
    ∃ ls, IsParse ((List.range 32).map paper) 0 ls ∧ ls.length = 10 := by
  have v1 : ∀ k, k < 3 → paper (0 + k) = paper (3 + k) := by decide +kernel
  have v2 : ∀ k, k < 3 → paper (2 + k) = paper (6 + k) := by decide +kernel
  have v3 : ∀ k, k < 4 → paper (4 + k) = paper (9 + k) := by decide +kernel
  have v4 : ∀ k, k < 3 → paper (5 + k) = paper (13 + k) := by decide +kernel
  have v4' : ∀ k, k < 6 → paper (5 + k) = paper (13 + k) := by decide +kernel
  have v5 : ∀ k, k < 4 → paper (3 + k) = paper (19 + k) := by decide +kernel
  have v6 : ∀ k, k < 6 → paper (2 + k) = paper (23 + k) := by decide +kernel
  have v7 : ∀ k, k < 3 → paper (5 + k) = paper (29 + k) := by decide +kernel
  have p13 := isParse_range (isParse_range (isParse_range (isParse_singles ((List.range 3).map paper) 0 3 (by simp))
    (by omega) v1) (by omega) v2) (by omega) v3
  exact ⟨⟨_, isParse_range p13 (by omega) v4, by simp⟩,
    ⟨_, isParse_range (isParse_range (isParse_range (isParse_range p13 (by omega) v4') (by omega) v5) (by omega) v6)
      (by omega) v7, by simp⟩⟩

theorem paper_parse (m : Nat) :
    ∃ ls, IsParse ((List.range (32 * 2 ^ m)).map paper) 0 ls ∧ ls.length = 3 * m + 10 := by
  induction m with
  | zero => exact paper_parse_small.2
  | succ m ih =>
    obtain ⟨ls, h1, h2⟩ := ih
    have h0 := Nat.two_pow_pos m
    obtain ⟨c1, c2, c3⟩ := pf_copies m
    have e : 32 * 2 ^ (m + 1) = 32 * 2 ^ m + 2 * (7 * 2 ^ m) + 2 * (2 * 2 ^ m) + 2 * (7 * 2 ^ m) := by
      rw [Nat.pow_succ]; omega
    refine ⟨ls ++ [2 * (7 * 2 ^ m)] ++ [2 * (2 * 2 ^ m)] ++ [2 * (7 * 2 ^ m)], ?_, by simp [h2]; omega⟩
    rw [e]
    refine isParse_range (j := 2 * (9 * 2 ^ m)) (isParse_range (j := 2 * (11 * 2 ^ m))
      (isParse_range (j := 2 * (0 * 2 ^ m)) h1 (by omega) ?_) (by omega) ?_) (by omega) ?_
    · have := paper_copy c1
      rwa [show 2 * (16 * 2 ^ m) = 32 * 2 ^ m by omega] at this
    · have := paper_copy c2
      rwa [show 2 * (23 * 2 ^ m) = 32 * 2 ^ m + 2 * (7 * 2 ^ m) by omega] at this
    · have := paper_copy c3
      rwa [show 2 * (25 * 2 ^ m) = 32 * 2 ^ m + 2 * (7 * 2 ^ m) + 2 * (2 * 2 ^ m) by omega] at this

end Verif
