import Verif.Lemmas.LzCount
import Verif.Lemmas.Overlap
import Verif.Lemmas.FibMus

/-! # The number of Lempel-Ziv phrases of the words of `word` -/

namespace Verif

open Spec Model

/-! ### Words given letter by letter -/

theorem firstAt_range {L : Nat → UInt8} {n p q : Nat} (h1 : p < q) (h2 : q < n)
    (h3 : ∀ j, j < p → ∃ k, k ≤ q - p ∧ L (j + k) ≠ L (p + k)) : FirstAt ((List.range n).map L) p q := by
  refine ⟨h1, by simpa using h2, fun j hj => ?_⟩
  obtain ⟨k, hk, hne⟩ := h3 j hj
  refine ⟨k, hk, ?_⟩
  rw [List.getElem?_map, List.getElem?_map, List.getElem?_range (by omega), List.getElem?_range (by omega)]
  simpa using hne

/-- A parse of the first `n` letters goes on with a copy of the letters at `j`. -/
theorem isParse_range {L : Nat → UInt8} {n j l : Nat} {ls : List Nat} (hp : IsParse ((List.range n).map L) 0 ls)
    (hj : j < n) (h : ∀ k, k < l → L (j + k) = L (n + k)) :
    IsParse ((List.range (n + l)).map L) 0 (ls ++ [l]) := by
  have e : (List.range (n + l)).map L = (List.range n).map L ++ (List.range l).map (fun k => L (n + k)) := by
    rw [List.range_add, List.map_append, List.map_map]; rfl
  have := isParse_snoc (u := (List.range l).map (fun k => L (n + k))) 0 hp
    (.inr ⟨j, by simpa using hj, by simp; omega, by simp, fun k hk => ?_⟩)
  · simpa [e] using this
  · simp only [List.length_map, List.length_range] at hk ⊢
    rw [← e, List.getElem?_map, List.getElem?_map, List.getElem?_range (by omega), List.getElem?_range (by omega)]
    simp [h k hk]

/-! ### Thue–Morse -/

/-- The letters `tmb p, ..., tmb q` do not occur in this order before. -/
def TmFirst (p q : Nat) : Prop := ∀ j, j < p → ∃ k, k ≤ q - p ∧ tmb (j + k) ≠ tmb (p + k)

theorem TmFirst.double {p q : Nat} (h : TmFirst p q) (hpq : p + 2 ≤ q) : TmFirst (2 * p + 1) (2 * q) := by
  intro j hj
  by_contra hc
  push Not at hc
  rcases Nat.mod_two_eq_zero_or_one j with hj2 | hj2
  · -- a pair of equal letters at an odd position would have to occur at an even one
    obtain ⟨i, hi, hmod⟩ : ∃ i, i ≤ 2 ∧ (2 * p + 1 + i) % 4 = 1 ∧ i % 2 = 0 := by
      rcases Nat.mod_two_eq_zero_or_one p with h | h
      · exact ⟨0, by omega, by omega, by omega⟩
      · exact ⟨2, by omega, by omega, by omega⟩
    have a := tmb_same hmod.1
    have b := tmb_diff (n := j + i) (by omega)
    exact b ((hc (i + 1) (by omega)).trans (a.trans (hc i (by omega)).symm))
  · obtain ⟨j', rfl⟩ : ∃ j', j = 2 * j' + 1 := ⟨j / 2, by omega⟩
    obtain ⟨k, hk, hne⟩ := h j' (by omega)
    rcases Nat.eq_zero_or_pos k with rfl | hk0
    · have := hc 0 (by omega)
      rw [Nat.add_zero, Nat.add_zero, tmb_odd, tmb_odd] at this
      exact hne (by simpa using this)
    · have := hc (2 * k - 1) (by omega)
      rw [show 2 * j' + 1 + (2 * k - 1) = 2 * (j' + k) by omega,
        show 2 * p + 1 + (2 * k - 1) = 2 * (p + k) by omega, tmb_even, tmb_even] at this
      exact hne this

theorem tm_inj {i j : Nat} : tm i = tm j ↔ tmb i = tmb j := by
  unfold tmb
  rcases tm_values i with h | h <;> rcases tm_values j with h' | h' <;> rw [h, h'] <;> decide

theorem tmFirst_A (m : Nat) : TmFirst (7 * 2 ^ m - 1) (10 * 2 ^ m) := by
  induction m with
  | zero =>
    have : ∀ j, j < 6 → ∃ k, k ≤ 4 ∧ tmb (j + k) ≠ tmb (6 + k) := by decide +kernel
    exact this
  | succ m ih =>
    have := Nat.two_pow_pos m
    have := ih.double (by omega)
    rw [show 7 * 2 ^ (m + 1) - 1 = 2 * (7 * 2 ^ m - 1) + 1 by rw [Nat.pow_succ]; omega,
      show 10 * 2 ^ (m + 1) = 2 * (10 * 2 ^ m) by rw [Nat.pow_succ]; omega]
    exact this

theorem tmFirst_B (m : Nat) : TmFirst (11 * 2 ^ m - 1) (13 * 2 ^ m) := by
  induction m with
  | zero =>
    have : ∀ j, j < 10 → ∃ k, k ≤ 3 ∧ tmb (j + k) ≠ tmb (10 + k) := by decide +kernel
    exact this
  | succ m ih =>
    have := Nat.two_pow_pos m
    have := ih.double (by omega)
    rw [show 11 * 2 ^ (m + 1) - 1 = 2 * (11 * 2 ^ m - 1) + 1 by rw [Nat.pow_succ]; omega,
      show 13 * 2 ^ (m + 1) = 2 * (13 * 2 ^ m) by rw [Nat.pow_succ]; omega]
    exact this

theorem tm_firstAt {n p q : Nat} (h : TmFirst p q) (h1 : p < q) (h2 : q < n) : FirstAt ((List.range n).map tm) p q :=
  firstAt_range h1 h2 fun j hj => by
    obtain ⟨k, hk, hne⟩ := h j hj
    exact ⟨k, hk, fun e => hne (tm_inj.1 e)⟩

theorem tm_forced_small (n : Nat) : (1 < n → Forced ((List.range n).map tm) 1 1) ∧
    (3 < n → Forced ((List.range n).map tm) 3 3) ∧ (6 < n → Forced ((List.range n).map tm) 5 6) := by
  have h01 : TmFirst 0 1 := fun j hj => by omega
  have h12 : TmFirst 1 2 := by
    have : ∀ j, j < 1 → ∃ k, k ≤ 1 ∧ tmb (j + k) ≠ tmb (1 + k) := by decide +kernel
    exact this
  have h23 : TmFirst 2 3 := by
    have : ∀ j, j < 2 → ∃ k, k ≤ 1 ∧ tmb (j + k) ≠ tmb (2 + k) := by decide +kernel
    exact this
  have h35 : TmFirst 3 5 := by
    have : ∀ j, j < 3 → ∃ k, k ≤ 2 ∧ tmb (j + k) ≠ tmb (3 + k) := by decide +kernel
    exact this
  have h56 : TmFirst 5 6 := by
    have : ∀ j, j < 5 → ∃ k, k ≤ 1 ∧ tmb (j + k) ≠ tmb (5 + k) := by decide +kernel
    exact this
  have f1 : 1 < n → Forced ((List.range n).map tm) 1 1 := fun h =>
    Forced.zero.succ (Nat.le_refl _) (tm_firstAt h01 (by omega) h)
  have f3 : 3 < n → Forced ((List.range n).map tm) 3 3 := fun h =>
    ((f1 (by omega)).succ (Nat.le_refl _) (tm_firstAt h12 (by omega) (by omega))).succ (Nat.le_refl _)
      (tm_firstAt h23 (by omega) (by omega))
  exact ⟨f1, f3, fun h => ((f3 (by omega)).succ (Nat.le_refl _) (tm_firstAt h35 (by omega) (by omega))).succ
    (Nat.le_refl _) (tm_firstAt h56 (by omega) (by omega))⟩

theorem tm_forced_big (m n : Nat) (h : 13 * 2 ^ m < n) : Forced ((List.range n).map tm) (2 * m + 7) (13 * 2 ^ m) := by
  induction m with
  | zero =>
    have f := (tm_forced_small n).2.2 (by omega)
    exact (f.succ (p := 6) (q := 10) (by omega) (tm_firstAt (tmFirst_A 0) (by omega) (by omega))).succ (p := 10)
      (q := 13) (by omega) (tm_firstAt (tmFirst_B 0) (by omega) (by omega))
  | succ m ih =>
    have h0 := Nat.two_pow_pos m
    have e : 2 ^ (m + 1) = 2 * 2 ^ m := by rw [Nat.pow_succ, Nat.mul_comm]
    have f := ih (by omega)
    exact (f.succ (p := 7 * 2 ^ (m + 1) - 1) (q := 10 * 2 ^ (m + 1)) (by omega)
      (tm_firstAt (tmFirst_A _) (by omega) (by omega))).succ (p := 11 * 2 ^ (m + 1) - 1)
      (q := 13 * 2 ^ (m + 1)) (by omega) (tm_firstAt (tmFirst_B _) (by omega) (by omega))

theorem tm_forced (k : Nat) : ∃ e, Forced ((List.range (2 ^ (k + 1))).map tm) (2 * k + 1) e := by
  match k with
  | 0 => exact ⟨_, (tm_forced_small _).1 (by decide)⟩
  | 1 => exact ⟨_, (tm_forced_small _).2.1 (by decide)⟩
  | 2 => exact ⟨_, (tm_forced_small _).2.2 (by decide)⟩
  | m + 3 =>
    refine ⟨_, tm_forced_big m _ ?_⟩
    have := Nat.two_pow_pos m
    have : 2 ^ (m + 3 + 1) = 16 * 2 ^ m := by rw [show m + 3 + 1 = m + 4 from rfl, Nat.pow_add]; omega
    omega

theorem tm_parse (k : Nat) : ∃ ls, IsParse ((List.range (2 ^ (k + 1))).map tm) 0 ls ∧ ls.length = 2 * k + 2 := by
  induction k with
  | zero =>
    refine ⟨[1, 1], ⟨by simp, .inl rfl, by simp, .inl rfl, by simp [IsParse]⟩, rfl⟩
  | succ k ih =>
    obtain ⟨ls, h1, h2⟩ := ih
    have hk := Nat.two_pow_pos k
    have e1 : 2 ^ (k + 1) = 2 * 2 ^ k := by rw [Nat.pow_succ, Nat.mul_comm]
    have e2 : 2 ^ (k + 1 + 1) = 2 ^ (k + 1) + 2 ^ k + 2 ^ k := by rw [Nat.pow_succ]; omega
    refine ⟨ls ++ [2 ^ k] ++ [2 ^ k], ?_, by simp [h2]; omega⟩
    rw [e2]
    refine isParse_range (j := 0) (isParse_range (j := 2 ^ k) h1 (by omega) ?_) (by omega) ?_
    · intro i hi
      rw [tm_two k i hi, tm_two (k + 1) i (by omega)]
    · intro i hi
      rw [Nat.add_assoc (2 ^ (k + 1)), tm_two (k + 1) (2 ^ k + i) (by omega), tm_two k i hi, Nat.zero_add]
      rcases tm_values i with h | h <;> rw [h] <;> decide

/-! ### Period doubling -/

/-- The letters `pd p, ..., pd q` do not occur in this order before. -/
def PdFirst (p q : Nat) : Prop := ∀ j, j < p → ∃ k, k ≤ q - p ∧ pd (j + k) ≠ pd (p + k)

theorem pd_even (n : Nat) : pd (2 * n) = 97 := fixLetter_even rfl n
theorem pd_odd (n : Nat) : pd (2 * n + 1) = pd1 (pd n) := fixLetter_odd n
theorem pd_values (i : Nat) : pd i = 97 ∨ pd i = 98 := (pd_spec i).1

theorem pd1_inj {i j : Nat} (h : pd1 (pd i) = pd1 (pd j)) : pd i = pd j := by
  rcases pd_values i with h1 | h1 <;> rcases pd_values j with h2 | h2 <;> rw [h1, h2] at h ⊢ <;>
    exact absurd h (by decide)

theorem PdFirst.double {p q : Nat} (h : PdFirst p q) (hpq : p < q) : PdFirst (2 * p + 1) (2 * q + 1) := by
  intro j hj
  by_contra hc
  push Not at hc
  rcases Nat.mod_two_eq_zero_or_one j with hj2 | hj2
  · -- one of two neighbours is the letter `a`, whose image ends with `b`
    have key : ∀ i, i ≤ 1 → pd (p + i) = 98 := by
      intro i hi
      have := hc (2 * i) (by omega)
      rw [show j + 2 * i = 2 * (j / 2 + i) by omega, pd_even,
        show 2 * p + 1 + 2 * i = 2 * (p + i) + 1 by omega, pd_odd] at this
      rcases pd_values (p + i) with h | h
      · rw [h] at this; exact absurd this (by decide)
      · exact h
    have k0 := key 0 (by omega)
    have k1 := key 1 (by omega)
    rcases Nat.mod_two_eq_zero_or_one p with h | h
    · rw [Nat.add_zero, show p = 2 * (p / 2) by omega, pd_even] at k0; exact absurd k0 (by decide)
    · rw [show p + 1 = 2 * ((p + 1) / 2) by omega, pd_even] at k1; exact absurd k1 (by decide)
  · obtain ⟨j', rfl⟩ : ∃ j', j = 2 * j' + 1 := ⟨j / 2, by omega⟩
    obtain ⟨k, hk, hne⟩ := h j' (by omega)
    have := hc (2 * k) (by omega)
    rw [show 2 * j' + 1 + 2 * k = 2 * (j' + k) + 1 by omega,
      show 2 * p + 1 + 2 * k = 2 * (p + k) + 1 by omega, pd_odd, pd_odd] at this
    exact hne (pd1_inj this)

theorem pdFirst_A (m : Nat) : PdFirst (2 * 2 ^ m - 1) (3 * 2 ^ m - 1) := by
  induction m with
  | zero =>
    have : ∀ j, j < 1 → ∃ k, k ≤ 1 ∧ pd (j + k) ≠ pd (1 + k) := by decide +kernel
    exact this
  | succ m ih =>
    have := Nat.two_pow_pos m
    have := ih.double (by omega)
    rw [show 2 * 2 ^ (m + 1) - 1 = 2 * (2 * 2 ^ m - 1) + 1 by rw [Nat.pow_succ]; omega,
      show 3 * 2 ^ (m + 1) - 1 = 2 * (3 * 2 ^ m - 1) + 1 by rw [Nat.pow_succ]; omega]
    exact this

theorem pdFirst_B (m : Nat) : PdFirst (3 * 2 ^ m - 1) (4 * 2 ^ m - 1) := by
  induction m with
  | zero =>
    have : ∀ j, j < 2 → ∃ k, k ≤ 1 ∧ pd (j + k) ≠ pd (2 + k) := by decide +kernel
    exact this
  | succ m ih =>
    have := Nat.two_pow_pos m
    have := ih.double (by omega)
    rw [show 3 * 2 ^ (m + 1) - 1 = 2 * (3 * 2 ^ m - 1) + 1 by rw [Nat.pow_succ]; omega,
      show 4 * 2 ^ (m + 1) - 1 = 2 * (4 * 2 ^ m - 1) + 1 by rw [Nat.pow_succ]; omega]
    exact this

theorem pd_forced (k n : Nat) (h : 2 ^ (k + 1) ≤ n) : Forced ((List.range n).map pd) (2 * k + 1) (2 ^ (k + 1) - 1) := by
  induction k with
  | zero => exact Forced.zero.succ (p := 0) (q := 1) (Nat.le_refl _) (firstAt_range (by omega) (by omega) (by omega))
  | succ k ih =>
    have h0 := Nat.two_pow_pos k
    have e1 : 2 ^ (k + 1) = 2 * 2 ^ k := by rw [Nat.pow_succ, Nat.mul_comm]
    have e2 : 2 ^ (k + 1 + 1) = 4 * 2 ^ k := by rw [Nat.pow_succ]; omega
    have f := (ih (by omega)).succ (p := 2 * 2 ^ k - 1) (q := 3 * 2 ^ k - 1) (by omega)
      (firstAt_range (by omega) (by omega) (pdFirst_A k))
    rw [e2]
    exact f.succ (by omega) (firstAt_range (by omega) (by omega) (pdFirst_B k))

/-- The block of length `2^j` repeats, up to its last letter, which changes. -/
theorem pd_two (j p : Nat) (hp : p < 2 ^ j) : pd (2 ^ j + p) = if p + 1 = 2 ^ j then pd1 (pd p) else pd p := by
  induction j generalizing p with
  | zero =>
    have : p = 0 := by simpa using hp
    subst this
    decide +kernel
  | succ j ih =>
    have hpow : 2 ^ (j + 1) = 2 * 2 ^ j := by rw [Nat.pow_succ, Nat.mul_comm]
    have h0 := Nat.two_pow_pos j
    rcases Nat.mod_two_eq_zero_or_one p with h | h
    · rw [show 2 ^ (j + 1) + p = 2 * (2 ^ j + p / 2) by omega, pd_even, if_neg (by omega),
        show p = 2 * (p / 2) by omega, pd_even]
    · rw [show 2 ^ (j + 1) + p = 2 * (2 ^ j + p / 2) + 1 by omega, pd_odd, ih (p / 2) (by omega)]
      have e : pd p = pd1 (pd (p / 2)) := by
        conv_lhs => rw [show p = 2 * (p / 2) + 1 by omega, pd_odd]
      rw [e]
      by_cases hc : p / 2 + 1 = 2 ^ j
      · rw [if_pos hc, if_pos (by omega)]
      · rw [if_neg hc, if_neg (by omega)]

theorem pd_parse (k : Nat) : ∃ ls, IsParse ((List.range (2 ^ (k + 1))).map pd) 0 ls ∧ ls.length = 2 * k + 2 := by
  induction k with
  | zero =>
    refine ⟨[1, 1], ⟨by simp, .inl rfl, by simp, .inl rfl, by simp [IsParse]⟩, rfl⟩
  | succ k ih =>
    obtain ⟨ls, h1, h2⟩ := ih
    have hk := Nat.two_pow_pos k
    have e1 : 2 ^ (k + 1) = 2 * 2 ^ k := by rw [Nat.pow_succ, Nat.mul_comm]
    have e2 : 2 ^ (k + 1 + 1) = 2 ^ (k + 1) + 2 ^ k + 2 ^ k := by rw [Nat.pow_succ]; omega
    refine ⟨ls ++ [2 ^ k] ++ [2 ^ k], ?_, by simp [h2]; omega⟩
    rw [e2]
    refine isParse_range (j := 0) (isParse_range (j := 0) h1 (by omega) ?_) (by omega) ?_
    · intro i hi
      rw [pd_two (k + 1) i (by omega), if_neg (by omega), Nat.zero_add]
    · intro i hi
      rw [Nat.add_assoc (2 ^ (k + 1)), pd_two (k + 1) (2 ^ k + i) (by omega), pd_two k i hi, Nat.zero_add]
      by_cases hc : i + 1 = 2 ^ k
      · rw [if_pos hc, if_pos (by omega)]
        rcases pd_values i with h | h <;> rw [h] <;> decide
      · rw [if_neg hc, if_neg (by omega)]

/-! ### Fibonacci -/

theorem firstAt_of_unique {t x u y : List UInt8} (h : x ++ u ++ y = t) (hu : 2 ≤ u.length)
    (huniq : ∀ x' y', x' ++ u ++ y' = t → x'.length = x.length) :
    FirstAt t x.length (x.length + u.length - 1) := by
  refine ⟨by omega, by rw [← h]; simp; omega, fun j hj => ?_⟩
  by_contra hc
  push Not at hc
  have hlen : x.length + u.length + y.length = t.length := by rw [← h]; simp; omega
  have e : (t.drop j).take u.length = u := by
    apply List.ext_getElem?
    intro k
    by_cases hk : k < u.length
    · rw [List.getElem?_take_of_lt hk, List.getElem?_drop, hc k (by omega), ← h,
        List.getElem?_append_left (by simp; omega), List.getElem?_append_right (by omega)]
      congr 1; omega
    · rw [List.getElem?_eq_none (by simp; omega), List.getElem?_eq_none (by omega)]
  have := huniq (t.take j) ((t.drop j).drop u.length) (by
    conv_lhs => enter [1, 2]; rw [← e]
    rw [List.append_assoc, List.take_append_drop, List.take_append_drop])
  rw [List.length_take] at this
  omega

theorem fib_firstAt (k : Nat) : FirstAt (fibWord (k + 4)) ((fibWord (k + 2)).length - 1) ((fibWord (k + 3)).length - 2) := by
  obtain ⟨x, y, h1, h2⟩ := singular_occ k
  have h := firstAt_of_unique h1 (by rw [singular_length]; exact fib_two_le k) (fun x' y' h' => by
    rw [singular_unique k h', h2])
  have h3 : 2 ≤ (fibWord (k + 2)).length := fib_two_le (k + 1)
  have h4 := fib_two_le k
  rw [h2, singular_length] at h
  have e3 : fibWord (k + 3) = fibWord (k + 2) ++ fibWord (k + 1) := rfl
  rwa [show (fibWord (k + 3)).length - 2 = (fibWord (k + 2)).length - 1 + (fibWord (k + 1)).length - 1 by
    rw [e3, List.length_append]; omega]

theorem FirstAt.take {t r : List UInt8} {p q : Nat} (h : FirstAt (t ++ r) p q) (hq : q < t.length) : FirstAt t p q := by
  obtain ⟨h1, h2, h3⟩ := h
  refine ⟨h1, hq, fun j hj => ?_⟩
  obtain ⟨k, hk, hne⟩ := h3 j hj
  refine ⟨k, hk, ?_⟩
  rwa [List.getElem?_append_left (by omega), List.getElem?_append_left (by omega)] at hne

theorem fib_firstAt' (k : Nat) : FirstAt (fibWord (k + 3)) ((fibWord (k + 2)).length - 1) ((fibWord (k + 3)).length - 2) := by
  have h3 : 2 ≤ (fibWord (k + 3)).length := fib_two_le (k + 2)
  exact FirstAt.take (r := fibWord (k + 2)) (fib_firstAt k) (by omega)

theorem fib_forced_two : Forced (fibWord 2) 2 2 := by
  refine (Forced.zero.succ (p := 0) (q := 1) (Nat.le_refl _) ?_).succ (p := 1) (q := 2) (Nat.le_refl _) ?_
  · exact ⟨by omega, by decide, by omega⟩
  · refine ⟨by omega, by decide, ?_⟩
    have : ∀ j, j < 1 → ∃ k, k ≤ 1 ∧ (fibWord 2)[j + k]? ≠ (fibWord 2)[1 + k]? := by decide
    exact this

theorem fib_forced (k : Nat) : ∃ e, e < (fibWord (k + 2)).length ∧ Forced (fibWord (k + 2)) (k + 2) e := by
  induction k with
  | zero => exact ⟨2, by decide, fib_forced_two⟩
  | succ k ih =>
    obtain ⟨e, he, hf⟩ := ih
    have e3 : fibWord (k + 3) = fibWord (k + 2) ++ fibWord (k + 1) := rfl
    have h3 : 2 ≤ (fibWord (k + 3)).length := fib_two_le (k + 2)
    refine ⟨_, ?_, Forced.succ (e := e) ?_ ?_ (fib_firstAt' k)⟩
    · show _ < (fibWord (k + 3)).length; omega
    · show Forced (fibWord (k + 3)) _ _
      rw [e3]; exact hf.append _
    · omega

theorem fib_parse (k : Nat) : ∃ ls, IsParse (fibWord k) 0 ls ∧ ls.length = k + 1 := by
  match k with
  | 0 => exact ⟨[1], ⟨by decide, .inl rfl, rfl⟩, rfl⟩
  | 1 => exact ⟨[1, 1], ⟨by decide, .inl rfl, by decide, .inl rfl, rfl⟩, rfl⟩
  | k + 2 =>
    obtain ⟨ls, h1, h2⟩ := fib_parse (k + 1)
    obtain ⟨r, hr⟩ := fib_prefix k
    have h0 : fibWord k ≠ [] := by
      intro h
      have := fibWord_length k
      rw [h] at this
      have : 0 < Nat.fib (k + 2) := Nat.fib_pos.2 (by omega)
      simp_all
    exact ⟨ls ++ [(fibWord k).length], isParse_copy (x := []) (y := r) h1 (by rw [hr]; rfl) h0, by simp [h2]⟩

theorem fib_forced_all (k : Nat) : ∃ e, Forced (fibWord k) k e := by
  match k with
  | 0 => exact ⟨0, .zero⟩
  | 1 => exact ⟨1, Forced.zero.succ (p := 0) (q := 1) (Nat.le_refl _) ⟨by omega, by decide, by omega⟩⟩
  | k + 2 =>
    obtain ⟨e, -, h⟩ := fib_forced k
    exact ⟨e, h⟩

/-! ### The ternary Thue–Morse word -/

theorem tmb_block (k a i : Nat) (hi : i < 2 ^ k) : tmb (a * 2 ^ k + i) = (tmb a ^^ tmb i) := by
  induction k generalizing i with
  | zero =>
    have : i = 0 := by simpa using hi
    subst this
    simp [tmb_zero]
  | succ k ih =>
    have hp : 2 ^ (k + 1) = 2 * 2 ^ k := by rw [Nat.pow_succ, Nat.mul_comm]
    have h := ih (i / 2) (by omega)
    have ha : a * 2 ^ (k + 1) = 2 * (a * 2 ^ k) := by rw [hp]; ring
    rcases Nat.mod_two_eq_zero_or_one i with h2 | h2
    · rw [ha, show 2 * (a * 2 ^ k) + i = 2 * (a * 2 ^ k + i / 2) by omega, tmb_even, h]
      conv_rhs => rw [show i = 2 * (i / 2) by omega, tmb_even]
    · rw [ha, show 2 * (a * 2 ^ k) + i = 2 * (a * 2 ^ k + i / 2) + 1 by omega, tmb_odd, h]
      conv_rhs => rw [show i = 2 * (i / 2) + 1 by omega, tmb_odd]
      cases tmb a <;> cases tmb (i / 2) <;> rfl

/-- A run of equal letters in the ternary word is one in the Thue–Morse word. -/
theorem vtm_run {i j n : Nat} (hn : 1 ≤ n) (h : ∀ k, k ≤ n → vtmLetter (j + k) = vtmLetter (i + k)) :
    ∀ k, k ≤ n + 1 → tmb (j + k) = tmb (i + k) := by
  have h0 : tmb j = tmb i := by
    by_contra hne
    obtain ⟨a1, a2⟩ := vtmLetter_ne (h 0 (by omega)) hne
    simp only [Nat.add_zero] at a1 a2
    obtain ⟨b1, -⟩ := vtmLetter_ne (h 1 hn) (by rw [a1, a2]; exact hne)
    rcases Nat.mod_two_eq_zero_or_one j with hj | hj
    · exact tmb_diff hj a1
    · exact tmb_diff (n := j + 1) (by omega) b1
  intro k
  induction k with
  | zero => intro _; exact h0
  | succ k ih => intro hk; exact vtmLetter_inj (h k (by omega)) (ih (by omega))

/-- The letters `p, ..., q` do not occur in this order before. -/
def VtmFirst (p q : Nat) : Prop := ∀ j, j < p → ∃ k, k ≤ q - p ∧ vtmLetter (j + k) ≠ vtmLetter (p + k)

theorem VtmFirst.double {p q : Nat} (h : VtmFirst p q) (hpq : p < q) : VtmFirst (2 * p + 1) (2 * q + 1) := by
  intro j hj
  by_contra hc
  push Not at hc
  have run := vtm_run (n := 2 * q - 2 * p) (by omega) (fun k hk => hc k (by omega))
  rcases Nat.mod_two_eq_zero_or_one j with hj2 | hj2
  · obtain ⟨i, hi, hmod⟩ : ∃ i, i ≤ 2 ∧ (2 * p + 1 + i) % 4 = 1 ∧ i % 2 = 0 := by
      rcases Nat.mod_two_eq_zero_or_one p with h | h
      · exact ⟨0, by omega, by omega, by omega⟩
      · exact ⟨2, by omega, by omega, by omega⟩
    have a := tmb_same hmod.1
    have b := tmb_diff (n := j + i) (by omega)
    exact b ((run (i + 1) (by omega)).trans (a.trans (run i (by omega)).symm))
  · obtain ⟨j', rfl⟩ : ∃ j', j = 2 * j' + 1 := ⟨j / 2, by omega⟩
    have half : ∀ k, k ≤ q - p + 1 → tmb (j' + k) = tmb (p + k) := by
      intro k hk
      rcases Nat.eq_zero_or_pos k with rfl | hk0
      · have := run 0 (by omega)
        rw [Nat.add_zero, Nat.add_zero, tmb_odd, tmb_odd] at this
        simpa using this
      · have := run (2 * k - 1) (by omega)
        rwa [show 2 * j' + 1 + (2 * k - 1) = 2 * (j' + k) by omega,
          show 2 * p + 1 + (2 * k - 1) = 2 * (p + k) by omega, tmb_even, tmb_even] at this
    obtain ⟨k, hk, hne⟩ := h j' (by omega)
    apply hne
    unfold vtmLetter
    rw [Nat.add_assoc j', Nat.add_assoc p, half k (by omega), half (k + 1) (by omega)]

theorem vtmFirst_pow {a b : Nat} (hab : a < b) (ha : 0 < a) (h : VtmFirst (a - 1) (b - 1)) (m : Nat) :
    VtmFirst (a * 2 ^ m - 1) (b * 2 ^ m - 1) := by
  induction m with
  | zero => simpa using h
  | succ m ih =>
    have h0 : 0 < 2 ^ m := Nat.two_pow_pos m
    have h1 : a * 2 ^ m < b * 2 ^ m := Nat.mul_lt_mul_of_pos_right hab h0
    have h2 : 0 < a * 2 ^ m := Nat.mul_pos ha h0
    have := ih.double (by omega)
    rwa [show a * 2 ^ (m + 1) - 1 = 2 * (a * 2 ^ m - 1) + 1 by rw [Nat.pow_succ, ← Nat.mul_assoc]; omega,
      show b * 2 ^ (m + 1) - 1 = 2 * (b * 2 ^ m - 1) + 1 by rw [Nat.pow_succ, ← Nat.mul_assoc]; omega]

theorem vtm_first_small : (∀ p, p < 6 → VtmFirst p (p + 1)) ∧ VtmFirst 7 9 ∧ VtmFirst 9 11 := by
  refine ⟨?_, ?_, ?_⟩
  · intro p hp
    have : ∀ p, p < 6 → ∀ j, j < p → ∃ k, k ≤ p + 1 - p ∧ vtmLetter (j + k) ≠ vtmLetter (p + k) := by decide +kernel
    exact this p hp
  · have : ∀ j, j < 7 → ∃ k, k ≤ 2 ∧ vtmLetter (j + k) ≠ vtmLetter (7 + k) := by decide +kernel
    exact this
  · have : ∀ j, j < 9 → ∃ k, k ≤ 2 ∧ vtmLetter (j + k) ≠ vtmLetter (9 + k) := by decide +kernel
    exact this

theorem vtm_forced_small (n p : Nat) (hp : p < 6) (hn : p < n) : Forced ((List.range n).map vtmLetter) p p := by
  induction p with
  | zero => exact .zero
  | succ p ih =>
    exact (ih (by omega) (by omega)).succ (Nat.le_refl _)
      (firstAt_range (by omega) hn (vtm_first_small.1 p (by omega)))

theorem vtm_forced_big (m n : Nat) (h : 6 * 2 ^ m ≤ n) :
    Forced ((List.range n).map vtmLetter) (3 * m + 5) (6 * 2 ^ m - 1) := by
  induction m with
  | zero => exact vtm_forced_small n 5 (by omega) (by omega)
  | succ m ih =>
    have h0 := Nat.two_pow_pos m
    have e : 2 ^ (m + 1) = 2 * 2 ^ m := by rw [Nat.pow_succ, Nat.mul_comm]
    have f := ih (by omega)
    have A := vtmFirst_pow (a := 6) (b := 7) (by omega) (by omega) (vtm_first_small.1 5 (by omega)) m
    have B := vtmFirst_pow (a := 8) (b := 10) (by omega) (by omega) vtm_first_small.2.1 m
    have C := vtmFirst_pow (a := 10) (b := 12) (by omega) (by omega) vtm_first_small.2.2 m
    rw [show 6 * 2 ^ (m + 1) - 1 = 12 * 2 ^ m - 1 by omega]
    exact ((f.succ (Nat.le_refl _) (firstAt_range (by omega) (by omega) A)).succ (by omega)
      (firstAt_range (by omega) (by omega) B)).succ (by omega) (firstAt_range (by omega) (by omega) C)

theorem vtm_copy {a b m k : Nat} (h : ∀ c, c ≤ m → tmb (a + c) = tmb (b + c)) (i : Nat) (hi : i < m * 2 ^ k) :
    vtmLetter (a * 2 ^ k + i) = vtmLetter (b * 2 ^ k + i) := by
  have h0 := Nat.two_pow_pos k
  have key : ∀ i, i ≤ m * 2 ^ k → tmb (a * 2 ^ k + i) = tmb (b * 2 ^ k + i) := by
    intro i hi
    have hc : i / 2 ^ k ≤ m := by
      rw [Nat.div_le_iff_le_mul_add_pred h0, Nat.mul_comm]; omega
    have hr := Nat.mod_lt i h0
    have e := Nat.div_add_mod i (2 ^ k)
    have e' : ∀ a, a * 2 ^ k + i = (a + i / 2 ^ k) * 2 ^ k + i % 2 ^ k := by
      intro a
      rw [Nat.add_mul, Nat.mul_comm (i / 2 ^ k)]; omega
    rw [e' a, e' b, tmb_block _ _ _ hr, tmb_block _ _ _ hr, h _ hc]
  unfold vtmLetter
  rw [Nat.add_assoc, Nat.add_assoc, key i (by omega), key (i + 1) (by omega)]

theorem isParse_singles (t : List UInt8) (i : Nat) (l : Nat) (h : i + l = t.length) :
    IsParse t i (List.replicate l 1) := by
  induction l generalizing i with
  | zero => exact h
  | succ l ih => exact ⟨by omega, .inl rfl, ih _ (by omega)⟩

theorem vtm_parse (m : Nat) : ∃ ls, IsParse ((List.range (6 * 2 ^ m)).map vtmLetter) 0 ls ∧ ls.length = 3 * m + 6 := by
  induction m with
  | zero => exact ⟨List.replicate 6 1, isParse_singles _ _ _ (by simp), by simp⟩
  | succ m ih =>
    obtain ⟨ls, h1, h2⟩ := ih
    have h0 := Nat.two_pow_pos m
    have e : 6 * 2 ^ (m + 1) = 6 * 2 ^ m + 3 * 2 ^ m + 2 * 2 ^ m + 1 * 2 ^ m := by rw [Nat.pow_succ]; omega
    refine ⟨ls ++ [3 * 2 ^ m] ++ [2 * 2 ^ m] ++ [1 * 2 ^ m], ?_, by simp [h2]; omega⟩
    rw [e]
    have v1 : ∀ c, c ≤ 3 → tmb (0 + c) = tmb (6 + c) := by decide +kernel
    have v2 : ∀ c, c ≤ 2 → tmb (5 + c) = tmb (9 + c) := by decide +kernel
    have v3 : ∀ c, c ≤ 1 → tmb (2 + c) = tmb (11 + c) := by decide +kernel
    refine isParse_range (j := 2 * 2 ^ m) (isParse_range (j := 5 * 2 ^ m) (isParse_range (j := 0 * 2 ^ m) h1
      (by omega) (vtm_copy v1)) (by omega) ?_) (by omega) ?_
    · have := vtm_copy (k := m) v2
      rwa [show 9 * 2 ^ m = 6 * 2 ^ m + 3 * 2 ^ m by omega] at this
    · have := vtm_copy (k := m) v3
      rwa [show 11 * 2 ^ m = 6 * 2 ^ m + 3 * 2 ^ m + 2 * 2 ^ m by omega] at this

end Verif
