import Verif.Lemmas.MusLaws

/-! # The minimal unique substrings of the characteristic word of the powers of two -/

namespace Verif

open Spec

/-- Some unique substrings none of which contains another one, such that every unique substring contains one of them, are the minimal unique
substrings. -/
theorem isMus_of_cover {t : List α} {S : Nat → Nat → Prop} (h1 : ∀ i l, S i l → Uq t i l)
    (h2 : ∀ i l, Uq t i l → ∃ j m, S j m ∧ i ≤ j ∧ j + m ≤ i + l)
    (h3 : ∀ i l j m, S i l → S j m → i ≤ j → j + m ≤ i + l → j = i ∧ m = l) (i l : Nat) : IsMus t i l ↔ S i l := by
  rw [isMus_iff_uq]
  constructor
  · rintro ⟨hu, hmin⟩
    obtain ⟨j, m, hs, a, b⟩ := h2 i l hu
    by_cases he : (j, m) = (i, l)
    · injection he with e1 e2
      rw [← e1, ← e2]; exact hs
    · exact absurd (h1 j m hs) (hmin j m a b he)
  · intro hs
    refine ⟨h1 i l hs, fun j m a b hne hu => hne ?_⟩
    obtain ⟨j', m', hs', a', b'⟩ := h2 j m hu
    obtain ⟨e1, e2⟩ := h3 i l j' m' hs hs' (by omega) (by omega)
    have := hu.1
    rw [show j = i by omega, show m = l by omega]

/-- a power of two -/
def IsP (p : Nat) : Prop := ∃ e, p = 2 ^ e

theorem not_isP {x p : Nat} (h1 : 2 ^ x < p) (h2 : p < 2 ^ (x + 1)) : ¬ IsP p := by
  rintro ⟨e, rfl⟩
  rw [Nat.pow_lt_pow_iff_right (by decide)] at h1 h2
  omega

section
variable {T : List UInt8} {m : Nat} (hn : T.length = 8 * 2 ^ m - 1)
    (hT : ∀ i, i < T.length → (T[i]? = some 97 ∨ T[i]? = some 98) ∧ (T[i]? = some 98 ↔ IsP (i + 1)))
include hn hT

theorem p2_occ {j i l : Nat} : Occ T j i l ↔ j + l ≤ 8 * 2 ^ m - 1 ∧ i + l ≤ 8 * 2 ^ m - 1 ∧
    ∀ t, t < l → (IsP (j + t + 1) ↔ IsP (i + t + 1)) := by
  rw [Occ, hn]
  refine and_congr_right fun h1 => and_congr_right fun h2 => ?_
  refine forall_congr' fun t => forall_congr' fun ht => ?_
  obtain ⟨a1, a2⟩ := hT (j + t) (by omega)
  obtain ⟨b1, b2⟩ := hT (i + t) (by omega)
  rw [← a2, ← b2]
  rcases a1 with a1 | a1 <;> rcases b1 with b1 | b1 <;> rw [a1, b1] <;> simp

/-- the list -/
def P2Mus (m i l : Nat) : Prop :=
  (∃ j, j ≤ m ∧ i = 2 ^ j - 1 ∧ l = 2 ^ j + 1) ∨ (i = 3 * 2 ^ m - 1 ∧ l = 2 ^ m + 1) ∨ (i = 4 * 2 ^ m - 1 ∧ l = 2 * 2 ^ m + 1) ∨
    (i = 4 * 2 ^ m ∧ l = 4 * 2 ^ m - 1)

omit hn hT in
theorem p2_pow (x : Nat) : (x ≤ m ∧ 2 ^ x ≤ 2 ^ m) ∨ (x = m + 1 ∧ 2 ^ x = 2 * 2 ^ m) ∨ (x = m + 2 ∧ 2 ^ x = 4 * 2 ^ m) ∨
    (m + 3 ≤ x ∧ 8 * 2 ^ m ≤ 2 ^ x) := by
  rcases Nat.lt_or_ge m x with h | h
  · rcases Nat.eq_or_lt_of_le (Nat.succ_le_of_lt h) with h | h
    · right; left; subst h; exact ⟨rfl, by rw [Nat.pow_succ]; omega⟩
    · rcases Nat.eq_or_lt_of_le (Nat.succ_le_of_lt h) with h | h
      · right; right; left; subst h; exact ⟨rfl, by rw [Nat.pow_succ, Nat.pow_succ]; omega⟩
      · right; right; right
        refine ⟨by omega, ?_⟩
        have := Nat.pow_le_pow_right (n := 2) (by decide) (show m + 3 ≤ x by omega)
        rw [Nat.pow_succ, Nat.pow_succ, Nat.pow_succ] at this
        omega
  · exact Or.inl ⟨h, Nat.pow_le_pow_right (by decide) h⟩

omit hn hT in
theorem p2_not (p : Nat) (h : (2 ^ m < p ∧ p < 2 * 2 ^ m) ∨ (2 * 2 ^ m < p ∧ p < 4 * 2 ^ m) ∨ (4 * 2 ^ m < p ∧ p < 8 * 2 ^ m)) : ¬ IsP p := by
  rcases h with h | h | h
  · exact not_isP (x := m) h.1 (by rw [Nat.pow_succ]; omega)
  · exact not_isP (x := m + 1) (by rw [Nat.pow_succ]; omega) (by rw [Nat.pow_succ, Nat.pow_succ]; omega)
  · exact not_isP (x := m + 2) (by rw [Nat.pow_succ, Nat.pow_succ]; omega) (by rw [Nat.pow_succ, Nat.pow_succ, Nat.pow_succ]; omega)

theorem p2_uq {i l : Nat} (h : P2Mus m i l) : Uq T i l := by
  have hM := Nat.two_pow_pos m
  rcases h with ⟨j, hj, rfl, rfl⟩ | ⟨rfl, rfl⟩ | ⟨rfl, rfl⟩ | ⟨rfl, rfl⟩
  · have hp := Nat.two_pow_pos j
    have hle : 2 ^ j ≤ 2 ^ m := Nat.pow_le_pow_right (by decide) hj
    refine ⟨by omega, by omega, fun p ho => ?_⟩
    obtain ⟨h1, -, h3⟩ := (p2_occ hn hT).1 ho
    obtain ⟨x, hx⟩ := (h3 0 (by omega)).2 ⟨j, by omega⟩
    have hy := (h3 (2 ^ j) (by omega)).2 ⟨j + 1, by rw [Nat.pow_succ]; omega⟩
    rcases Nat.lt_trichotomy x j with hlt | rfl | hlt
    · have := (Nat.pow_lt_pow_iff_right (a := 2) (by decide)).2 hlt
      exact absurd hy (not_isP (x := j) (by omega) (by rw [Nat.pow_succ]; omega))
    · omega
    · have := (Nat.pow_lt_pow_iff_right (a := 2) (by decide)).2 hlt
      exact absurd hy (not_isP (x := x) (by omega) (by rw [Nat.pow_succ]; omega))
  · refine ⟨by omega, by omega, fun p ho => ?_⟩
    obtain ⟨h1, -, h3⟩ := (p2_occ hn hT).1 ho
    obtain ⟨y, hy⟩ := (h3 (2 ^ m) (by omega)).2 ⟨m + 2, by rw [Nat.pow_succ, Nat.pow_succ]; omega⟩
    have h0 := mt (h3 0 (by omega)).1 (p2_not (m := m) _ (Or.inr (Or.inl (by omega))))
    rcases p2_pow (m := m) y with ⟨_, h⟩ | ⟨_, h⟩ | ⟨_, h⟩ | ⟨_, h⟩
    · omega
    · exact absurd ⟨m, by omega⟩ h0
    · omega
    · omega
  · refine ⟨by omega, by omega, fun p ho => ?_⟩
    obtain ⟨h1, -, h3⟩ := (p2_occ hn hT).1 ho
    obtain ⟨x, hx⟩ := (h3 0 (by omega)).2 ⟨m + 2, by rw [Nat.pow_succ, Nat.pow_succ]; omega⟩
    have hpos := Nat.two_pow_pos x
    have hno : ¬ 2 ^ x ≤ 2 * 2 ^ m := fun hle =>
      absurd ((h3 (2 ^ x) (by omega)).1 ⟨x + 1, by rw [Nat.pow_succ]; omega⟩) (p2_not (m := m) _ (Or.inr (Or.inr (by omega))))
    rcases p2_pow (m := m) x with ⟨_, h⟩ | ⟨_, h⟩ | ⟨_, h⟩ | ⟨_, h⟩ <;> omega
  · refine ⟨by omega, by omega, fun p ho => ?_⟩
    obtain ⟨h1, -, h3⟩ := (p2_occ hn hT).1 ho
    have hno : ∀ t, t < 4 * 2 ^ m - 1 → ¬ IsP (p + t + 1) := fun t ht =>
      mt (h3 t ht).1 (p2_not (m := m) _ (Or.inr (Or.inr (by omega))))
    by_contra hne
    rcases Nat.eq_zero_or_pos p with rfl | hp
    · exact hno 0 (by omega) ⟨0, by simp⟩
    · exact hno (4 * 2 ^ m - 1 - p) (by omega) ⟨m + 2, by rw [Nat.pow_succ, Nat.pow_succ]; omega⟩

theorem p2_cover {i l : Nat} (h : Uq T i l) : ∃ j k, P2Mus m j k ∧ i ≤ j ∧ j + k ≤ i + l := by
  have hM := Nat.two_pow_pos m
  obtain ⟨h0, h1, h2⟩ := h
  have h2' : ∀ j, j + l ≤ 8 * 2 ^ m - 1 → (∀ t, t < l → (IsP (j + t + 1) ↔ IsP (i + t + 1))) → j = i := fun j a b =>
    h2 j ((p2_occ hn hT).2 ⟨a, by omega, b⟩)
  rw [hn] at h1
  by_cases hb2 : ∃ x, i + 1 ≤ 2 ^ x ∧ 2 * 2 ^ x ≤ i + l
  · obtain ⟨x, hx1, hx2⟩ := hb2
    rcases p2_pow (m := m) x with ⟨g, h⟩ | ⟨_, h⟩ | ⟨_, h⟩ | ⟨_, h⟩
    · exact ⟨2 ^ x - 1, 2 ^ x + 1, Or.inl ⟨x, g, rfl, rfl⟩, by omega, by omega⟩
    · exact ⟨_, _, Or.inr (Or.inl ⟨rfl, rfl⟩), by omega, by omega⟩
    · omega
    · omega
  · have hb2 : ∀ x, i + 1 ≤ 2 ^ x → i + l < 2 * 2 ^ x := fun x hx => by
      by_contra hc; exact hb2 ⟨x, hx, by omega⟩
    by_cases hb : ∃ x, i + 1 ≤ 2 ^ x ∧ 2 ^ x ≤ i + l
    · obtain ⟨x, hx1, hx2⟩ := hb
      have hx3 := hb2 x hx1
      have hx4 : x = 0 ∨ ∃ y, x = y + 1 ∧ 2 ^ y < i + 1 := by
        rcases x with _ | y
        · exact Or.inl rfl
        · refine Or.inr ⟨y, rfl, ?_⟩
          by_contra hc
          have := hb2 y (by omega)
          rw [Nat.pow_succ] at hx2
          omega
      have hsmall : 2 ^ x ≤ 2 * 2 ^ m → ∃ j k, P2Mus m j k ∧ i ≤ j ∧ j + k ≤ i + l := by
        intro hle
        exfalso
        have hpx := Nat.two_pow_pos x
        have := h2' (i + 2 ^ x) (by omega) ?_
        · omega
        · intro t ht
          rcases Nat.lt_trichotomy (i + t + 1) (2 ^ x) with hq | hq | hq
          · rcases hx4 with rfl | ⟨y, rfl, hy⟩
            · simp at hq
            · exact iff_of_false (not_isP (x := y + 1) (by omega) (by rw [Nat.pow_succ 2 (y + 1)]; omega))
                (not_isP (x := y) (by omega) (by omega))
          · exact iff_of_true ⟨x + 1, by rw [Nat.pow_succ]; omega⟩ ⟨x, hq⟩
          · exact iff_of_false (not_isP (x := x + 1) (by rw [Nat.pow_succ]; omega) (by rw [Nat.pow_succ, Nat.pow_succ]; omega))
              (not_isP (x := x) (by omega) (by rw [Nat.pow_succ]; omega))
      rcases p2_pow (m := m) x with ⟨_, h⟩ | ⟨_, h⟩ | ⟨hxm, h⟩ | ⟨_, h⟩
      · exact hsmall (by omega)
      · exact hsmall (by omega)
      · have hi : 2 * 2 ^ m < i + 1 := by
          rcases hx4 with rfl | ⟨y, rfl, hy⟩
          · omega
          · rw [show y = m + 1 by omega, Nat.pow_succ] at hy
            omega
        by_cases c1 : i ≤ 3 * 2 ^ m - 1
        · exact ⟨_, _, Or.inr (Or.inl ⟨rfl, rfl⟩), c1, by omega⟩
        by_cases c2 : 6 * 2 ^ m ≤ i + l
        · exact ⟨_, _, Or.inr (Or.inr (Or.inl ⟨rfl, rfl⟩)), by omega, by omega⟩
        exfalso
        have := h2' (i - 2 * 2 ^ m) (by omega) ?_
        · omega
        · intro t ht
          by_cases hq : i + t + 1 = 4 * 2 ^ m
          · exact iff_of_true ⟨m + 1, by rw [Nat.pow_succ]; omega⟩ ⟨x, by omega⟩
          · exact iff_of_false (p2_not (m := m) _ (by omega)) (p2_not (m := m) _ (by omega))
      · clear hx4 hsmall; omega
    · have hb : ∀ x, i + 1 ≤ 2 ^ x → i + l < 2 ^ x := fun x hx => by
        by_contra hc; exact hb ⟨x, hx, by omega⟩
      obtain ⟨x, hx1, hx2⟩ : ∃ x, 2 ^ x < i + 1 ∧ i + l < 2 * 2 ^ x := by
        refine ⟨Nat.log2 (i + 1), ?_, ?_⟩
        · refine lt_of_le_of_ne (Nat.log2_self_le (by omega)) fun he => ?_
          have := hb _ he.ge
          omega
        · have := hb (Nat.log2 (i + 1) + 1) Nat.lt_log2_self.le
          rw [Nat.pow_succ] at this
          omega
      have hsmall : 2 ^ x ≤ 2 * 2 ^ m → ∃ j k, P2Mus m j k ∧ i ≤ j ∧ j + k ≤ i + l := by
        intro hle
        exfalso
        have hpx := Nat.two_pow_pos x
        have := h2' (i + 2 ^ x) (by omega) ?_
        · omega
        · intro t ht
          exact iff_of_false (not_isP (x := x + 1) (by rw [Nat.pow_succ]; omega) (by rw [Nat.pow_succ, Nat.pow_succ]; omega))
              (not_isP (x := x) (by omega) (by rw [Nat.pow_succ]; omega))
      rcases p2_pow (m := m) x with ⟨_, h⟩ | ⟨_, h⟩ | ⟨_, h⟩ | ⟨_, h⟩
      · exact hsmall (by omega)
      · exact hsmall (by omega)
      · by_cases c1 : i = 4 * 2 ^ m ∧ l = 4 * 2 ^ m - 1
        · exact ⟨i, l, Or.inr (Or.inr (Or.inr c1)), le_rfl, le_rfl⟩
        exfalso
        by_cases c2 : i = 4 * 2 ^ m
        · have := h2' (i + 1) (by omega) fun t ht => iff_of_false (p2_not (m := m) _ (by omega)) (p2_not (m := m) _ (by omega))
          omega
        · have := h2' (i - 1) (by omega) fun t ht => iff_of_false (p2_not (m := m) _ (by omega)) (p2_not (m := m) _ (by omega))
          omega
      · omega

theorem p2_mus (i l : Nat) : IsMus T i l ↔ P2Mus m i l := by
  have hM := Nat.two_pow_pos m
  refine isMus_of_cover (S := P2Mus m) (fun i l h => p2_uq hn hT h) (fun i l h => p2_cover hn hT h) ?_ i l
  intro i l j k h1 h2 h3 h4
  have hle : ∀ x, x ≤ m → 2 ^ x ≤ 2 ^ m ∧ 1 ≤ 2 ^ x := fun x hx => ⟨Nat.pow_le_pow_right (by decide) hx, Nat.two_pow_pos x⟩
  rcases h1 with ⟨x, hx, rfl, rfl⟩ | ⟨rfl, rfl⟩ | ⟨rfl, rfl⟩ | ⟨rfl, rfl⟩ <;>
    rcases h2 with ⟨y, hy, rfl, rfl⟩ | ⟨rfl, rfl⟩ | ⟨rfl, rfl⟩ | ⟨rfl, rfl⟩
  · have := hle x hx
    have := hle y hy
    omega
  all_goals first
    | omega
    | (have := hle _ hx; omega)

end

end Verif
