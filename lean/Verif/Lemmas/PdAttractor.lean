import Verif.Lemmas.Uniform
import Verif.Spec.Attractor
import Mathlib.Tactic.IntervalCases

/-! # The attractor of the period-doubling words -/

namespace Verif

open Spec

/-- the exponent of 2 in `j` is odd -/
def OddVal (j : Nat) : Prop := ∃ e, e % 2 = 1 ∧ 2 ^ e ∣ j ∧ ¬ 2 ^ (e + 1) ∣ j

theorem pow_dvd_le {e m j : Nat} (h : e ≤ m) (hd : 2 ^ m ∣ j) : 2 ^ e ∣ j := (Nat.pow_dvd_pow 2 h).trans hd

theorem oddVal_iff {M j : Nat} (h1 : 2 ^ M ∣ j) (h2 : ¬ 2 ^ (M + 1) ∣ j) : OddVal j ↔ M % 2 = 1 := by
  constructor
  · rintro ⟨e, he, h3, h4⟩
    have : e = M := by
      rcases lt_trichotomy e M with h | h | h
      · exact absurd (pow_dvd_le h h1) h4
      · exact h
      · exact absurd (pow_dvd_le h h3) h2
    rw [← this]; exact he
  · intro h; exact ⟨M, h, h1, h2⟩

theorem oddVal_shift {m c c' j j' : Nat} (hj : j + c' = j' + c) (hc : 2 ^ m ∣ c) (hc' : 2 ^ m ∣ c')
    (hm : ¬ 2 ^ m ∣ j) : OddVal j ↔ OddVal j' := by
  have key : ∀ t, t ≤ m → (2 ^ t ∣ j ↔ 2 ^ t ∣ j') := by
    intro t ht
    rw [← Nat.dvd_add_left (pow_dvd_le ht hc'), hj, Nat.dvd_add_left (pow_dvd_le ht hc)]
  have hm' : ¬ 2 ^ m ∣ j' := fun h => hm ((key m le_rfl).2 h)
  constructor
  · rintro ⟨e, he, h1, h2⟩
    have : e < m := by by_contra h; exact hm (pow_dvd_le (by omega) h1)
    exact ⟨e, he, (key e this.le).1 h1, fun h => h2 ((key _ this).2 h)⟩
  · rintro ⟨e, he, h1, h2⟩
    have : e < m := by by_contra h; exact hm' (pow_dvd_le (by omega) h1)
    exact ⟨e, he, (key e this.le).2 h1, fun h => h2 ((key _ this).1 h)⟩

/-- The position of largest 2-adic value in an interval. -/
theorem exists_center {s e k : Nat} (hs : 1 ≤ s) (hse : s ≤ e) (he : e ≤ 2 ^ k) :
    ∃ M c, M ≤ k ∧ s ≤ c ∧ c ≤ e ∧ 2 ^ M ∣ c ∧ ¬ 2 ^ (M + 1) ∣ c ∧
      ∀ j, s ≤ j → j ≤ e → j ≠ c → ¬ 2 ^ M ∣ j := by
  classical
  let P : Nat → Prop := fun M => ∃ c, s ≤ c ∧ c ≤ e ∧ 2 ^ M ∣ c
  have hP0 : P 0 := ⟨s, le_rfl, hse, by simp⟩
  obtain ⟨c, c1, c2, c3⟩ : P (Nat.findGreatest P k) := Nat.findGreatest_spec (P := P) (Nat.zero_le k) hP0
  have hmax : ∀ j, s ≤ j → j ≤ e → ¬ 2 ^ (Nat.findGreatest P k + 1) ∣ j := by
    intro j j1 j2 hj
    by_cases hk : Nat.findGreatest P k + 1 ≤ k
    · have := Nat.le_findGreatest (P := P) hk ⟨j, j1, j2, hj⟩
      omega
    · have h1 := Nat.le_of_dvd (by omega) hj
      have h2 : 2 ^ (k + 1) ≤ 2 ^ (Nat.findGreatest P k + 1) := Nat.pow_le_pow_right (by omega) (by omega)
      have h3 : 2 ^ (k + 1) = 2 * 2 ^ k := by ring
      have : 0 < 2 ^ k := by positivity
      omega
  refine ⟨Nat.findGreatest P k, c, Nat.findGreatest_le k, c1, c2, c3, hmax c c1 c2, ?_⟩
  generalize Nat.findGreatest P k = M at *
  have hpos : 0 < 2 ^ M := by positivity
  have key : ∀ x y, s ≤ x → y ≤ e → x < y → 2 ^ M ∣ x → 2 ^ M ∣ y → False := by
    rintro x y hx hy hxy ⟨u, rfl⟩ ⟨w, rfl⟩
    have huw : u < w := lt_of_mul_lt_mul_left' hxy
    have hy' : 2 ^ M * (u + 1) ≤ 2 ^ M * w := Nat.mul_le_mul_left _ huw
    have hx' : 2 ^ M * u ≤ 2 ^ M * (u + 1) := Nat.mul_le_mul_left _ (by omega)
    rcases Nat.even_or_odd u with ⟨t, ht⟩ | ⟨t, ht⟩
    · exact hmax (2 ^ M * u) hx (by omega) ⟨t, by rw [ht]; ring⟩
    · exact hmax (2 ^ M * (u + 1)) (by omega) (by omega) ⟨t + 1, by rw [ht]; ring⟩
  intro j j1 j2 hne hj
  rcases lt_or_gt_of_ne hne with h | h
  · exact key j c j1 c2 h hj c3
  · exact key c j c1 j2 h c3 hj

theorem not_dvd_between {H q j : Nat} (h1 : q * H < j) (h2 : j < (q + 1) * H) : ¬ H ∣ j := by
  rintro ⟨u, rfl⟩
  rw [Nat.mul_comm H u] at h1 h2
  have := lt_of_mul_lt_mul_right' h1
  have := lt_of_mul_lt_mul_right' h2
  omega

/-- The combinatorial core (positions from 1): an interval of `[1, 8H]`, `H = 2^n`, can be moved onto `3H` or
`6H` without changing the parities of the 2-adic values. -/
theorem pd_move {n s e : Nat} (hs : 1 ≤ s) (hse : s ≤ e) (he : e ≤ 8 * 2 ^ n) :
    ∃ c c', s ≤ c ∧ c ≤ e ∧ (c' = 3 * 2 ^ n ∨ c' = 6 * 2 ^ n) ∧ c < s + c' ∧ e + c' ≤ 8 * 2 ^ n + c ∧
      ∀ j j', s ≤ j → j ≤ e → j + c' = j' + c → (OddVal j ↔ OddVal j') := by
  by_cases hP1 : s ≤ 3 * 2 ^ n ∧ 3 * 2 ^ n ≤ e
  · exact ⟨3 * 2 ^ n, 3 * 2 ^ n, hP1.1, hP1.2, Or.inl rfl, by omega, by omega, fun j j' _ _ h => by
      rw [show j = j' by omega]⟩
  by_cases hP2 : s ≤ 6 * 2 ^ n ∧ 6 * 2 ^ n ≤ e
  · exact ⟨6 * 2 ^ n, 6 * 2 ^ n, hP2.1, hP2.2, Or.inr rfl, by omega, by omega, fun j j' _ _ h => by
      rw [show j = j' by omega]⟩
  obtain ⟨M, c, hM, c1, c2, c3, c4, c5⟩ := exists_center (k := n + 3) hs hse (by rw [pow_add]; omega)
  have hH : 0 < 2 ^ n := by positivity
  have e1 : 2 ^ (n + 1) = 2 * 2 ^ n := by ring
  have e2 : 2 ^ (n + 2) = 4 * 2 ^ n := by ring
  have e3 : 2 ^ (n + 3) = 8 * 2 ^ n := by ring
  have e4 : 2 ^ (n + 3 + 1) = 16 * 2 ^ n := by ring
  have v3 : OddVal (3 * 2 ^ n) ↔ n % 2 = 1 := by
    refine oddVal_iff ⟨3, by ring⟩ ?_
    rw [e1]
    rintro ⟨u, hu⟩
    have : 3 * 2 ^ n = (2 * u) * 2 ^ n := by rw [hu]; ring
    have := Nat.eq_of_mul_eq_mul_right hH this
    omega
  have v6 : OddVal (6 * 2 ^ n) ↔ (n + 1) % 2 = 1 := by
    refine oddVal_iff ⟨3, by rw [e1]; ring⟩ ?_
    rw [show n + 1 + 1 = n + 2 from rfl, e2]
    rintro ⟨u, hu⟩
    have : 6 * 2 ^ n = (4 * u) * 2 ^ n := by rw [hu]; ring
    have := Nat.eq_of_mul_eq_mul_right hH this
    omega
  have vc := oddVal_iff c3 c4
  -- the interval does not reach the neighbours of `c`
  have hM0 : 0 < 2 ^ M := by positivity
  have hleft : c < s + 2 ^ M := by
    by_contra h
    exact c5 (c - 2 ^ M) (by omega) (by omega) (by omega) (Nat.dvd_sub c3 (dvd_refl _))
  have hright : e < c + 2 ^ M := by
    by_contra h
    exact c5 (c + 2 ^ M) (by omega) (by omega) (by omega) (Nat.dvd_add c3 (dvd_refl _))
  rcases Nat.lt_or_ge n M with hlt | hge
  · have hM3 : M = n + 1 ∨ M = n + 2 ∨ M = n + 3 := by omega
    rcases hM3 with rfl | rfl | rfl
    · -- `c = 2H`
      have hc : c = 2 * 2 ^ n := by
        obtain ⟨u, hu⟩ := c3
        rw [e1] at hu
        have hu4 : u ≤ 4 := by
          by_contra h
          have : 5 ≤ u := by omega
          have := Nat.mul_le_mul_left (2 * 2 ^ n) this
          omega
        have h2 := c4
        rw [show n + 1 + 1 = n + 2 from rfl, e2] at h2
        interval_cases u
        · omega
        · omega
        · exact absurd ⟨1, by rw [hu]; ring⟩ h2
        · exfalso; omega
        · exact absurd ⟨2, by rw [hu]; ring⟩ h2
      refine ⟨c, 6 * 2 ^ n, c1, c2, Or.inr rfl, by omega, by omega, ?_⟩
      intro j j' j1 j2 hj
      by_cases hjc : j = c
      · have : j' = 6 * 2 ^ n := by omega
        rw [this, hjc, vc, v6]
      · exact oddVal_shift hj c3 ⟨3, by rw [e1]; ring⟩ (c5 j j1 j2 hjc)
    · -- `c = 4H`
      have hc : c = 4 * 2 ^ n := by
        obtain ⟨u, hu⟩ := c3
        rw [e2] at hu
        have hu4 : u ≤ 2 := by
          by_contra h
          have : 3 ≤ u := by omega
          have := Nat.mul_le_mul_left (4 * 2 ^ n) this
          omega
        have h2 := c4
        rw [show n + 2 + 1 = n + 3 from rfl, e3] at h2
        interval_cases u
        · omega
        · omega
        · exact absurd ⟨1, by rw [hu]; ring⟩ h2
      refine ⟨c, 3 * 2 ^ n, c1, c2, Or.inl rfl, by omega, by omega, ?_⟩
      intro j j' j1 j2 hj
      by_cases hjc : j = c
      · have : j' = 3 * 2 ^ n := by omega
        rw [this, hjc, vc, v3]; omega
      · by_cases hj5 : j = 5 * 2 ^ n
        · have : j' = c := by omega
          rw [this, vc, hj5, oddVal_iff (M := n) ⟨5, by ring⟩]
          · omega
          · rw [e1]
            rintro ⟨u, hu⟩
            have : 5 * 2 ^ n = (2 * u) * 2 ^ n := by rw [hu]; ring
            have := Nat.eq_of_mul_eq_mul_right hH this
            omega
        · refine oddVal_shift (m := n) hj ⟨4, by rw [hc]; ring⟩ ⟨3, by ring⟩ ?_
          by_cases h4 : j < 4 * 2 ^ n
          · exact not_dvd_between (q := 3) (by omega) (by omega)
          · by_cases h5 : j < 5 * 2 ^ n
            · exact not_dvd_between (q := 4) (by omega) (by omega)
            · exact not_dvd_between (q := 5) (by omega) (by omega)
    · -- `c = 8H`
      have hc : c = 8 * 2 ^ n := by
        have := Nat.le_of_dvd (by omega) c3
        omega
      refine ⟨c, 6 * 2 ^ n, c1, c2, Or.inr rfl, by omega, by omega, ?_⟩
      intro j j' j1 j2 hj
      by_cases hjc : j = c
      · have : j' = 6 * 2 ^ n := by omega
        rw [this, hjc, vc, v6]; omega
      · refine oddVal_shift (m := n + 1) hj ⟨4, by rw [hc, e1]; ring⟩ ⟨3, by rw [e1]; ring⟩ ?_
        rw [e1]
        exact not_dvd_between (q := 3) (by omega) (by omega)
  · -- small values
    have hMH : 2 ^ M ≤ 2 ^ n := Nat.pow_le_pow_right (by omega) hge
    have hd : 2 ^ M ∣ 2 ^ n := Nat.pow_dvd_pow 2 hge
    by_cases hpar : M % 2 = n % 2
    · refine ⟨c, 3 * 2 ^ n, c1, c2, Or.inl rfl, by omega, by omega, ?_⟩
      intro j j' j1 j2 hj
      by_cases hjc : j = c
      · have : j' = 3 * 2 ^ n := by omega
        rw [this, hjc, vc, v3]; omega
      · exact oddVal_shift hj c3 (hd.mul_left 3) (c5 j j1 j2 hjc)
    · refine ⟨c, 6 * 2 ^ n, c1, c2, Or.inr rfl, by omega, by omega, ?_⟩
      intro j j' j1 j2 hj
      by_cases hjc : j = c
      · have : j' = 6 * 2 ^ n := by omega
        rw [this, hjc, vc, v6]; omega
      · exact oddVal_shift hj c3 (hd.mul_left 6) (c5 j j1 j2 hjc)

/-- `{3·2^n - 1, 6·2^n - 1}` is an attractor of the period-doubling word of length `8·2^n`. -/
theorem pd_attractor {n : Nat} {w : List UInt8} (hw : w.length = 8 * 2 ^ n)
    (hl : ∀ i (h : i < w.length), (w[i] = 97 ∨ w[i] = 98) ∧ (w[i] = 98 ↔ OddVal (i + 1))) :
    IsAttractor w [3 * 2 ^ n - 1, 6 * 2 ^ n - 1] := by
  rintro v hv ⟨x, y, h⟩
  have hlen := congrArg List.length h
  simp only [List.length_append] at hlen
  have hvp := List.length_pos_iff.2 hv
  obtain ⟨c, c', c1, c2, c3, c4, c5, c6⟩ := pd_move (n := n) (s := x.length + 1) (e := x.length + v.length) (by omega)
    (by omega) (by omega)
  have hH : 0 < 2 ^ n := by positivity
  refine ⟨x.length + c' - c, ⟨by omega, ?_⟩, c' - 1, ?_, by omega, by omega⟩
  · have : v = (w.drop (x.length + c' - c)).take v.length := by
      apply List.ext_getElem
      · simp; omega
      · intro t t1 t2
        rw [List.getElem_take, List.getElem_drop]
        have e : v[t] = w[x.length + t] := by simp [← h, List.getElem_append_left t1]
        rw [e]
        obtain ⟨a1, a2⟩ := hl (x.length + t) (by omega)
        obtain ⟨b1, b2⟩ := hl (x.length + c' - c + t) (by omega)
        have := c6 (x.length + t + 1) (x.length + c' - c + t + 1) (by omega) (by omega) (by omega)
        rw [← a2, ← b2] at this
        rcases a1 with a | a <;> rcases b1 with b | b <;> rw [a, b] at this ⊢ <;> revert this <;> decide
    rw [this]; exact List.take_prefix _ _
  · rcases c3 with rfl | rfl <;> simp

end Verif
