import Verif.Spec.Words
import Verif.Model.Core
import Mathlib.Data.List.PeriodicityLemma
import Mathlib.Tactic.ByContra

/-! # Periods, borders, powers -/

namespace Verif

open Spec Model

variable {α : Type}

theorem hasPeriod_iff {p : Nat} {w : List α} : w.HasPeriod p ↔ IsPeriod p w := by
  rw [List.hasPeriod_iff_getElem?]
  exact ⟨fun h i hi => h i (by omega), fun h i hi => h i (by omega)⟩

theorem power_length (u : List α) (k : Nat) : (power u k).length = k * u.length := by
  induction k with
  | zero => simp [power]
  | succ k ih => simp [power, ih, Nat.succ_mul]; omega

theorem power_get (u : List α) (k i : Nat) (hi : i < k * u.length) :
    (power u k)[i]? = u[i % u.length]? := by
  induction k generalizing i with
  | zero => simp at hi
  | succ k ih =>
    simp only [power]
    by_cases h : i < u.length
    · rw [List.getElem?_append_left h, Nat.mod_eq_of_lt h]
    · rw [List.getElem?_append_right (by omega), ih (i - u.length) (by
        rw [Nat.succ_mul] at hi; omega), ← Nat.mod_eq_sub_mod (by omega)]

theorem power_add (u : List α) (j k : Nat) : power u (j + k) = power u j ++ power u k := by
  induction j with
  | zero => simp [power]
  | succ j ih => rw [Nat.succ_add]; simp [power, ih]

/-- A word is a proper power exactly if it has a period that properly divides its length. -/
theorem not_primitive_iff {w : List α} (hw : w ≠ []) :
    ¬ IsPrimitive w ↔ ∃ p, 0 < p ∧ p < w.length ∧ p ∣ w.length ∧ IsPeriod p w := by
  unfold IsPrimitive
  rw [not_not]
  constructor
  · rintro ⟨u, k, hk, rfl⟩
    have hl := power_length u k
    have hu : 0 < u.length := by
      rcases Nat.eq_zero_or_pos u.length with h | h
      · exfalso; apply hw; apply List.eq_nil_of_length_eq_zero; rw [hl, h]; simp
      · exact h
    refine ⟨u.length, hu, ?_, ?_, ?_⟩
    · rw [hl]; calc u.length < 2 * u.length := by omega
        _ ≤ k * u.length := Nat.mul_le_mul_right _ hk
    · rw [hl]; exact Nat.dvd_mul_left _ _
    · intro i hi
      rw [hl] at hi
      rw [power_get u k i (by omega), power_get u k _ hi, Nat.add_mod_right]
  · rintro ⟨p, hp0, hpl, ⟨k, hk⟩, hper⟩
    refine ⟨w.take p, k, ?_, ?_⟩
    · by_contra hlt
      rcases (show k = 0 ∨ k = 1 by omega) with rfl | rfl
      · simp at hk; exact hw hk
      · omega
    · have hul : (w.take p).length = p := by rw [List.length_take]; omega
      apply List.ext_getElem?
      intro i
      by_cases hi : i < w.length
      · rw [power_get _ _ _ (by rw [hul, Nat.mul_comm, ← hk]; exact hi), hul,
          List.getElem?_take_of_lt (Nat.mod_lt _ hp0)]
        exact ((hasPeriod_iff.2 hper).getElem?_mod p i w hi).symm
      · rw [List.getElem?_eq_none (by omega), List.getElem?_eq_none (by
          rw [power_length, hul, Nat.mul_comm, ← hk]; omega)]

/-- A primitive word differs from its non-trivial rotations. -/
theorem rot_ne_of_primitive {w : List α} (h : IsPrimitive w) {d : Nat} (h0 : 0 < d)
    (h1 : d < w.length) : rot d w ≠ w := by
  intro e
  have hw : w ≠ [] := by rintro rfl; simp at h1
  have hp : w.drop d <+: w := ⟨w.take d, e⟩
  have per1 : IsPeriod d w := by
    intro i hi
    obtain ⟨z, hz⟩ := hp
    rw [Nat.add_comm i d, ← List.getElem?_drop]
    conv_lhs => rw [← hz]
    rw [List.getElem?_append_left (by rw [List.length_drop]; omega)]
  have per2 : IsPeriod (w.length - d) w := by
    intro i hi
    have e2 : w[i + (w.length - d)]? = (rot d w)[i + (w.length - d)]? := by rw [e]
    rw [e2, rot, List.getElem?_append_right (by rw [List.length_drop]; omega), List.length_drop,
      Nat.add_sub_cancel, List.getElem?_take_of_lt (by omega)]
  have := (hasPeriod_iff.2 per1).gcd (hasPeriod_iff.2 per2) (by omega)
  apply (not_primitive_iff hw).2 _ h
  refine ⟨d.gcd (w.length - d), Nat.gcd_pos_of_pos_left _ h0, ?_, ?_, hasPeriod_iff.1 this⟩
  · exact lt_of_le_of_lt (Nat.gcd_le_left _ h0) h1
  · have a := Nat.gcd_dvd_left d (w.length - d)
    have b := Nat.gcd_dvd_right d (w.length - d)
    have := Nat.dvd_add a b
    rwa [show d + (w.length - d) = w.length by omega] at this

/-! ### Borders -/

/-- `b` is a proper border length of the length-`m` prefix of `t`, by indices. -/
def Bd (t : List α) (m b : Nat) : Prop := b < m ∧ ∀ x, x < b → t[x]? = t[m - b + x]?

theorem bd_iff {t : List α} {m b : Nat} (hm : m ≤ t.length) :
    Bd t m b ↔ IsBorderLen b (t.take m) := by
  have hl : (t.take m).length = m := by rw [List.length_take]; omega
  unfold Bd IsBorderLen
  rw [hl]
  refine and_congr_right (fun hb => ⟨fun h => ?_, fun h x hx => ?_⟩)
  · apply List.ext_getElem?
    intro x
    by_cases hx : x < b
    · rw [List.getElem?_take_of_lt hx, List.getElem?_take_of_lt (by omega), List.getElem?_drop,
        List.getElem?_take_of_lt (by omega), h x hx]
    · rw [List.getElem?_eq_none (by rw [List.length_take]; omega),
        List.getElem?_eq_none (by rw [List.length_drop]; omega)]
  · have := congrArg (·[x]?) h
    rw [List.getElem?_take_of_lt hx, List.getElem?_take_of_lt (by omega), List.getElem?_drop,
        List.getElem?_take_of_lt (by omega)] at this
    exact this

theorem bd_zero {t : List α} {m : Nat} (hm : 0 < m) : Bd t m 0 := ⟨hm, by intros; omega⟩

theorem bd_succ {t : List α} {m b : Nat} :
    Bd t (m + 1) (b + 1) ↔ Bd t m b ∧ t[b]? = t[m]? := by
  unfold Bd
  constructor
  · rintro ⟨h1, h2⟩
    refine ⟨⟨by omega, fun x hx => ?_⟩, ?_⟩
    · have := h2 x (by omega)
      rwa [show m + 1 - (b + 1) + x = m - b + x by omega] at this
    · have := h2 b (by omega)
      rwa [show m + 1 - (b + 1) + b = m by omega] at this
  · rintro ⟨⟨h1, h2⟩, h3⟩
    refine ⟨by omega, fun x hx => ?_⟩
    rw [show m + 1 - (b + 1) + x = m - b + x by omega]
    rcases Nat.lt_or_ge x b with h | h
    · exact h2 x h
    · have : x = b := by omega
      subst this
      rw [show m - x + x = m by omega]; exact h3

theorem bd_of_bd {t : List α} {m b b' : Nat} (h : Bd t m b) (h' : Bd t m b') (hlt : b' < b) :
    Bd t b b' := by
  refine ⟨hlt, fun x hx => ?_⟩
  have e1 := h'.2 x hx
  have e2 := h.2 (b - b' + x) (by omega)
  have := h.1
  rw [e1, e2]; congr 1; omega

theorem bd_trans {t : List α} {m b b' : Nat} (h : Bd t m b) (h' : Bd t b b') : Bd t m b' := by
  have h1 := h.1; have h2 := h'.1
  refine ⟨by omega, fun x hx => ?_⟩
  rw [h'.2 x hx, h.2 _ (by omega)]; congr 1; omega

/-- `b` is the longest border of the length-`m` prefix. -/
def LBd (t : List α) (m b : Nat) : Prop := Bd t m b ∧ ∀ c, Bd t m c → c ≤ b

/-- The entries kept by the main loop are one more than the border lengths (except entry 0). -/
def BInv (t : List α) (i : Nat) (border : List Nat) : Prop :=
  border.length = i + 1 ∧ border[0]? = some 0 ∧
    ∀ m, 1 ≤ m → m ≤ i → ∃ b, border[m]? = some (b + 1) ∧ LBd t m b

theorem borderStep_ok [DecidableEq α] {t : List α} {i : Nat} (hi : i < t.length)
    {border : List Nat} (h : BInv t i border) :
    ∃ border', borderStep t i border = .ok border' ∧ BInv t (i + 1) border' := by
  obtain ⟨h1, h2, h3⟩ := h
  -- the entry for any smaller index
  have hget : ∀ m, m ≤ i → ∃ v, border[m]? = some v ∧ (v = 0 ↔ m = 0) ∧ v ≤ m ∧
      (∀ b, v = b + 1 → LBd t m b) := by
    intro m hm
    rcases Nat.eq_zero_or_pos m with rfl | hp
    · exact ⟨0, h2, by simp, le_refl _, by intros; omega⟩
    · obtain ⟨b, e1, e2⟩ := h3 m hp hm
      have := e2.1.1
      exact ⟨b + 1, e1, by omega, by omega, fun b' hb' => by
        have : b = b' := by omega
        exact this ▸ e2⟩
  obtain ⟨v0, g1, g2, g3, g4⟩ := hget i (le_refl _)
  obtain ⟨L, e1, ⟨e2, e3, e4⟩, e5⟩ := whileLoop_inv
    (fun L : Nat => L ≤ i ∧ (∀ b, L = b + 1 → Bd t i b) ∧ ∀ c, Bd t i c → t[c]? = t[i]? → c + 1 ≤ L)
    (fun L => L) (fuel := t.length + 2) (cond := borderCond t i)
    (body := fun length => do
      let l1 ← usub length 1
      rd border l1) (s := v0)
    ⟨g3, fun b hb => (g4 b hb).1, fun c hc _ => by
      have hi0 := hc.1
      obtain ⟨b, hb⟩ : ∃ b, v0 = b + 1 := ⟨v0 - 1, by omega⟩
      have := (g4 b hb).2 c hc
      omega⟩ (by omega) (by
      rintro L ⟨i1, i2, i3⟩
      rcases Nat.eq_zero_or_pos L with rfl | hL
      · left; simp [borderCond, pure_ok]
      · have hc : borderCond t i L = .ok (decide (t[L - 1]'(by omega) ≠ t[i])) := by
          simp only [borderCond]
          rw [if_pos hL, rd_ok (show L - 1 < t.length by omega), ok_bind, rd_ok hi, ok_bind]; rfl
        rw [hc]
        by_cases heq : t[L - 1]'(by omega) = t[i]
        · left; simp [heq]
        · right
          refine ⟨by simp [heq], ?_⟩
          obtain ⟨v, k1, k2, k3, k4⟩ := hget (L - 1) (by omega)
          have hbd := i2 (L - 1) (by omega)
          have hne : t[L - 1]? ≠ t[i]? := by
            rw [List.getElem?_eq_getElem (by omega), List.getElem?_eq_getElem hi]
            simpa using heq
          refine ⟨v, ?_, ⟨by omega, ?_, ?_⟩, by omega⟩
          · rw [usub_ok hL, ok_bind, rd_some k1]
          · intro b hb
            exact bd_trans hbd (k4 b hb).1
          · intro c hc1 hc2
            have a1 := i3 c hc1 hc2
            have a2 : c ≠ L - 1 := by rintro rfl; exact hne hc2
            have a3 := bd_of_bd hbd hc1 (by omega)
            obtain ⟨b, hb⟩ : ∃ b, v = b + 1 := ⟨v - 1, by omega⟩
            have := (k4 b hb).2 c a3
            omega)
  refine ⟨border ++ [L + 1], ?_, by simp [h1], ?_, ?_⟩
  · simp only [borderStep]
    rw [rd_some g1, ok_bind, e1]; rfl
  · rw [List.getElem?_append_left (by omega)]; exact h2
  · intro m hm1 hm2
    rcases Nat.lt_or_ge m (i + 1) with hlt | hge
    · rw [List.getElem?_append_left (by omega)]; exact h3 m hm1 (by omega)
    · have : m = i + 1 := by omega
      subst this
      refine ⟨L, by rw [List.getElem?_append_right (by omega)]; simp [h1], ?_, ?_⟩
      · rcases Nat.eq_zero_or_pos L with rfl | hL
        · exact bd_zero (by omega)
        · obtain ⟨b, rfl⟩ : ∃ b, L = b + 1 := ⟨L - 1, by omega⟩
          rw [bd_succ]
          refine ⟨e3 b rfl, ?_⟩
          have hbl : b < t.length := by omega
          have : borderCond t i (b + 1) = .ok (decide (t[b] ≠ t[i])) := by
            simp only [borderCond]
            rw [if_pos hL]
            simp only [Nat.add_sub_cancel]
            rw [rd_ok hbl, ok_bind, rd_ok hi, ok_bind]; rfl
          rw [this] at e5
          have e5 : decide (t[b] ≠ t[i]) = false := by injection e5
          rw [List.getElem?_eq_getElem hbl, List.getElem?_eq_getElem hi]
          simpa using e5
      · intro c hc
        rcases Nat.eq_zero_or_pos c with rfl | hcp
        · omega
        · obtain ⟨d, rfl⟩ : ∃ d, c = d + 1 := ⟨c - 1, by omega⟩
          rw [bd_succ] at hc
          exact e4 d hc.1 hc.2

theorem mapM_usub_one {l : List Nat} (h : ∀ x ∈ l, 1 ≤ x) :
    l.mapM (fun e => usub e 1) = (.ok (l.map (· - 1)) : Res (List Nat)) := by
  induction l with
  | nil => rfl
  | cons a l ih =>
    rw [List.mapM_cons, usub_ok (h a (by simp)), ok_bind, ih (fun x hx => h x (by simp [hx])), ok_bind]
    rfl

theorem borderArray_ok [DecidableEq α] (t : List α) :
    ∃ ba, borderArray t = .ok ba ∧ ba.length = t.length + 1 ∧ ba[0]? = some 0 ∧
      ∀ m, 1 ≤ m → m ≤ t.length → ∃ b, ba[m]? = some b ∧ LBd t m b := by
  obtain ⟨border, h1, h2, h3, h4⟩ := forRange_inv (BInv t) (Nat.zero_le t.length) (s := [0])
    (body := borderStep t) ⟨rfl, rfl, by intros; omega⟩ (fun i s _ hi hs => borderStep_ok hi hs)
  cases border with
  | nil => simp at h2
  | cons b0 rest =>
    have hb0 : b0 = 0 := by simpa using h3
    subst hb0
    have hrest : ∀ x ∈ rest, 1 ≤ x := by
      intro x hx
      obtain ⟨m, hm, rfl⟩ := List.getElem_of_mem hx
      obtain ⟨b, e1, -⟩ := h4 (m + 1) (by omega) (by simp at h2; omega)
      rw [List.getElem?_cons_succ, List.getElem?_eq_getElem hm] at e1
      simp at e1; omega
    refine ⟨0 :: rest.map (· - 1), ?_, by simpa using h2, by simp, ?_⟩
    · simp only [borderArray]
      rw [h1, ok_bind]
      simp only
      rw [mapM_usub_one hrest]; rfl
    · intro m hm1 hm2
      obtain ⟨b, e1, e2⟩ := h4 m hm1 hm2
      obtain ⟨k, rfl⟩ : ∃ k, m = k + 1 := ⟨m - 1, by omega⟩
      rw [List.getElem?_cons_succ] at e1 ⊢
      exact ⟨b, by simp [e1], e2⟩

/-- Borders and periods. -/
theorem bd_iff_period {t : List α} {b : Nat} (hb : b < t.length) :
    Bd t t.length b ↔ IsPeriod (t.length - b) t := by
  unfold Bd IsPeriod
  constructor
  · rintro ⟨-, h⟩ i hi
    rw [h i (by omega)]; congr 1; omega
  · intro h
    refine ⟨hb, fun x hx => ?_⟩
    rw [h x (by omega)]; congr 1; omega

theorem smallestPeriod_ok [DecidableEq α] {t : List α} (ht : t ≠ []) :
    ∃ ba p, borderArray t = .ok ba ∧ smallestPeriod ba = .ok p ∧ 1 ≤ p ∧ p ≤ t.length ∧
      IsPeriod p t ∧ ∀ q, 1 ≤ q → IsPeriod q t → p ≤ q := by
  obtain ⟨ba, h1, h2, -, h4⟩ := borderArray_ok t
  have hl : 0 < t.length := List.length_pos_iff.2 ht
  obtain ⟨b, e1, e2, e3⟩ := h4 t.length hl (le_refl _)
  have hb := e2.1
  refine ⟨ba, t.length - b, h1, ?_, by omega, by omega, (bd_iff_period hb).1 e2, ?_⟩
  · simp only [smallestPeriod]
    rw [usub_ok (by omega), ok_bind, h2, Nat.add_sub_cancel, rd_some e1, ok_bind, usub_ok (by omega)]
  · intro q hq hper
    by_contra hlt
    have := e3 (t.length - q) ((bd_iff_period (by omega)).2 (by
      rw [show t.length - (t.length - q) = q by omega]; exact hper))
    omega

theorem isPrimitive_ok [DecidableEq α] {t : List α} (ht : t ≠ []) :
    ∃ b, Model.isPrimitive t = .ok b ∧ (b = true ↔ Spec.IsPrimitive t) := by
  obtain ⟨ba, p, h1, h2, h3, h4, h5, h6⟩ := smallestPeriod_ok ht
  have hl : 0 < t.length := List.length_pos_iff.2 ht
  simp only [Model.isPrimitive]
  rw [h1, ok_bind, h2, ok_bind]
  by_cases hp : p = t.length
  · rw [if_pos hp]
    refine ⟨true, rfl, fun _ => ?_, fun _ => rfl⟩
    by_contra hnp
    obtain ⟨q, q1, q2, -, q4⟩ := (not_primitive_iff ht).1 hnp
    have := h6 q q1 q4
    omega
  · rw [if_neg hp]
    simp only [ok_bind]
    rw [if_neg (by omega)]
    refine ⟨_, rfl, ?_⟩
    rw [decide_eq_true_iff]
    constructor
    · intro hmod
      by_contra hnp
      obtain ⟨q, q1, q2, q3, q4⟩ := (not_primitive_iff ht).1 hnp
      have hpq := h6 q q1 q4
      have h2q : 2 * q ≤ t.length := by
        obtain ⟨k, hk⟩ := q3
        rcases (show k = 0 ∨ k = 1 ∨ 2 ≤ k by omega) with rfl | rfl | hk2
        · omega
        · omega
        · rw [hk]; calc 2 * q = q * 2 := by omega
            _ ≤ q * k := Nat.mul_le_mul_left _ hk2
      have hg := (hasPeriod_iff.2 h5).gcd (hasPeriod_iff.2 q4) (by omega)
      have hgp := h6 (p.gcd q) (Nat.gcd_pos_of_pos_left _ (by omega)) (hasPeriod_iff.1 hg)
      have hgp' : p.gcd q = p := le_antisymm (Nat.gcd_le_left _ (by omega)) hgp
      have : p ∣ q := by rw [← hgp']; exact Nat.gcd_dvd_right _ _
      exact hmod (Nat.mod_eq_zero_of_dvd (this.trans q3))
    · intro hprim hmod
      exact (not_primitive_iff ht).2 ⟨p, by omega, by omega, Nat.dvd_of_mod_eq_zero hmod, h5⟩ hprim

end Verif
