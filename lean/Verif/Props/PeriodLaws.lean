import Verif.Lemmas.PeriodLaws

/-! # C130: the laws of borders, periods and primitivity that the core functions obey -/

namespace Verif.Props

open Verif Spec Model

variable {α : Type} [DecidableEq α]

theorem isPrimitive_value {t : List α} (ht : t ≠ []) (b : Bool) : Model.isPrimitive t = .ok b ↔ (b = true ↔ Spec.IsPrimitive t) := by
  obtain ⟨b', h1, h2⟩ := isPrimitive_ok ht
  rw [h1]
  constructor
  · intro h; injection h with h; rw [← h]; exact h2
  · intro h
    congr 1
    rw [Bool.eq_iff_iff, h2, h]

/-- C130: the border array of a prefix is the beginning of the border array of the text. -/
theorem C130_prefix (t : List α) (k : Nat) (hk : k ≤ t.length) :
    ∃ ba, borderArray t = .ok ba ∧ borderArray (t.take k) = .ok (ba.take (k + 1)) := by
  obtain ⟨ba, h1, h2, h3, h4⟩ := borderArray_ok t
  obtain ⟨ba', g1, g2, g3, g4⟩ := borderArray_ok (t.take k)
  refine ⟨ba, h1, ?_⟩
  rw [g1]
  congr 1
  have hl : (t.take k).length = k := by rw [List.length_take]; omega
  rw [hl] at g2 g4
  apply List.ext_getElem?
  intro m
  rcases Nat.lt_or_ge k m with hm | hm
  · rw [List.getElem?_eq_none (by omega), List.getElem?_eq_none (by rw [List.length_take]; omega)]
  · rw [List.getElem?_take_of_lt (by omega)]
    rcases Nat.eq_zero_or_pos m with rfl | hpos
    · rw [g3, h3]
    · obtain ⟨b, e1, ⟨e2, e3⟩⟩ := h4 m hpos (by omega)
      obtain ⟨b', f1, ⟨f2, f3⟩⟩ := g4 m hpos hm
      rw [e1, f1]
      have hbd : ∀ c, Bd (t.take k) m c ↔ Bd t m c := by
        intro c
        rw [bd_iff (by omega), bd_iff (by omega), List.take_take, Nat.min_eq_left hm]
      congr 1
      exact le_antisymm (e3 _ ((hbd _).1 f2)) (f3 _ ((hbd _).2 e2))

example := C130_prefix [1, 2, 1, 1, 2, 1, 2] 4 (by decide)

/-- C130: looking the length of the text up in the border array again and again visits exactly the lengths of its proper borders. -/
theorem C130_all_borders (t : List α) (h0 : t ≠ []) :
    ∃ ba, borderArray t = .ok ba ∧ ∀ c, IsBorderLen c t ↔ ∃ j, 1 ≤ j ∧ (fun x => ba.getD x 0)^[j] t.length = c := by
  obtain ⟨ba, h1, h2, h3, h4⟩ := borderArray_ok t
  refine ⟨ba, h1, ?_⟩
  have hl := List.length_pos_iff.2 h0
  have hz : ba.getD 0 0 = 0 := by simp [List.getD, h3]
  have hstep : ∀ m, 1 ≤ m → m ≤ t.length → LBd t m (ba.getD m 0) := by
    intro m hm1 hm2
    obtain ⟨b, e1, e2⟩ := h4 m hm1 hm2
    simpa [List.getD, e1] using e2
  have gen : ∀ m, 1 ≤ m → m ≤ t.length → ∀ c, Bd t m c ↔ ∃ j, 1 ≤ j ∧ (fun x => ba.getD x 0)^[j] m = c := by
    intro m
    induction m using Nat.strongRecOn with
    | _ m ih =>
      intro hm1 hm2 c
      obtain ⟨s1, s2⟩ := hstep m hm1 hm2
      have hlt := s1.1
      constructor
      · intro hc
        rcases Nat.lt_or_ge c (ba.getD m 0) with hcl | hcg
        · have hb := bd_of_bd s1 hc hcl
          obtain ⟨j, hj, e⟩ := (ih _ hlt (by omega) (by omega) c).1 hb
          exact ⟨j + 1, by omega, e⟩
        · have := s2 c hc
          exact ⟨1, le_rfl, by simp only [Function.iterate_one]; omega⟩
      · rintro ⟨j, hj, e⟩
        obtain ⟨j, rfl⟩ : ∃ i, j = i + 1 := ⟨j - 1, by omega⟩
        rw [Function.iterate_succ_apply] at e
        rcases Nat.eq_zero_or_pos j with rfl | hjp
        · rw [← e]; exact s1
        · rcases Nat.eq_zero_or_pos (ba.getD m 0) with h0 | hp
          · rw [h0, Function.iterate_fixed (f := fun x => ba.getD x 0) hz] at e
            rw [← e]
            exact bd_zero (by omega)
          · exact bd_trans s1 ((ih _ hlt hp (by omega) c).2 ⟨j, hjp, e⟩)
  intro c
  rw [← gen t.length hl le_rfl c, bd_iff le_rfl, List.take_length]

example := C130_all_borders [1, 2, 1, 1, 2, 1] (by decide)

/-- C130: a text and its reversal have the same smallest period. -/
theorem C130_reverse (t : List α) (h0 : t ≠ []) :
    ∃ ba ba' p, borderArray t = .ok ba ∧ borderArray t.reverse = .ok ba' ∧ smallestPeriod ba = .ok p ∧ smallestPeriod ba' = .ok p := by
  obtain ⟨ba, p, h1, h2, h3, h4, h5, h6⟩ := smallestPeriod_ok h0
  obtain ⟨ba', p', g1, g2, g3, g4, g5, g6⟩ := smallestPeriod_ok (t := t.reverse) (by simpa using h0)
  have e : p' = p := le_antisymm (g6 p h3 (isPeriod_reverse.2 h5)) (h6 p' g3 (isPeriod_reverse.1 g5))
  exact ⟨ba, ba', p, h1, g1, h2, e ▸ g2⟩

example := C130_reverse [1, 1, 2, 1, 1] (by decide)

/-- C130: a substring has no larger smallest period than the text. -/
theorem C130_substring (u t : List α) (h0 : u ≠ []) (hu : u <:+: t) :
    ∃ ba ba' p q, borderArray u = .ok ba ∧ borderArray t = .ok ba' ∧ smallestPeriod ba = .ok p ∧ smallestPeriod ba' = .ok q ∧ p ≤ q := by
  have ht : t ≠ [] := by
    rintro rfl
    exact h0 (List.eq_nil_of_infix_nil hu)
  obtain ⟨ba, p, h1, h2, h3, h4, h5, h6⟩ := smallestPeriod_ok h0
  obtain ⟨ba', q, g1, g2, g3, g4, g5, g6⟩ := smallestPeriod_ok ht
  exact ⟨ba, ba', p, q, h1, g1, h2, g2, h6 q g3 (isPeriod_infix g5 hu)⟩

example := C130_substring [1, 2, 1] [1, 1, 2, 1, 2] (by decide) (by decide)

/-- C130 (Fine and Wilf): every period that together with the smallest one fits into the text up to their common divisor is a multiple of
the smallest one. -/
theorem C130_fine_wilf (t : List α) (h0 : t ≠ []) :
    ∃ ba p, borderArray t = .ok ba ∧ smallestPeriod ba = .ok p ∧
      ∀ q, IsPeriod q t → p + q ≤ t.length + Nat.gcd p q → p ∣ q := by
  obtain ⟨ba, p, h1, h2, h3, h4, h5, h6⟩ := smallestPeriod_ok h0
  refine ⟨ba, p, h1, h2, fun q hq hle => ?_⟩
  have hg := (hasPeriod_iff.2 h5).gcd (hasPeriod_iff.2 hq) (by omega)
  have := h6 _ (Nat.gcd_pos_of_pos_left _ h3) (hasPeriod_iff.1 hg)
  have e : p = p.gcd q := Nat.le_antisymm this (Nat.gcd_le_left _ h3)
  exact e ▸ Nat.gcd_dvd_right p q

example := C130_fine_wilf [1, 2, 1, 2, 1, 2, 1] (by decide)

/-- C130: primitivity is a property of the cyclic text, and does not depend on the direction of reading. -/
theorem C130_primitive_rotation (t : List α) (h0 : t ≠ []) (i : Nat) (hi : i ≤ t.length) :
    Model.isPrimitive (rot i t) = Model.isPrimitive t ∧ Model.isPrimitive t.reverse = Model.isPrimitive t := by
  obtain ⟨b, h1, h2⟩ := isPrimitive_ok h0
  have hr : rot i t ≠ [] := by
    intro h
    have h1 := congrArg List.length h
    have h2 := List.length_pos_iff.2 h0
    simp only [rot, List.length_append, List.length_drop, List.length_take, List.length_nil] at h1
    omega
  rw [h1, isPrimitive_value hr, isPrimitive_value (by simpa using h0), isPrimitive_rot hi, isPrimitive_reverse]
  exact ⟨h2, h2⟩

example := C130_primitive_rotation [1, 2, 1, 2] (by decide) 3 (by decide)

/-- C130: every non-empty text is, in exactly one way, a power of a text that `is_primitive` accepts; it accepts the text itself exactly
if the exponent is one, and otherwise `smallest_period` returns the length of the root. -/
theorem C130_root (t : List α) (h0 : t ≠ []) :
    ∃ u k ba p, 1 ≤ k ∧ Model.isPrimitive u = .ok true ∧ t = power u k ∧
      (∀ v m, v ≠ [] → 1 ≤ m → Model.isPrimitive v = .ok true → t = power v m → v = u ∧ m = k) ∧
      Model.isPrimitive t = .ok (decide (k = 1)) ∧ borderArray t = .ok ba ∧ smallestPeriod ba = .ok p ∧ (2 ≤ k → p = u.length) := by
  obtain ⟨u, k, hk, hu, rfl⟩ := exists_primroot h0
  have hune := isPrimitive_ne_nil hu
  obtain ⟨ba, p, h1, h2, h3, h4, h5, h6⟩ := smallestPeriod_ok h0
  refine ⟨u, k, ba, p, hk, (isPrimitive_value hune true).2 (by simpa using hu), rfl, ?_, ?_, h1, h2, ?_⟩
  · intro v m hv hm hpv e
    have := primroot_unique hu (((isPrimitive_value hv true).1 hpv).1 rfl) hk hm e
    exact ⟨this.1.symm, this.2.symm⟩
  · rw [isPrimitive_value h0, decide_eq_true_eq]
    constructor
    · rintro rfl
      rwa [power_one]
    · intro hp
      by_contra hne
      exact hp ⟨u, k, by omega, rfl⟩
  · intro hk2
    exact le_antisymm (h6 _ (List.length_pos_iff.2 hune) (power_isPeriod u k)) (root_period hu hk2 h3 h5).1

example := C130_root [1, 2, 1, 2, 1, 2] (by decide)

/-- C130: `is_primitive` accepts a text exactly if the text occurs in its square only at the two ends. -/
theorem C130_square (t : List α) (h0 : t ≠ []) :
    Model.isPrimitive t = .ok true ↔ ∀ i, i + t.length ≤ (t ++ t).length → t <+: (t ++ t).drop i → i = 0 ∨ i = t.length := by
  rw [isPrimitive_value h0, primitive_iff_square h0]
  simp only [true_iff]
  exact ⟨fun h i a b => h i b a, fun h i a b => h i b a⟩

example := C130_square [1, 1, 2] (by decide)

/-- C130: two texts commute exactly if they are powers of one text; then `is_primitive` rejects their concatenation. -/
theorem C130_commute (u v : List α) :
    (u ++ v = v ++ u ↔ ∃ w j k, u = power w j ∧ v = power w k) ∧
      (u ≠ [] → v ≠ [] → u ++ v = v ++ u → Model.isPrimitive (u ++ v) = .ok false) := by
  refine ⟨commute_iff, fun hu hv h => ?_⟩
  rw [isPrimitive_value (by simp [hu])]
  simp only [Bool.false_eq_true, false_iff]
  obtain ⟨w, j, k, rfl, rfl⟩ := commute_iff.1 h
  rw [← power_add]
  have hj : j ≠ 0 := by rintro rfl; exact hu rfl
  have hk : k ≠ 0 := by rintro rfl; exact hv rfl
  exact fun hp => hp ⟨w, j + k, by omega, rfl⟩

example := (C130_commute [1, 2] [1, 2, 1, 2]).2 (by decide) (by decide) (by decide)

end Verif.Props
