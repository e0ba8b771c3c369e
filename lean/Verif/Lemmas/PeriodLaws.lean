import Verif.Lemmas.BwtNecklace
import Verif.Lemmas.Period
import Verif.Lemmas.Conjugates

/-! # Periods, powers and primitive words -/

namespace Verif

open Spec Model

variable {α : Type}

theorem isPeriod_reverse {p : Nat} {t : List α} : IsPeriod p t.reverse ↔ IsPeriod p t := by
  have key : ∀ t : List α, IsPeriod p t → IsPeriod p t.reverse := by
    intro t h i hi
    rw [List.length_reverse] at hi
    rw [List.getElem?_reverse (by omega), List.getElem?_reverse (by omega)]
    have := h (t.length - 1 - (i + p)) (by omega)
    rw [this]
    congr 1
    omega
  exact ⟨fun h => by simpa using key _ h, key t⟩

theorem isPeriod_infix {p : Nat} {u t : List α} (h : IsPeriod p t) (hu : u <:+: t) : IsPeriod p u := by
  obtain ⟨a, b, rfl⟩ := hu
  intro i hi
  have := h (a.length + i) (by simp; omega)
  have e : ∀ j, j < u.length → (a ++ u ++ b)[a.length + j]? = u[j]? := by
    intro j hj
    rw [List.append_assoc, List.getElem?_append_right (by omega), Nat.add_sub_cancel_left, List.getElem?_append_left hj]
  rw [e i (by omega), Nat.add_assoc, e _ hi] at this
  exact this

theorem power_one (u : List α) : power u 1 = u := by simp [power]

theorem power_reverse (u : List α) (k : Nat) : (power u k).reverse = power u.reverse k := by
  induction k with
  | zero => rfl
  | succ k ih =>
    rw [show k + 1 = k + 1 from rfl, power_add u k 1, power_one, List.reverse_append, ih]
    rfl

theorem power_mul (u : List α) (j k : Nat) : power (power u j) k = power u (j * k) := by
  induction k with
  | zero => rfl
  | succ k ih => rw [power, ih, Nat.mul_succ, Nat.add_comm, power_add]

theorem isPrimitive_reverse {t : List α} : Spec.IsPrimitive t.reverse ↔ Spec.IsPrimitive t := by
  have key : ∀ t : List α, Spec.IsPrimitive t.reverse → Spec.IsPrimitive t := by
    rintro t h ⟨u, k, hk, rfl⟩
    exact h ⟨u.reverse, k, hk, power_reverse u k⟩
  exact ⟨key t, fun h => key t.reverse (by simpa using h)⟩

theorem isPrimitive_ne_nil {u : List α} (h : Spec.IsPrimitive u) : u ≠ [] := by
  rintro rfl
  exact h ⟨[], 2, le_rfl, rfl⟩

/-- every non-empty word is a power of a primitive word -/
theorem exists_primroot {t : List α} (ht : t ≠ []) : ∃ u k, 1 ≤ k ∧ Spec.IsPrimitive u ∧ t = power u k := by
  induction hn : t.length using Nat.strongRecOn generalizing t with
  | _ n ih =>
    by_cases hp : Spec.IsPrimitive t
    · exact ⟨t, 1, le_rfl, hp, (power_one t).symm⟩
    · obtain ⟨u, k, hk, rfl⟩ := not_not.1 hp
      have hu : u ≠ [] := by
        rintro rfl
        apply ht
        apply List.eq_nil_of_length_eq_zero
        rw [power_length]; simp
      have hul := List.length_pos_iff.2 hu
      have hlt : u.length < n := by
        rw [← hn, power_length]
        calc u.length < 2 * u.length := by omega
          _ ≤ k * u.length := Nat.mul_le_mul_right _ hk
      obtain ⟨v, j, hj, hv, rfl⟩ := ih _ hlt hu rfl
      exact ⟨v, j * k, Nat.mul_pos hj (by omega), hv, power_mul v j k⟩

theorem power_isPeriod (u : List α) (k : Nat) : IsPeriod u.length (power u k) := by
  intro i hi
  rw [power_length] at hi
  rw [power_get u k i (by omega), power_get u k _ hi, Nat.add_mod_right]

/-- the smallest period of a proper power of a primitive word -/
theorem root_period {u : List α} {k p : Nat} (hu : Spec.IsPrimitive u) (hk : 2 ≤ k) (hp : 0 < p) (h : IsPeriod p (power u k)) :
    u.length ≤ p ∧ (p ≤ (k - 1) * u.length → u.length ∣ p) := by
  have hne := isPrimitive_ne_nil hu
  have hul := List.length_pos_iff.2 hne
  obtain ⟨k, rfl⟩ : ∃ m, k = m + 1 := ⟨k - 1, by omega⟩
  have hlen := power_length u (k + 1)
  have hmain : p ≤ k * u.length → u.length ∣ p := by
    intro hle
    have hg := (hasPeriod_iff.2 h).gcd (hasPeriod_iff.2 (power_isPeriod u (k + 1))) (by
      rw [hlen, Nat.succ_mul]; omega)
    have hpre : u <:+: power u (k + 1) := (List.prefix_append u (power u k)).isInfix
    have hg' := isPeriod_infix (hasPeriod_iff.1 hg) hpre
    have hgpos : 0 < p.gcd u.length := Nat.gcd_pos_of_pos_left _ hp
    by_contra hnd
    refine (not_primitive_iff hne).2 ⟨p.gcd u.length, hgpos, ?_, Nat.gcd_dvd_right _ _, hg'⟩ hu
    refine lt_of_le_of_ne (Nat.gcd_le_right _ hul) fun e => hnd ?_
    rw [← e]
    exact Nat.gcd_dvd_left _ _
  refine ⟨?_, by rw [Nat.add_sub_cancel]; exact hmain⟩
  rcases Nat.lt_or_ge p u.length with hlt | hge
  · have : u.length ≤ k * u.length := Nat.le_mul_of_pos_left _ (by omega)
    exact Nat.le_of_dvd hp (hmain (by omega))
  · exact hge

theorem primroot_unique {u v : List α} {j k : Nat} (hu : Spec.IsPrimitive u) (hv : Spec.IsPrimitive v) (hj : 1 ≤ j) (hk : 1 ≤ k)
    (h : power u j = power v k) : u = v ∧ j = k := by
  have key : ∀ {u v : List α} {j k : Nat}, Spec.IsPrimitive u → Spec.IsPrimitive v → 1 ≤ j → 2 ≤ k → power u j = power v k → 2 ≤ j := by
    intro u v j k hu hv hj hk h
    by_contra hlt
    obtain rfl : j = 1 := by omega
    rw [power_one] at h
    exact hu ⟨v, k, hk, h⟩
  have hl := congrArg List.length h
  rw [power_length, power_length] at hl
  have hul := List.length_pos_iff.2 (isPrimitive_ne_nil hu)
  have hvl := List.length_pos_iff.2 (isPrimitive_ne_nil hv)
  have heq : u.length = v.length := by
    rcases Nat.lt_or_ge j 2 with hj2 | hj2
    · rcases Nat.lt_or_ge k 2 with hk2 | hk2
      · obtain rfl : j = 1 := by omega
        obtain rfl : k = 1 := by omega
        omega
      · have := key hu hv hj hk2 h
        omega
    · have hk2 := key hv hu hk hj2 h.symm
      refine le_antisymm ?_ ?_
      · exact (root_period hu hj2 hvl (by rw [h]; exact power_isPeriod v k)).1
      · exact (root_period hv hk2 hul (by rw [← h]; exact power_isPeriod u j)).1
  have hjk : j = k := by
    rw [heq] at hl
    exact Nat.eq_of_mul_eq_mul_right hvl hl
  refine ⟨?_, hjk⟩
  have h1 : (power u j).take u.length = u := by
    obtain ⟨m, rfl⟩ : ∃ m, j = m + 1 := ⟨j - 1, by omega⟩
    rw [power, List.take_left]
  have h2 : (power v k).take v.length = v := by
    obtain ⟨m, rfl⟩ : ∃ m, k = m + 1 := ⟨k - 1, by omega⟩
    rw [power, List.take_left]
  rw [← h1, h, heq, h2]

theorem isPrimitive_rot {t : List α} {i : Nat} (hi : i ≤ t.length) : Spec.IsPrimitive (rot i t) ↔ Spec.IsPrimitive t := by
  have key : ∀ {t : List α} {i : Nat}, i < t.length → Spec.IsPrimitive (rot i t) → Spec.IsPrimitive t := by
    rintro t i hi h ⟨u, k, hk, rfl⟩
    have hu : u ≠ [] := by
      rintro rfl
      rw [power_length] at hi
      simp at hi
    rw [power_length] at hi
    rw [rot_power hu hi] at h
    exact h ⟨_, k, hk, rfl⟩
  rcases Nat.lt_or_ge i t.length with hlt | hge
  · refine ⟨key hlt, fun h => ?_⟩
    rcases Nat.eq_zero_or_pos i with rfl | hpos
    · simpa [rot] using h
    · have hrl : (rot i t).length = t.length := by simp [rot]; omega
      have : rot (t.length - i) (rot i t) = t := by
        have e : (t.drop i).length = t.length - i := List.length_drop ..
        rw [rot, ← e]
        show List.drop _ (t.drop i ++ t.take i) ++ List.take _ (t.drop i ++ t.take i) = t
        rw [List.drop_left, List.take_left, List.take_append_drop]
      rw [← this] at h
      exact key (by omega) h
  · obtain rfl : i = t.length := by omega
    simp [rot]

/-- two words commute exactly if they are powers of one word -/
theorem commute_iff {u v : List α} : u ++ v = v ++ u ↔ ∃ w j k, u = power w j ∧ v = power w k := by
  constructor
  · intro h
    induction hn : u.length + v.length using Nat.strongRecOn generalizing u v with
    | _ n ih =>
      rcases List.eq_nil_or_concat u with rfl | hu
      · exact ⟨v, 0, 1, rfl, (power_one v).symm⟩
      · have hune : u ≠ [] := by rintro rfl; obtain ⟨a, b, h⟩ := hu; simp at h
        by_cases hv : v = []
        · subst hv
          exact ⟨u, 1, 0, (power_one u).symm, rfl⟩
        · have hul := List.length_pos_iff.2 hune
          have hvl := List.length_pos_iff.2 hv
          rcases Nat.le_total u.length v.length with hle | hle
          · have hpre : u <+: v := by
              refine List.prefix_of_prefix_length_le (List.prefix_append u v) ?_ hle
              rw [h]; exact List.prefix_append v u
            obtain ⟨z, rfl⟩ := hpre
            rw [List.append_assoc, List.append_cancel_left_eq] at h
            have hzl : u.length + z.length < n := by rw [← hn]; simp; omega
            obtain ⟨w, j, k, e1, e2⟩ := ih _ hzl h rfl
            exact ⟨w, j, j + k, e1, by rw [power_add, ← e1, ← e2]⟩
          · have hpre : v <+: u := by
              refine List.prefix_of_prefix_length_le ?_ (List.prefix_append u v) hle
              rw [h]; exact List.prefix_append v u
            obtain ⟨z, rfl⟩ := hpre
            have h' : z ++ v = v ++ z := by
              rw [List.append_assoc, List.append_cancel_left_eq] at h
              exact h
            have hzl : z.length + v.length < n := by rw [← hn]; simp; omega
            obtain ⟨w, j, k, e1, e2⟩ := ih _ hzl h' rfl
            exact ⟨w, k + j, k, by rw [power_add, ← e1, ← e2], e2⟩
  · rintro ⟨w, j, k, rfl, rfl⟩
    rw [← power_add, ← power_add, Nat.add_comm]

/-- a word is primitive exactly if it occurs in its square only at the two ends -/
theorem primitive_iff_square {t : List α} (ht : t ≠ []) :
    Spec.IsPrimitive t ↔ ∀ i, t <+: (t ++ t).drop i → i + t.length ≤ (t ++ t).length → i = 0 ∨ i = t.length := by
  have hl := List.length_pos_iff.2 ht
  have hrot : ∀ i, i ≤ t.length → (t <+: (t ++ t).drop i ↔ rot i t = t) := by
    intro i hi
    rw [List.drop_append_of_le_length hi]
    have e : t.drop i ++ t = rot i t ++ t.drop i := by
      rw [rot, List.append_assoc, List.take_append_drop]
    rw [e]
    constructor
    · intro h
      have : rot i t <+: rot i t ++ t.drop i := List.prefix_append _ _
      have h2 := List.prefix_of_prefix_length_le h this (by simp [rot]; omega)
      exact (h2.eq_of_length (by simp [rot]; omega)).symm
    · intro h
      rw [h]
      exact List.prefix_append _ _
  constructor
  · intro hp i h1 h2
    rw [List.length_append] at h2
    by_contra hno
    push Not at hno
    exact rot_ne_of_primitive hp (by omega) (by omega) ((hrot i (by omega)).1 h1)
  · rintro h ⟨u, k, hk, rfl⟩
    have hu : u ≠ [] := by
      rintro rfl
      rw [power_length] at hl
      simp at hl
    have hul := List.length_pos_iff.2 hu
    have hpl := power_length u k
    have h2 : 2 * u.length ≤ k * u.length := Nat.mul_le_mul_right _ hk
    have := h u.length ((hrot _ (by omega)).2 ?_) (by rw [List.length_append]; omega)
    · omega
    · rw [rot_power hu (by omega), Nat.mod_self]
      simp [rot]

end Verif
