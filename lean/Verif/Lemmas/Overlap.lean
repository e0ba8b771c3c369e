import Verif.Spec.Repetition
import Verif.Lemmas.DigitSum

/-! # The Thue–Morse word has no overlaps, its difference word has no squares -/

namespace Verif
open Spec

/-- The Thue–Morse word over the booleans. -/
def tmb (i : Nat) : Bool := tm i = 98

theorem tmb_even (n : Nat) : tmb (2 * n) = tmb n := by
  have h : tm (2 * n) = tm0 (tm n) := fixLetter_even rfl n
  unfold tmb
  rw [h]
  rcases tm_values n with h | h <;> rw [h] <;> decide

theorem tmb_odd (n : Nat) : tmb (2 * n + 1) = !tmb n := by
  have h : tm (2 * n + 1) = tm1 (tm n) := fixLetter_odd n
  unfold tmb
  rw [h]
  rcases tm_values n with h | h <;> rw [h] <;> decide

/-- A letter at an odd position differs from the one before. -/
theorem tmb_diff {n : Nat} (h : n % 2 = 0) : tmb (n + 1) ≠ tmb n := by
  obtain ⟨q, rfl⟩ : ∃ q, n = 2 * q := ⟨n / 2, by omega⟩
  rw [tmb_odd, tmb_even]
  cases tmb q <;> simp

/-- A letter at a position that is 2 modulo 4 equals the one before. -/
theorem tmb_same {n : Nat} (h : n % 4 = 1) : tmb (n + 1) = tmb n := by
  obtain ⟨q, rfl⟩ : ∃ q, n = 4 * q + 1 := ⟨n / 4, by omega⟩
  rw [show 4 * q + 1 + 1 = 2 * (2 * q + 1) by omega, tmb_even, tmb_odd, show 4 * q + 1 = 2 * (2 * q) + 1 by omega,
    tmb_odd, tmb_even]

theorem tmb_no_overlap (m : Nat) (hm : 0 < m) (k : Nat) : ¬ ∀ j ≤ m, tmb (k + j) = tmb (k + j + m) := by
  induction m using Nat.strong_induction_on generalizing k with
  | _ m ih =>
    intro h
    rcases Nat.mod_two_eq_zero_or_one m with h0 | h1
    · refine ih (m / 2) (by omega) (by omega) (k / 2) ?_
      intro j hj
      have := h (2 * j) (by omega)
      rcases Nat.mod_two_eq_zero_or_one k with k0 | k1
      · rwa [show k + 2 * j = 2 * (k / 2 + j) by omega,
          show 2 * (k / 2 + j) + m = 2 * (k / 2 + j + m / 2) by omega, tmb_even, tmb_even] at this
      · rw [show k + 2 * j = 2 * (k / 2 + j) + 1 by omega,
          show 2 * (k / 2 + j) + 1 + m = 2 * (k / 2 + j + m / 2) + 1 by omega, tmb_odd, tmb_odd] at this
        simpa using this
    · -- equal differences
      have hd : ∀ j, j < m → (tmb (k + j + 1) = tmb (k + j) ↔ tmb (k + j + m + 1) = tmb (k + j + m)) := by
        intro j hj
        have a := h j (by omega)
        have b := h (j + 1) (by omega)
        rw [show k + (j + 1) = k + j + 1 by omega, show k + j + 1 + m = k + j + m + 1 by omega] at b
        rw [a, b]
      -- a position that is 1 modulo 4 followed, at distance `m`, by an even one
      have key : ∀ j, j < m → (k + j) % 4 = 1 → False := by
        intro j hj hk
        exact tmb_diff (n := k + j + m) (by omega) ((hd j hj).1 (tmb_same hk))
      by_cases h4 : 4 ≤ m
      · exact key ((4 * k + 1 - k) % 4) (by omega) (by omega)
      · have hm3 : m = 1 ∨ m = 3 := by omega
        rcases hm3 with rfl | rfl
        · rcases Nat.mod_two_eq_zero_or_one k with k0 | k1
          · have := h 0 (by omega)
            exact tmb_diff k0 this.symm
          · have := h 1 (by omega)
            exact tmb_diff (n := k + 1) (by omega) this.symm
        · have key2 : ∀ j, j < 3 → (k + j) % 4 = 2 → False := by
            intro j hj hk
            exact tmb_diff (n := k + j) (by omega) ((hd j hj).2 (tmb_same (by omega)))
          have : k % 4 = 0 ∨ k % 4 = 1 ∨ k % 4 = 2 ∨ k % 4 = 3 := by omega
          rcases this with h | h | h | h
          · exact key 1 (by omega) (by omega)
          · exact key 0 (by omega) (by omega)
          · exact key2 0 (by omega) (by omega)
          · exact key 2 (by omega) (by omega)

theorem infix_get {α : Type} {u w : List α} (h : u <:+: w) :
    ∃ k, k + u.length ≤ w.length ∧ ∀ j, j < u.length → u[j]? = w[k + j]? := by
  obtain ⟨s, t, rfl⟩ := h
  refine ⟨s.length, by simp, ?_⟩
  intro j hj
  rw [List.append_assoc, List.getElem?_append_right (by omega), List.getElem?_append_left (by omega)]
  congr 1
  omega

theorem tm_overlapFree (n : Nat) : OverlapFree ((List.range n).map tm) := by
  intro c u h
  obtain ⟨k, hk, hj⟩ := infix_get h
  simp only [List.length_append, List.length_cons, List.length_nil, List.length_map, List.length_range] at hk hj
  refine tmb_no_overlap (u.length + 1) (by omega) k ?_
  intro j hle
  have get : ∀ i, i < u.length + 1 + (u.length + 1) + (0 + 1) →
      (c :: u ++ c :: u ++ [c])[i]? = some (tm (k + i)) := by
    intro i hi
    rw [hj i (by omega), List.getElem?_map, List.getElem?_range (by omega)]
    rfl
  have a := get j (by omega)
  have b := get (j + (u.length + 1)) (by omega)
  have e : (c :: u ++ c :: u ++ [c])[j]? = (c :: u ++ c :: u ++ [c])[j + (u.length + 1)]? := by
    have e1 : (c :: u ++ c :: u ++ [c])[j + (u.length + 1)]? = (c :: u ++ [c])[j]? := by
      rw [List.append_assoc, List.getElem?_append_right (by simp)]
      congr 1
      simp
    have e2 : (c :: u ++ c :: u ++ [c])[j]? = (c :: u ++ [c])[j]? := by
      rcases Nat.lt_or_ge j (u.length + 1) with hlt | hge
      · rw [List.append_assoc, List.getElem?_append_left (by simpa using hlt),
          List.getElem?_append_left (by simpa using hlt)]
      · have : j = u.length + 1 := by omega
        subst this
        have l1 : (c :: u ++ (c :: u ++ [c]))[u.length + 1]? = some c := by
          rw [List.getElem?_append_right (by simp)]; simp
        have l2 : (c :: u ++ [c])[u.length + 1]? = some c := by
          rw [List.getElem?_append_right (by simp)]; simp
        rw [List.append_assoc, l1, l2]
    rw [e1, e2]
  rw [a, b, Option.some.injEq] at e
  unfold tmb
  rw [e, Nat.add_assoc]

/-! ### The ternary word of the differences -/

/-- Letter `n` of the infinite word: how the Thue–Morse word goes on from `n` to `n + 1`. -/
def vtmLetter (n : Nat) : UInt8 :=
  if tmb n = tmb (n + 1) then 98 else if tmb (n + 1) then 97 else 99

theorem vtmLetter_inj {m n : Nat} (h : vtmLetter m = vtmLetter n) (h0 : tmb m = tmb n) :
    tmb (m + 1) = tmb (n + 1) := by
  revert h h0
  unfold vtmLetter
  cases tmb m <;> cases tmb n <;> cases tmb (m + 1) <;> cases tmb (n + 1) <;> simp

theorem vtmLetter_ne {m n : Nat} (h : vtmLetter m = vtmLetter n) (h0 : tmb m ≠ tmb n) :
    tmb (m + 1) = tmb m ∧ tmb (n + 1) = tmb n := by
  revert h h0
  unfold vtmLetter
  cases tmb m <;> cases tmb n <;> cases tmb (m + 1) <;> cases tmb (n + 1) <;> simp

theorem vtm_no_square (p : Nat) (hp : 0 < p) (k : Nat) :
    ¬ ∀ j < p, vtmLetter (k + j) = vtmLetter (k + j + p) := by
  intro h
  by_cases h0 : tmb k = tmb (k + p)
  · refine tmb_no_overlap p hp k ?_
    intro j
    induction j with
    | zero => intro _; exact h0
    | succ j ih =>
      intro hj
      have := vtmLetter_inj (h j (by omega)) (ih (by omega))
      rwa [show k + (j + 1) = k + j + 1 by omega, show k + j + 1 + p = k + j + p + 1 by omega]
  · have : ∀ j ≤ p, tmb (k + j) = tmb k ∧ tmb (k + j + p) = tmb (k + p) := by
      intro j
      induction j with
      | zero => intro _; exact ⟨rfl, rfl⟩
      | succ j ih =>
        intro hj
        obtain ⟨a, b⟩ := ih (by omega)
        obtain ⟨c, d⟩ := vtmLetter_ne (h j (by omega)) (by rwa [a, b])
        refine ⟨?_, ?_⟩
        · rw [show k + (j + 1) = k + j + 1 by omega, c, a]
        · rw [show k + (j + 1) + p = k + j + p + 1 by omega, d, b]
    exact h0 (this p le_rfl).1.symm

theorem vtm_squareFree (n : Nat) : SquareFree ((List.range n).map vtmLetter) := by
  intro u hu h
  obtain ⟨k, hk, hj⟩ := infix_get h
  simp only [List.length_append, List.length_map, List.length_range] at hk hj
  have hpos : 0 < u.length := List.length_pos_of_ne_nil hu
  refine vtm_no_square u.length hpos k ?_
  intro j hlt
  have get : ∀ i, i < u.length + u.length → (u ++ u)[i]? = some (vtmLetter (k + i)) := by
    intro i hi
    rw [hj i hi, List.getElem?_map, List.getElem?_range (by omega)]
    rfl
  have a := get j (by omega)
  have b := get (j + u.length) (by omega)
  rw [List.getElem?_append_left (by omega)] at a
  rw [List.getElem?_append_right (by omega), show j + u.length - u.length = j by omega, a, Option.some.injEq] at b
  rw [b, Nat.add_assoc]

/-- The letters of the word between two positions. -/
theorem vtm_flatMap (n : Nat) :
    ((List.range n).map vtmLetter).flatMap vtmMor =
      (List.range (2 * n + (tmb n).toNat)).map vtmLetter := by
  induction n with
  | zero =>
    have : tmb 0 = false := by unfold tmb; rw [show tm 0 = 97 from fixLetter_zero]; decide
    simp [this]
  | succ n ih =>
    rw [List.range_succ, List.map_append, List.flatMap_append, ih]
    have e0 : tmb (2 * n) = tmb n := tmb_even n
    have e1 : tmb (2 * n + 1) = !tmb n := tmb_odd n
    have e2 : tmb (2 * n + 2) = tmb (n + 1) := tmb_even (n + 1)
    have e3 : tmb (2 * n + 3) = !tmb (n + 1) := tmb_odd (n + 1)
    cases h0 : tmb n <;> cases h1 : tmb (n + 1)
    · rw [show 2 * (n + 1) + false.toNat = 2 * n + false.toNat + 2 by simp; omega, List.range_add,
        List.map_append]
      simp [List.range_succ, vtmLetter, e0, e1, e2, h0, h1, vtmMor]
    · rw [show 2 * (n + 1) + true.toNat = 2 * n + false.toNat + 3 by simp; omega, List.range_add,
        List.map_append]
      simp [List.range_succ, vtmLetter, e0, e1, e2, e3, h0, h1, vtmMor]
    · rw [show 2 * (n + 1) + false.toNat = 2 * n + true.toNat + 1 by simp; omega, List.range_add,
        List.map_append]
      simp [List.range_succ, vtmLetter, e1, e2, h0, h1, vtmMor]
    · rw [show 2 * (n + 1) + true.toNat = 2 * n + true.toNat + 2 by simp; omega, List.range_add,
        List.map_append]
      simp [List.range_succ, vtmLetter, e1, e2, e3, h0, h1, vtmMor, Nat.add_assoc]

theorem tmb_zero : tmb 0 = false := by unfold tmb; rw [show tm 0 = 97 from fixLetter_zero]; decide

theorem tmb_pow (j n : Nat) : tmb (n * 2 ^ j) = tmb n := by
  induction j with
  | zero => simp
  | succ j ih => rw [Nat.pow_succ, ← Nat.mul_assoc, Nat.mul_comm _ 2, tmb_even, ih]

theorem vtm_iter_succ (k : Nat) : iter vtmMor (k + 1) [97] = (List.range (3 * 2 ^ k)).map vtmLetter := by
  have h0 := tmb_zero
  have h1 : tmb 1 = true := by have := tmb_odd 0; simpa [h0] using this
  have h3 : tmb 3 = false := by have := tmb_odd 1; simpa [h1] using this
  induction k with
  | zero =>
    have e : [97] = (List.range 1).map vtmLetter := by simp [vtmLetter, h0, h1]
    rw [iter, iter, e, vtm_flatMap, h1]
    rfl
  | succ k ih =>
    rw [iter, ih, vtm_flatMap, tmb_pow, h3]
    congr 2
    rw [Nat.pow_succ, Bool.toNat_false]
    omega

/-- The number of letters of `vtm_word(k)`. -/
theorem vtm_iter (k : Nat) :
    iter vtmMor k [97] = (List.range (if k = 0 then 1 else 3 * 2 ^ (k - 1))).map vtmLetter := by
  rcases k with _ | k
  · have h0 := tmb_zero
    have h1 : tmb 1 = true := by have := tmb_odd 0; simpa [h0] using this
    simp [iter, vtmLetter, h0, h1]
  · simpa using vtm_iter_succ k

end Verif
