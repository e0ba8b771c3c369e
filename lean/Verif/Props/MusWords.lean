import Verif.Lemmas.MusWords
import Verif.Props.MusLaws
import Verif.Props.WordUniform

/-! # C135: the minimal unique substrings of the generated words -/

namespace Verif.Props

open Verif Spec Model

theorem isMus_of_musTool {T : List UInt8} (hT : ∀ x ∈ T, x ≠ 0) (hlen : T.length < 2147483647) {r : List (Nat × Nat)}
    (h : musTool naiveSufsort (T ++ [0]) = .ok r) {i l : Nat} : IsMus T i l ↔ (i, l) ∈ r := by
  obtain ⟨isa, phi, plcp, lcp, r', h1, h2, h3, h4, h5, h6, h7⟩ := C23_get_mus_exact naiveSufsort naiveSufsort_sorts T hT hlen
  have : musTool naiveSufsort (T ++ [0]) = .ok r' := by
    simp only [musTool, h1, h2, h3, h4, ok_bind]
    exact h5
  rw [this] at h
  injection h with h
  subst h
  exact (h7 i l).symm

theorem tm_base : musTool naiveSufsort (iter tmMor 4 [97] ++ [0]) = .ok [(1, 4), (2, 4), (3, 4), (5, 4), (7, 4), (9, 4), (10, 4), (11, 4)] := by
  decide +kernel

theorem pd_base : musTool naiveSufsort (iter pdMor 4 [97] ++ [0]) = .ok [(3, 5), (5, 5), (7, 5), (11, 5)] := by
  decide +kernel

theorem tm_base_mus {i l : Nat} : IsMus (iter tmMor 4 [97]) i l ↔ (i, l) ∈ [(1, 4), (2, 4), (3, 4), (5, 4), (7, 4), (9, 4), (10, 4), (11, 4)] :=
  isMus_of_musTool (by decide) (by decide) tm_base

theorem pd_base_mus {i l : Nat} : IsMus (iter pdMor 4 [97]) i l ↔ (i, l) ∈ [(3, 5), (5, 5), (7, 5), (11, 5)] :=
  isMus_of_musTool (by decide) (by decide) pd_base

theorem tm_iter_ab (k : Nat) : ∀ c ∈ iter tmMor k [97], IsAb c := by
  induction k with
  | zero => intro c hc; simp [iter] at hc; exact Or.inl hc
  | succ k ih =>
    intro c hc
    obtain ⟨x, hx, hc⟩ := List.mem_flatMap.1 hc
    rcases ih x hx with rfl | rfl <;> simp [tmMor] at hc <;> rcases hc with rfl | rfl <;> simp [IsAb]

theorem tm_inv (k : Nat) : NoXXX (iter tmMor (k + 4) [97]) ∧ ∀ i l, Uq (iter tmMor (k + 4) [97]) i l → 3 ≤ l := by
  induction k with
  | zero =>
    refine ⟨tm_noXXX (tm_iter_ab 3), fun i l h => ?_⟩
    obtain ⟨j, m, h1, h2, h3⟩ := exists_mus h
    have := tm_base_mus.1 h1
    simp only [List.mem_cons, Prod.mk.injEq, List.not_mem_nil, or_false] at this
    omega
  | succ k ih => exact ⟨tm_noXXX (tm_iter_ab (k + 4)), fun i l h => tm_uq_three (tm_iter_ab (k + 4)) ih.2 h⟩

theorem pd_inv (k : Nat) : PdOk (iter pdMor (k + 4) [97]) := by
  induction k with
  | zero =>
    refine ⟨pd_iter_ab 4, ?_, ⟨0, 2, by decide⟩, ⟨1, 5, by decide⟩, 4, 0, by decide, ?_, by unfold Occ; decide, by decide, 8, by decide,
      by unfold Occ; decide, by decide⟩
    · rintro i ⟨h1, h2⟩
      have hi : i < 16 := get_lt h1
      have : ∀ i : Nat, i < 16 → ¬ ((iter pdMor 4 [97])[i]? = some 98 ∧ (iter pdMor 4 [97])[i + 1]? = some 98) := by decide
      exact this i hi ⟨h1, h2⟩
    · exact (isMus_iff_uq.1 ((pd_base_mus (i := 11) (l := 5)).2 (by decide))).1
  | succ k ih => exact ih.next

theorem mem_units {A : List Nat} {f : Nat → Nat} {L i l : Nat} : (∃ a ∈ A, i = f a ∧ l = L) ↔ (i, l) ∈ A.map fun a => (f a, L) := by
  rw [List.mem_map]
  simp only [Prod.mk.injEq, eq_comm (a := i), eq_comm (a := l)]

theorem unit_double {a k : Nat} (ha : 1 ≤ a) : a * 2 ^ (k + 1) - 1 = 2 * (a * 2 ^ k - 1) + 1 := by
  have : 1 ≤ a * 2 ^ k := Nat.mul_pos ha (Nat.two_pow_pos k)
  rw [Nat.pow_succ, ← Nat.mul_assoc]
  omega

/-- C135, Thue–Morse words, about the words themselves: of **every** order `k + 4`, exactly eight minimal unique substrings, all of the
length `2 ^ (k + 1) + 2`, at these positions. -/
theorem C135_thuemorse (k i l : Nat) : IsMus (iter tmMor (k + 4) [97]) i l ↔
    ∃ a ∈ [2, 3, 4, 6, 8, 10, 11, 12], i = a * 2 ^ k - 1 ∧ l = 2 ^ (k + 1) + 2 := by
  induction k generalizing i l with
  | zero =>
    rw [mem_units (f := fun a => a * 2 ^ 0 - 1)]
    exact tm_base_mus
  | succ k ih =>
    rw [show iter tmMor (k + 1 + 4) [97] = (iter tmMor (k + 4) [97]).flatMap tmMor from rfl,
      tm_mus (tm_iter_ab (k + 4)) (tm_inv k).1 (tm_inv k).2]
    have h1 : ∀ a ∈ [2, 3, 4, 6, 8, 10, 11, 12], 1 ≤ a := by decide
    constructor
    · rintro ⟨i', l', h, rfl, rfl⟩
      obtain ⟨a, ha, rfl, rfl⟩ := (ih _ _).1 h
      exact ⟨a, ha, (unit_double (h1 a ha)).symm, by rw [Nat.pow_succ 2 (k + 1)]; omega⟩
    · rintro ⟨a, ha, rfl, rfl⟩
      exact ⟨_, _, (ih _ _).2 ⟨a, ha, rfl, rfl⟩, unit_double (h1 a ha), by rw [Nat.pow_succ 2 (k + 1)]; omega⟩

example : IsMus (iter tmMor 24 [97]) (2 ^ 21 - 1) (2 ^ 21 + 2) := (C135_thuemorse 20 _ _).2 ⟨2, by decide, by decide, by decide⟩

/-- C135, period-doubling words, about the words themselves: of **every** order `k + 4`, exactly four minimal unique substrings, all of the
length `2 ^ (k + 2) + 1`, at these positions. -/
theorem C135_perioddoubling (k i l : Nat) : IsMus (iter pdMor (k + 4) [97]) i l ↔
    ∃ a ∈ [4, 6, 8, 12], i = a * 2 ^ k - 1 ∧ l = 2 ^ (k + 2) + 1 := by
  induction k generalizing i l with
  | zero =>
    rw [mem_units (f := fun a => a * 2 ^ 0 - 1)]
    exact pd_base_mus
  | succ k ih =>
    rw [show iter pdMor (k + 1 + 4) [97] = (iter pdMor (k + 4) [97]).flatMap pdMor from rfl, pd_mus (pd_inv k)]
    have h1 : ∀ a ∈ [4, 6, 8, 12], 1 ≤ a := by decide
    constructor
    · rintro ⟨i', l', h, rfl, rfl⟩
      obtain ⟨a, ha, rfl, rfl⟩ := (ih _ _).1 h
      exact ⟨a, ha, (unit_double (h1 a ha)).symm, by rw [Nat.pow_succ 2 (k + 2)]; omega⟩
    · rintro ⟨a, ha, rfl, rfl⟩
      exact ⟨_, _, (ih _ _).2 ⟨a, ha, rfl, rfl⟩, unit_double (h1 a ha), by rw [Nat.pow_succ 2 (k + 2)]; omega⟩

example : IsMus (iter pdMor 24 [97]) (2 ^ 22 - 1) (2 ^ 22 + 1) := (C135_perioddoubling 20 _ _).2 ⟨4, by decide, by decide, by decide⟩

/-- C135, as `get_mus` answers it: on the words that `thuemorse_word` and `period_doubling_word` return for the order `k + 4`, for every
order whose word `get_mus` can be run on. -/
theorem C135_get_mus (sufsort : List UInt8 → List Nat) (hs : SortsSuffixes sufsort) (k : Nat) (hk : k + 4 ≤ 30) :
    (∃ T, thuemorseWord (k + 4) = .ok T ∧
      GetMusReturns sufsort T ([2, 3, 4, 6, 8, 10, 11, 12].map fun a => (a * 2 ^ k - 1, 2 ^ (k + 1) + 2))) ∧
    ∃ T, periodDoublingWord (k + 4) = .ok T ∧
      GetMusReturns sufsort T ([4, 6, 8, 12].map fun a => (a * 2 ^ k - 1, 2 ^ (k + 2) + 1)) := by
  have hp := Nat.two_pow_pos k
  have hp30 : 2 ^ (k + 4) ≤ 2 ^ 30 := Nat.pow_le_pow_right (by decide) hk
  have ne0 : ∀ T : List UInt8, (∀ c ∈ T, IsAb c) → ∀ x ∈ T, x ≠ 0 := by
    intro T h x hx
    rcases h x hx with rfl | rfl <;> decide
  constructor
  · refine ⟨_, (C43_thuemorse_morphism (k + 4) (by omega)).1, (getMus_spec sufsort hs (ne0 _ (tm_iter_ab _)) ?_).2 ⟨?_, fun i l => ?_⟩⟩
    · rw [iter_fixLetter tmMor_eq rfl]
      simp
      omega
    · simp; omega
    · rw [C135_thuemorse, mem_units (f := fun a => a * 2 ^ k - 1)]
  · obtain ⟨T, h1, rfl, h3, -⟩ := C45_period_doubling (k + 4) (by omega)
    refine ⟨_, h1, (getMus_spec sufsort hs (ne0 _ (pd_iter_ab _)) (by omega)).2 ⟨?_, fun i l => ?_⟩⟩
    · simp; omega
    · rw [C135_perioddoubling, mem_units (f := fun a => a * 2 ^ k - 1)]

example := C135_get_mus naiveSufsort naiveSufsort_sorts 20 (by decide)

end Verif.Props
