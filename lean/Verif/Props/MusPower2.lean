import Verif.Lemmas.MusPower2
import Verif.Lemmas.Power2
import Verif.Props.MusLaws

/-! # C135, the characteristic words of the powers of two -/

namespace Verif.Props

open Verif Spec Model

/-- the minimal unique substrings of the word of order `k` -/
def power2Mus (k : Nat) : List (Nat × Nat) :=
  (List.range (k - 2)).map (fun j => (2 ^ j - 1, 2 ^ j + 1)) ++
    [(3 * 2 ^ (k - 3) - 1, 2 ^ (k - 3) + 1), (2 ^ (k - 1) - 1, 2 ^ (k - 2) + 1), (2 ^ (k - 1), 2 ^ (k - 1) - 1)]

theorem mem_power2Mus {m i l : Nat} : (i, l) ∈ power2Mus (m + 3) ↔ P2Mus m i l := by
  have e1 : 2 ^ (m + 2) = 4 * 2 ^ m := by rw [Nat.pow_succ, Nat.pow_succ]; omega
  have e2 : 2 ^ (m + 1) = 2 * 2 ^ m := by rw [Nat.pow_succ]; omega
  simp only [power2Mus, P2Mus, List.mem_append, List.mem_map, List.mem_range, List.mem_cons, List.not_mem_nil, or_false, Prod.mk.injEq,
    show m + 3 - 3 = m by omega, show m + 3 - 1 = m + 2 by omega, show m + 3 - 2 = m + 1 by omega, e1, e2]
  refine or_congr ⟨?_, ?_⟩ Iff.rfl
  · rintro ⟨j, h, a, b⟩; exact ⟨j, by omega, a.symm, b.symm⟩
  · rintro ⟨j, h, a, b⟩; exact ⟨j, by omega, a.symm, b.symm⟩

theorem power2_word {k : Nat} (hk3 : 3 ≤ k) : ∀ i l, IsMus ((List.range (2 ^ k - 1)).map pow2Letter) i l ↔ (i, l) ∈ power2Mus k := by
  obtain ⟨m, rfl⟩ := Nat.exists_eq_add_of_le' hk3
  intro i l
  rw [mem_power2Mus]
  refine p2_mus ?_ ?_ i l
  · rw [List.length_map, List.length_range, Nat.pow_succ, Nat.pow_succ, Nat.pow_succ]; omega
  · intro i hi
    rw [List.length_map, List.length_range] at hi
    rw [List.getElem?_map, List.getElem?_range hi, Option.map_some, pow2Letter]
    by_cases he : ∃ e, i + 1 = 2 ^ e
    · rw [if_pos he]; exact ⟨Or.inr rfl, fun _ => he, fun _ => rfl⟩
    · rw [if_neg he]; exact ⟨Or.inl rfl, fun h => absurd h (by decide), fun h => absurd h he⟩

/-- C135, powers of two: the word of `power2_sequence(k)` for **every** order `3 ≤ k` that the function can be called with is a text without
byte 0 followed by the byte 0, and the text has exactly these `k + 1` minimal unique substrings. -/
theorem C135_power2 (k : Nat) (hk3 : 3 ≤ k) (hk : k ≤ 62) : ∃ T, power2Sequence k = .ok (T ++ [0]) ∧ (∀ x ∈ T, x ≠ 0) ∧
    (∀ i l, IsMus T i l ↔ (i, l) ∈ (List.range (k - 2)).map (fun j => (2 ^ j - 1, 2 ^ j + 1)) ++
      [(3 * 2 ^ (k - 3) - 1, 2 ^ (k - 3) + 1), (2 ^ (k - 1) - 1, 2 ^ (k - 2) + 1), (2 ^ (k - 1), 2 ^ (k - 1) - 1)]) := by
  refine ⟨_, power2_ok hk, ?_, power2_word hk3⟩
  intro x hx
  rw [List.mem_map] at hx
  obtain ⟨i, -, rfl⟩ := hx
  unfold pow2Letter
  split <;> decide

/-- C135, powers of two: what the command `mus` computes from a file that holds exactly the word of `power2_sequence(k)`, whose last byte
serves as the sentinel. -/
theorem C135_power2_tool (sufsort : List UInt8 → List Nat) (hs : SortsSuffixes sufsort) (k : Nat) (hk3 : 3 ≤ k) (hk : k ≤ 30) :
    ∃ w, power2Sequence k = .ok w ∧ musTool sufsort w = .ok ((List.range (k - 2)).map (fun j => (2 ^ j - 1, 2 ^ j + 1)) ++
      [(3 * 2 ^ (k - 3) - 1, 2 ^ (k - 3) + 1), (2 ^ (k - 1) - 1, 2 ^ (k - 2) + 1), (2 ^ (k - 1), 2 ^ (k - 1) - 1)]) := by
  obtain ⟨T, h1, h2, h3⟩ := C135_power2 k hk3 (by omega)
  have hw := h1
  rw [power2_ok (by omega)] at hw
  injection hw with hw
  have hlen : T.length = 2 ^ k - 1 := by
    have := congrArg List.length hw
    simp at this
    omega
  have hk2 : 2 ^ k ≤ 2 ^ 30 := Nat.pow_le_pow_right (by decide) hk
  have hpw : (power2Mus k).Pairwise (fun a b => a.1 < b.1) := by
    obtain ⟨m, rfl⟩ := Nat.exists_eq_add_of_le' hk3
    have hM := Nat.two_pow_pos m
    have e1 : 2 ^ (m + 2) = 4 * 2 ^ m := by rw [Nat.pow_succ, Nat.pow_succ]; omega
    rw [power2Mus, List.pairwise_append, List.pairwise_map]
    refine ⟨?_, ?_, ?_⟩
    · refine List.Pairwise.imp ?_ (List.pairwise_lt_range (n := m + 3 - 2))
      intro a b hab
      have h1 := (Nat.pow_lt_pow_iff_right (a := 2) (by decide)).2 hab
      have := Nat.two_pow_pos a
      dsimp only
      omega
    · simp only [List.pairwise_cons, List.mem_cons, List.not_mem_nil, or_false, forall_eq_or_imp, forall_eq, show m + 3 - 3 = m by omega,
        show m + 3 - 1 = m + 2 by omega, e1]
      refine ⟨⟨by omega, by omega⟩, by omega, by simp⟩
    · intro a ha b hb
      rw [List.mem_map] at ha
      obtain ⟨j, hj, rfl⟩ := ha
      rw [List.mem_range] at hj
      have h1 : 2 ^ j ≤ 2 ^ m := Nat.pow_le_pow_right (by decide) (by omega)
      simp only [List.mem_cons, List.not_mem_nil, or_false, show m + 3 - 3 = m by omega, show m + 3 - 1 = m + 2 by omega, e1] at hb
      rcases hb with rfl | rfl | rfl <;> dsimp only <;> omega
  obtain ⟨isa, phi, plcp, lcp, g1, g2, g3, g4, g5⟩ := (getMus_spec sufsort hs h2 (r := power2Mus k) (by omega)).2 ⟨hpw, fun i l => (h3 i l).symm⟩
  refine ⟨_, h1, ?_⟩
  rw [musTool, g1, ok_bind, g2, ok_bind, g3, ok_bind, g4, ok_bind, g5]
  rfl

example := C135_power2_tool naiveSufsort naiveSufsort_sorts 20 (by decide) (by decide)

/-- Concrete case: `bbabaaa`. -/
example : power2Sequence 3 = .ok [98, 98, 97, 98, 97, 97, 97, 0] ∧
    musTool naiveSufsort [98, 98, 97, 98, 97, 97, 97, 0] = .ok [(0, 2), (2, 2), (3, 3), (4, 3)] := by decide +kernel

end Verif.Props
