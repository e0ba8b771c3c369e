import Verif.Lemmas.LyndonWords
import Verif.Lemmas.Power2

/-! # The Lyndon factorization of the characteristic word of the powers of two -/

namespace Verif

open Spec Model

/-- `a^n b` -/
def anb (n : Nat) : List UInt8 := List.replicate n 97 ++ [98]

theorem anb_mis {m n : Nat} (h : m < n) : Mis (anb n) (anb m) := by
  refine ⟨List.replicate m 97, 97, 98, List.replicate (n - m - 1) 97 ++ [98], [], ?_, rfl, by decide⟩
  rw [anb, show n = m + (1 + (n - m - 1)) by omega, List.replicate_add, List.replicate_add]
  simp

theorem anb_le {m n : Nat} (h : m ≤ n) : anb n ≤ anb m := by
  rcases Nat.lt_or_ge m n with h1 | h1
  · exact (anb_mis h1).lt.le
  · rw [show m = n by omega]

theorem anb_lyndon (n : Nat) : IsLyndon (anb n) := by
  refine isLyndon_of_drop (by simp [anb]) ?_
  intro d h0 h1
  have hl : (anb n).length = n + 1 := by simp [anb]
  have : (anb n).drop d = anb (n - d) := by
    rw [anb, List.drop_append_of_le_length (by simp; omega), List.drop_replicate]; rfl
  rw [this]
  exact (anb_mis (by omega)).lt

/-- the factors that end with `b`, for order `k + 1` -/
def p2Fac (k : Nat) : List (List UInt8) := [98] :: (List.range k).map fun i => anb (2 ^ i - 1)

theorem pow2_between {k i : Nat} (h1 : 2 ^ k < i + 1) (h2 : i + 1 < 2 ^ (k + 1)) : pow2Letter i = 97 := by
  unfold pow2Letter
  rw [if_neg]
  rintro ⟨e, he⟩
  rw [he] at h1 h2
  have := (Nat.pow_lt_pow_iff_right (show 1 < 2 by omega)).1 h1
  have := (Nat.pow_lt_pow_iff_right (show 1 < 2 by omega)).1 h2
  omega

theorem pow2_at (k : Nat) : pow2Letter (2 ^ k - 1) = 98 := by
  unfold pow2Letter
  rw [if_pos ⟨k, by have := Nat.two_pow_pos k; omega⟩]

theorem pow2_flatten (k : Nat) :
    (p2Fac k).flatten ++ List.replicate (2 ^ k - 1) 97 = (List.range (2 ^ (k + 1) - 1)).map pow2Letter := by
  have hp : ∀ k, 0 < 2 ^ k := Nat.two_pow_pos
  induction k with
  | zero =>
    have := pow2_at 0
    simp at this
    simp [p2Fac, this]
  | succ k ih =>
    have e : 2 ^ (k + 2) - 1 = (2 ^ (k + 1) - 1) + (1 + (2 ^ (k + 1) - 1)) := by
      have := hp (k + 1)
      rw [show 2 ^ (k + 2) = 2 * 2 ^ (k + 1) by ring]; omega
    have e3 : ∀ n, (List.range' (2 ^ (k + 1)) n).map pow2Letter = List.replicate n 97 ∨ 2 ^ (k + 1) - 1 < n := by
      intro n
      by_cases hn : 2 ^ (k + 1) - 1 < n
      · exact Or.inr hn
      · left
        rw [List.eq_replicate_iff]
        refine ⟨by simp, ?_⟩
        intro b hb
        obtain ⟨i, hi, rfl⟩ := List.mem_map.1 hb
        rw [List.mem_range'_1] at hi
        have := hp (k + 1)
        refine pow2_between (k := k + 1) (by omega) ?_
        rw [show 2 ^ (k + 1 + 1) = 2 * 2 ^ (k + 1) by ring]; omega
    have e4 := (e3 (2 ^ (k + 1) - 1)).resolve_right (by omega)
    have e5 : p2Fac (k + 1) = p2Fac k ++ [anb (2 ^ k - 1)] := by
      simp [p2Fac, List.range_succ]
    rw [show k + 1 + 1 = k + 2 from rfl, e, List.range_eq_range', ← List.range'_append_1, ← List.range'_append_1, List.map_append,
      List.map_append, ← List.range_eq_range', ← ih, Nat.zero_add,
      show 2 ^ (k + 1) - 1 + 1 = 2 ^ (k + 1) by have := hp (k + 1); omega, e4, e5]
    simp [anb, pow2_at]

theorem pow2_factors (k : Nat) :
    IsLyndonFactorization (p2Fac k ++ (List.replicate (2 ^ k - 1) [97] ++ [[0]]))
      ((List.range (2 ^ (k + 1) - 1)).map pow2Letter ++ [0]) := by
  refine ⟨?_, ?_, ?_⟩
  · rw [← pow2_flatten]
    simp
  · intro f hf
    simp only [p2Fac, List.cons_append, List.mem_cons, List.mem_append, List.mem_map, List.mem_replicate, List.not_mem_nil,
      or_false] at hf
    rcases hf with rfl | ⟨i, -, rfl⟩ | ⟨-, rfl⟩ | rfl
    · exact isLyndon_singleton _
    · exact anb_lyndon _
    · exact isLyndon_singleton _
    · exact isLyndon_singleton _
  · have ha : ∀ n, ([97] : List UInt8) ≤ anb n := by
      intro n
      rcases n with _ | n
      · decide
      · exact le_of_prefix ⟨List.replicate n 97 ++ [98], by simp [anb, List.replicate_succ]⟩
    have hz : ∀ n, ([0] : List UInt8) ≤ anb n := fun n => le_trans (by decide) (ha n)
    rw [List.pairwise_append, List.pairwise_append]
    refine ⟨?_, ⟨?_, by simp, ?_⟩, ?_⟩
    · rw [p2Fac, List.pairwise_cons]
      refine ⟨?_, ?_⟩
      · intro f hf
        obtain ⟨i, -, rfl⟩ := List.mem_map.1 hf
        exact anb_le (m := 0) (by omega)
      · rw [List.pairwise_map]
        refine List.pairwise_lt_range.imp (fun {a b} h => anb_le ?_)
        have := Nat.pow_le_pow_right (show 0 < 2 by omega) h.le
        omega
    · rw [List.pairwise_replicate]; exact Or.inr (le_refl _)
    · intro f hf g hg
      rw [List.eq_of_mem_replicate hf]
      simp at hg; subst hg; decide
    · intro f hf g hg
      have hg' : g = [97] ∨ g = [0] := by
        rcases List.mem_append.1 hg with hg | hg
        · exact Or.inl (List.eq_of_mem_replicate hg)
        · simp at hg; exact Or.inr hg
      have hf' : ∃ n, f = anb n := by
        rcases List.mem_cons.1 hf with rfl | hf
        · exact ⟨0, rfl⟩
        · obtain ⟨i, -, rfl⟩ := List.mem_map.1 hf
          exact ⟨_, rfl⟩
      obtain ⟨n, rfl⟩ := hf'
      rcases hg' with rfl | rfl
      · exact ha n
      · exact hz n

end Verif
