import Verif.Lemmas.Fib
import Verif.Spec.Attractor

/-! # Fibonacci words: near-commutation, and the attractor of size two -/

namespace Verif
open Spec

/-- `f_{k+2} = f_k q x y` where `f_{k+1} = q y x`, and `x`, `y` are `a` and `b` in some order. -/
theorem fib_near (k : Nat) : ∃ q x y, fibWord (k + 1) = q ++ [y, x] ∧ fibWord (k + 2) = fibWord k ++ q ++ [x, y] ∧
    (x = 97 ∧ y = 98 ∨ x = 98 ∧ y = 97) := by
  induction k with
  | zero => exact ⟨[], 98, 97, rfl, rfl, by simp⟩
  | succ k ih =>
    obtain ⟨q, x, y, h1, h2, h3⟩ := ih
    refine ⟨fibWord k ++ q, y, x, h2, ?_, by tauto⟩
    have e1 : fibWord (k + 2) = fibWord (k + 1) ++ fibWord k := rfl
    have e2 : fibWord (k + 3) = fibWord (k + 2) ++ fibWord (k + 1) := rfl
    rw [e2, e1]
    conv_lhs => rw [List.append_assoc]; rhs; rhs; rw [h1]
    simp

theorem fib_prefix (k : Nat) : ∃ r, fibWord (k + 1) = fibWord k ++ r := by
  cases k with
  | zero => exact ⟨[98], rfl⟩
  | succ k => exact ⟨fibWord k, rfl⟩

theorem fib_two_le (k : Nat) : 2 ≤ (fibWord (k + 1)).length := by
  obtain ⟨q, x, y, h, _⟩ := fib_near k
  rw [h]; simp

/-- an occurrence near the end of the first part -/
def NearCut (n : Nat) (v : List UInt8) : Prop :=
  ∃ x y, x ++ v ++ y = fibWord (n + 2) ∧ x.length + 1 ≤ (fibWord (n + 1)).length ∧
    (fibWord (n + 1)).length ≤ x.length + v.length + 1

/-- cutting an occurrence out of a concatenation -/
theorem infix_of_pos {v x y a b : List UInt8} (h : x ++ v ++ y = a ++ b) (hx : a.length ≤ x.length) : v <:+: b := by
  obtain ⟨c, rfl⟩ : ∃ c, x = a ++ c := by
    have : a <+: x := List.prefix_of_prefix_length_le (l₃ := a ++ b) ⟨b, rfl⟩ ⟨v ++ y, by rw [← h]; simp⟩ hx
    obtain ⟨c, hc⟩ := this; exact ⟨c, hc.symm⟩
  refine ⟨c, y, ?_⟩
  simpa using h

theorem split_of_le {v x y a b : List UInt8} (h : x ++ v ++ y = a ++ b) (hx : x.length + v.length ≤ a.length) :
    ∃ z, x ++ v ++ z = a := by
  have : x ++ v <+: a := List.prefix_of_prefix_length_le (l₃ := a ++ b) ⟨y, h⟩ ⟨b, rfl⟩ (by simpa using hx)
  obtain ⟨z, hz⟩ := this; exact ⟨z, hz⟩

theorem nearCut_all (n : Nat) : ∀ v, v ≠ [] → v <:+: fibWord (n + 2) → NearCut n v := by
  induction n using Nat.twoStepInduction with
  | zero =>
    intro v hv ⟨x, y, h⟩
    have hl := congrArg List.length h
    have hvl := List.length_pos_iff.2 hv
    have e3 : (fibWord (0 + 2)).length = 3 := rfl
    have e2 : (fibWord (0 + 1)).length = 2 := rfl
    simp only [List.length_append, e3] at hl
    by_cases hx : x.length + 1 ≤ 2
    · exact ⟨x, y, h, by omega, by omega⟩
    · -- the last letter is an `a`, like the first
      have hx2 : x.length = 2 := by omega
      have hv1 : v.length = 1 := by omega
      have hy0 : y = [] := List.length_eq_zero_iff.1 (by omega)
      subst hy0
      obtain ⟨c, rfl⟩ := List.length_eq_one_iff.1 hv1
      match x, hx2 with
      | [p, q], _ =>
        have : c = 97 := by
          have : [p, q, c] = [97, 98, 97] := by simpa [fibWord] using h
          simp at this; exact this.2.2
        subst this
        exact ⟨[], [98, 97], rfl, by decide, by decide⟩
  | one =>
    intro v hv ⟨x, y, h⟩
    have hl := congrArg List.length h
    have hvl := List.length_pos_iff.2 hv
    have e3 : (fibWord (1 + 2)).length = 5 := rfl
    have e2 : (fibWord (1 + 1)).length = 3 := rfl
    simp only [List.length_append, e3] at hl
    by_cases hx : x.length + 1 ≤ 3 ∧ 3 ≤ x.length + v.length + 1
    · exact ⟨x, y, h, by omega, by omega⟩
    · have hh : x ++ v ++ y = [97, 98, 97, 97, 98] := h
      have hcase : v = [97] ∨ v = [98] ∨ v = [97, 98] := by
        by_cases h3 : x.length + 1 ≤ 3
        · have hx0 : x = [] := List.length_eq_zero_iff.1 (by omega)
          have hv1 : v.length = 1 := by omega
          subst hx0
          obtain ⟨c, rfl⟩ := List.length_eq_one_iff.1 hv1
          simp at hh; left; rw [hh.1]
        · have hx3 : x.length = 3 ∨ x.length = 4 := by omega
          rcases hx3 with hx3 | hx3
          · match x, hx3 with
            | [p, q, r], _ =>
              simp only [List.cons_append, List.nil_append, List.cons.injEq] at hh
              match v, hv with
              | [c], _ => simp at hh; left; rw [hh.2.2.2.1]
              | [c, d], _ => simp at hh; right; right; rw [hh.2.2.2.1, hh.2.2.2.2.1]
              | c :: d :: e :: v, _ => simp at hh
          · match x, hx3 with
            | [p, q, r, s], _ =>
              simp only [List.cons_append, List.nil_append, List.cons.injEq] at hh
              match v, hv with
              | [c], _ => simp at hh; right; left; rw [hh.2.2.2.2.1]
              | c :: d :: v, _ => simp at hh
      rcases hcase with rfl | rfl | rfl
      · exact ⟨[97, 98], [97, 98], rfl, by decide, by decide⟩
      · exact ⟨[97], [97, 97, 98], rfl, by decide, by decide⟩
      · exact ⟨[], [97, 97, 98], rfl, by decide, by decide⟩
  | more n ih _ =>
    have e4 : fibWord (n + 2 + 2) = fibWord (n + 3) ++ fibWord (n + 2) := rfl
    have e3 : fibWord (n + 2 + 1) = fibWord (n + 2) ++ fibWord (n + 1) := rfl
    have e2 : fibWord (n + 2) = fibWord (n + 1) ++ fibWord n := rfl
    obtain ⟨r, hr⟩ := fib_prefix n
    have e5 : ∃ rest, fibWord (n + 2 + 2) = fibWord (n + 2) ++ fibWord (n + 2) ++ rest := by
      refine ⟨r ++ fibWord n, ?_⟩
      rw [e4]
      have : fibWord (n + 3) ++ fibWord (n + 2) = fibWord (n + 2) ++ fibWord (n + 1) ++ (fibWord (n + 1) ++ fibWord n) := rfl
      rw [this]
      conv_lhs => rhs; rw [hr]
      conv_rhs => rw [List.append_assoc]; rhs; rw [e2]
      simp
    have l3 : (fibWord (n + 2 + 1)).length = (fibWord (n + 2)).length + (fibWord (n + 1)).length := by rw [e3]; simp
    have l2 : (fibWord (n + 2)).length = (fibWord (n + 1)).length + (fibWord n).length := by rw [e2]; simp
    have l4 : (fibWord (n + 2 + 2)).length = (fibWord (n + 3)).length + (fibWord (n + 2)).length := by rw [e4]; simp
    have h1 := fib_two_le n
    have h2 := fib_two_le (n + 2)
    -- factors of `f_{n+2}`
    have hα : ∀ v, v ≠ [] → v <:+: fibWord (n + 2) → NearCut (n + 2) v := by
      intro v hv hi
      obtain ⟨x, y, g1, g2, g3⟩ := ih v hv hi
      obtain ⟨rest, hrest⟩ := e5
      refine ⟨fibWord (n + 2) ++ x, y ++ rest, ?_, ?_, ?_⟩
      · rw [hrest, ← g1]; simp
      · simp only [List.length_append]; omega
      · simp only [List.length_append]; omega
    intro v hv ⟨x, y, h⟩
    have hl := congrArg List.length h
    simp only [List.length_append] at hl
    by_cases c1 : (fibWord (n + 2 + 1)).length ≤ x.length
    · exact hα v hv (infix_of_pos (h.trans e4) c1)
    by_cases c2 : (fibWord (n + 2 + 1)).length ≤ x.length + v.length + 1
    · exact ⟨x, y, h, by omega, c2⟩
    -- inside `f_{n+3}` without its last two letters
    obtain ⟨q, s, t, g1, g2, _⟩ := fib_near (n + 2)
    obtain ⟨q', s', t', g1', g2', _⟩ := fib_near (n + 1)
    have lq : (fibWord (n + 2 + 1)).length = q.length + 2 := by rw [g1]; simp
    have hq : fibWord (n + 2 + 2) = q ++ ([t, s] ++ fibWord (n + 2)) := by
      rw [e4]; show fibWord (n + 2 + 1) ++ _ = _; rw [g1]; simp
    obtain ⟨z, hz⟩ := split_of_le (h.trans hq) (by omega)
    have lz := congrArg List.length hz
    simp only [List.length_append] at lz
    by_cases c3 : (fibWord (n + 1)).length ≤ x.length
    · -- the period `|f_{n+1}|`
      have hqq : q = fibWord (n + 1) ++ q' := by
        have : q ++ [t, s] = (fibWord (n + 1) ++ q') ++ [s', t'] := by rw [← g1, ← g2']
        exact (List.append_inj' this rfl).1
      have hinf : v <:+: q' := infix_of_pos (hz.trans hqq) c3
      exact hα v hv (hinf.trans ⟨[], [t', s'], by rw [g1']; simp⟩)
    · by_cases c4 : x.length + v.length ≤ (fibWord (n + 2)).length
      · have : x ++ v ++ (z ++ [t, s]) = fibWord (n + 2) ++ fibWord (n + 1) := by
          rw [← e3, g1, ← hz]; simp
        obtain ⟨w, hw⟩ := split_of_le this c4
        exact hα v hv ⟨x, w, hw⟩
      · -- shift by the period `|f_{n+2}|`
        refine ⟨fibWord (n + 2) ++ x, z ++ [s, t], ?_, ?_, ?_⟩
        · rw [g2, ← hz]; simp
        · simp only [List.length_append]; omega
        · simp only [List.length_append]; omega

theorem fib_attractor (n : Nat) :
    IsAttractor (fibWord (n + 2)) [(fibWord (n + 1)).length - 1, (fibWord (n + 1)).length - 2] := by
  intro v hv hi
  obtain ⟨x, y, h, h1, h2⟩ := nearCut_all n v hv hi
  have hvl := List.length_pos_iff.2 hv
  refine ⟨x.length, ⟨?_, ?_⟩, ?_⟩
  · rw [← h]; simp
  · rw [← h]; simp
  · by_cases c : (fibWord (n + 1)).length ≤ x.length + v.length
    · exact ⟨(fibWord (n + 1)).length - 1, by simp, by omega, by omega⟩
    · exact ⟨(fibWord (n + 1)).length - 2, by simp, by omega, by omega⟩

end Verif
