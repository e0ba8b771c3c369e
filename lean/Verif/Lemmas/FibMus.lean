import Verif.Lemmas.FibAttractor
import Verif.Spec.Mus

/-! # The minimal unique substrings of Fibonacci words -/

namespace Verif

open Spec

theorem occursAt_iff {v T : List UInt8} {j : Nat} :
    OccursAt v T j ↔ ∃ x y, x ++ v ++ y = T ∧ x.length = j := by
  constructor
  · rintro ⟨h1, y, h2⟩
    refine ⟨T.take j, y, ?_, ?_⟩
    · rw [List.append_assoc, h2, List.take_append_drop]
    · simp; omega
  · rintro ⟨x, y, rfl, rfl⟩
    exact ⟨by simp, by simp⟩

/-- In a word with period `|A|` and prefix `A`, every window of that length has as many letters `c` as `A`. -/
theorem window_count {A W x u y : List UInt8} (hW : W <+: A ++ W) (h : x ++ u ++ y = W) (hu : u.length = A.length)
    (c : UInt8) : u.count c = A.count c := by
  have h1 : x ++ u <+: A ++ W := List.IsPrefix.trans ⟨y, h⟩ hW
  have h2 : A ++ x <+: A ++ W := ⟨u ++ y, by rw [← h]; simp⟩
  have h3 : x ++ u = A ++ x := by
    have := List.prefix_of_prefix_length_le h1 h2 (by simp; omega)
    exact this.eq_of_length (by simp; omega)
  have := congrArg (List.count c) h3
  simp only [List.count_append] at this
  omega

/-- The letter before the second block and the second block without its last letter. -/
def singular (k : Nat) : List UInt8 := (fibWord (k + 2)).getLast?.toList ++ (fibWord (k + 1)).dropLast

theorem singular_length (k : Nat) : (singular k).length = (fibWord (k + 1)).length := by
  obtain ⟨q, x, y, h1, h2, h3⟩ := fib_near k
  rw [singular, h1, h2]; simp

theorem singular_count (k : Nat) : (singular k).count 98 ≠ (fibWord (k + 1)).count 98 := by
  obtain ⟨q, x, y, h1, h2, h3⟩ := fib_near k
  rw [singular, h1, h2]
  rcases h3 with ⟨rfl, rfl⟩ | ⟨rfl, rfl⟩ <;>
    simp [List.getLast?_append]

theorem singular_occ (k : Nat) : ∃ x y, x ++ singular k ++ y = fibWord (k + 4) ∧ x.length = (fibWord (k + 2)).length - 1 := by
  have e3 : fibWord (k + 3) = fibWord (k + 2) ++ fibWord (k + 1) := rfl
  have e4 : fibWord (k + 4) = fibWord (k + 3) ++ fibWord (k + 2) := rfl
  obtain ⟨q, x, y, h1, h2, h3⟩ := fib_near k
  refine ⟨fibWord k ++ q ++ [x], [x] ++ fibWord (k + 2), ?_, ?_⟩
  · rw [e4, e3, singular, h1, h2]; simp [List.getLast?_append]
  · rw [h2]; simp

theorem singular_unique (k : Nat) {x y : List UInt8} (h : x ++ singular k ++ y = fibWord (k + 4)) :
    x.length = (fibWord (k + 2)).length - 1 := by
  have e2 : fibWord (k + 2) = fibWord (k + 1) ++ fibWord k := rfl
  have e3 : fibWord (k + 3) = fibWord (k + 2) ++ fibWord (k + 1) := rfl
  have e4 : fibWord (k + 4) = fibWord (k + 3) ++ fibWord (k + 2) := rfl
  have h2le : 2 ≤ (fibWord (k + 2)).length := fib_two_le (k + 1)
  by_contra hne
  have hs := singular_length k
  rcases Nat.lt_or_ge x.length ((fibWord (k + 2)).length - 1) with hlt | hge
  · obtain ⟨q, a, b, g1, g2, -⟩ := fib_near (k + 1)
    -- inside `A q`
    have hW : fibWord (k + 1) ++ q <+: fibWord (k + 1) ++ (fibWord (k + 1) ++ q) := by
      rw [List.prefix_append_right_inj]
      have p1 : q <+: fibWord (k + 3) := by rw [e3]; exact ⟨[b, a] ++ fibWord (k + 1), by rw [show k + 2 = k + 1 + 1 from rfl, g1]; simp⟩
      have p2 : fibWord (k + 1) ++ q <+: fibWord (k + 3) := ⟨[a, b], g2.symm⟩
      exact List.prefix_of_prefix_length_le p1 p2 (by simp)
    have hl : (fibWord (k + 2)).length = q.length + 2 := by rw [show k + 2 = k + 1 + 1 from rfl, g1]; simp
    obtain ⟨z, hz⟩ := split_of_le (a := fibWord (k + 1) ++ q) (b := [a, b] ++ fibWord (k + 2))
      (h.trans (by rw [e4]; show fibWord (k + 1 + 2) ++ _ = _; rw [g2]; simp)) (by simp; omega)
    exact singular_count k (window_count hW hz hs 98)
  · have hW : fibWord (k + 1) ++ fibWord (k + 2) <+: fibWord (k + 1) ++ (fibWord (k + 1) ++ fibWord (k + 2)) := by
      obtain ⟨r, hr⟩ := fib_prefix k
      rw [List.prefix_append_right_inj]
      conv_lhs => rw [e2]
      rw [List.prefix_append_right_inj]
      exact ⟨r ++ fibWord k, by rw [e2, hr]; simp⟩
    have h' : x ++ singular k ++ y = fibWord (k + 2) ++ (fibWord (k + 1) ++ fibWord (k + 2)) := by
      rw [h, e4, e3]; simp
    obtain ⟨u, v, huv⟩ := infix_of_pos h' (by omega)
    exact singular_count k (window_count hW huv hs 98)

/-- The words strictly inside: every factor that contains neither of the two intervals repeats. -/
theorem fib_repeats (k : Nat) {x v y : List UInt8} (h : x ++ v ++ y = fibWord (k + 4))
    (hM1 : (fibWord (k + 2)).length ≤ x.length ∨ x.length + v.length + 2 ≤ (fibWord (k + 3)).length)
    (hM2 : (fibWord (k + 3)).length ≤ x.length ∨ x.length + v.length + 2 ≤ (fibWord (k + 4)).length) :
    Repeats v (fibWord (k + 4)) := by
  have e3 : fibWord (k + 3) = fibWord (k + 2) ++ fibWord (k + 1) := rfl
  have e4 : fibWord (k + 4) = fibWord (k + 3) ++ fibWord (k + 2) := rfl
  obtain ⟨q, a, b, g1, g2, -⟩ := fib_near (k + 2)
  have h2le : 2 ≤ (fibWord (k + 2)).length := fib_two_le (k + 1)
  have h3le : 2 ≤ (fibWord (k + 3)).length := fib_two_le (k + 2)
  have hl3 : (fibWord (k + 3)).length = q.length + 2 := by rw [show k + 3 = k + 2 + 1 from rfl, g1]; simp
  have hl4 : (fibWord (k + 4)).length = (fibWord (k + 3)).length + (fibWord (k + 2)).length := by rw [e4]; simp
  have g2' : fibWord (k + 4) = fibWord (k + 2) ++ q ++ [a, b] := g2
  have g1' : fibWord (k + 4) = q ++ ([b, a] ++ fibWord (k + 2)) := by
    rw [e4, show k + 3 = k + 2 + 1 from rfl, g1]; simp
  have hlen := congrArg List.length h
  simp only [List.length_append] at hlen
  by_cases c1 : (fibWord (k + 3)).length ≤ x.length
  · -- inside the last `f_{k+2}`
    obtain ⟨c, hc⟩ : ∃ c, x = fibWord (k + 3) ++ c := by
      have : fibWord (k + 3) <+: x := List.prefix_of_prefix_length_le (l₃ := fibWord (k + 4))
        ⟨_, e4.symm⟩ ⟨v ++ y, by rw [← h]; simp⟩ c1
      obtain ⟨c, hc⟩ := this; exact ⟨c, hc.symm⟩
    have hin : c ++ v ++ y = fibWord (k + 2) := by
      rw [hc, e4] at h; simpa using h
    refine ⟨x.length, c.length, ?_, occursAt_iff.2 ⟨x, y, h, rfl⟩,
      occursAt_iff.2 ⟨c, y ++ fibWord (k + 1) ++ fibWord (k + 2), ?_, rfl⟩⟩
    · rw [hc, List.length_append]; omega
    · rw [e4, e3]
      conv_rhs => rw [← hin]
      rw [← hin]; simp
  by_cases c2 : x.length + v.length + 2 ≤ (fibWord (k + 3)).length
  · -- inside the prefix `q`
    obtain ⟨z, hz⟩ := split_of_le (h.trans g1') (by omega)
    refine ⟨x.length, (fibWord (k + 2) ++ x).length, ?_, occursAt_iff.2 ⟨x, y, h, rfl⟩,
      occursAt_iff.2 ⟨fibWord (k + 2) ++ x, z ++ [a, b], ?_, rfl⟩⟩
    · rw [List.length_append]; omega
    · rw [g2', ← hz]; simp
  · have c3 : (fibWord (k + 2)).length ≤ x.length := by omega
    obtain ⟨c, hc⟩ : ∃ c, x = fibWord (k + 2) ++ c := by
      have : fibWord (k + 2) <+: x := List.prefix_of_prefix_length_le (l₃ := fibWord (k + 4))
        ⟨fibWord (k + 1) ++ fibWord (k + 2), by rw [e4, e3]; simp⟩ ⟨v ++ y, by rw [← h]; simp⟩ c3
      obtain ⟨c, hc⟩ := this; exact ⟨c, hc.symm⟩
    have hin : c ++ v ++ y = q ++ [a, b] := by
      rw [hc, g2'] at h; simpa using h
    have hcl : x.length = (fibWord (k + 2)).length + c.length := by rw [hc]; simp
    obtain ⟨z, hz⟩ := split_of_le hin (by omega)
    refine ⟨x.length, c.length, by omega, occursAt_iff.2 ⟨x, y, h, rfl⟩,
      occursAt_iff.2 ⟨c, z ++ ([b, a] ++ fibWord (k + 2)), ?_, rfl⟩⟩
    rw [g1', ← hz]; simp

/-- The second unique word. -/
theorem singular_unique' (k : Nat) {x y : List UInt8} (h : x ++ singular (k + 1) ++ y = fibWord (k + 4)) :
    x.length = (fibWord (k + 3)).length - 1 := by
  have e5 : fibWord (k + 1 + 4) = fibWord (k + 4) ++ fibWord (k + 3) := rfl
  exact singular_unique (k + 1) (x := x) (y := y ++ fibWord (k + 3)) (by rw [e5, ← h]; simp)

theorem singular_occ' (k : Nat) : ∃ x y, x ++ singular (k + 1) ++ y = fibWord (k + 4) ∧
    x.length = (fibWord (k + 3)).length - 1 := by
  have e4 : fibWord (k + 4) = fibWord (k + 3) ++ fibWord (k + 2) := rfl
  obtain ⟨q, x, y, h1, h2, h3⟩ := fib_near (k + 1)
  refine ⟨fibWord (k + 1) ++ q ++ [x], [x], ?_, ?_⟩
  · rw [e4, singular, h1, show fibWord (k + 3) = fibWord (k + 1 + 2) from rfl, h2]
    simp [List.getLast?_append]
  · rw [show k + 3 = k + 1 + 2 from rfl, h2]; simp

theorem take_drop_of_occ {T x v y : List UInt8} (h : x ++ v ++ y = T) : (T.drop x.length).take v.length = v := by
  subst h; simp

theorem not_repeats_of_unique {T v : List UInt8} {p : Nat} (hu : ∀ x y, x ++ v ++ y = T → x.length = p) :
    ¬ Repeats v T := by
  rintro ⟨i, j, hij, hi, hj⟩
  obtain ⟨x, y, h1, rfl⟩ := occursAt_iff.1 hi
  obtain ⟨x', y', h1', rfl⟩ := occursAt_iff.1 hj
  exact hij ((hu _ _ h1).trans (hu _ _ h1').symm)

/-- The minimal unique substrings of a Fibonacci word. -/
theorem fib_mus (k i l : Nat) : IsMus (fibWord (k + 4)) i l ↔
    (i, l) = ((fibWord (k + 2)).length - 1, (fibWord (k + 1)).length) ∨
      (i, l) = ((fibWord (k + 3)).length - 1, (fibWord (k + 2)).length) := by
  have e3 : fibWord (k + 3) = fibWord (k + 2) ++ fibWord (k + 1) := rfl
  have e4 : fibWord (k + 4) = fibWord (k + 3) ++ fibWord (k + 2) := rfl
  have hl3 : (fibWord (k + 3)).length = (fibWord (k + 2)).length + (fibWord (k + 1)).length := by rw [e3]; simp
  have hl4 : (fibWord (k + 4)).length = (fibWord (k + 3)).length + (fibWord (k + 2)).length := by rw [e4]; simp
  have b1 := fib_two_le k
  have b2 := fib_two_le (k + 1)
  have b2' : 2 ≤ (fibWord (k + 2)).length := b2
  have s1 := singular_length k
  have s2 : (singular (k + 1)).length = (fibWord (k + 2)).length := singular_length (k + 1)
  obtain ⟨x1, y1, o1, p1⟩ := singular_occ k
  obtain ⟨x2, y2, o2, p2⟩ := singular_occ' k
  have n1 := not_repeats_of_unique (fun x y => singular_unique k (x := x) (y := y))
  have n2 := not_repeats_of_unique (fun x y => singular_unique' k (x := x) (y := y))
  have w1 : (((fibWord (k + 4)).drop ((fibWord (k + 2)).length - 1)).take (fibWord (k + 1)).length) = singular k := by
    rw [← p1, ← s1]; exact take_drop_of_occ o1
  have w2 : (((fibWord (k + 4)).drop ((fibWord (k + 3)).length - 1)).take (fibWord (k + 2)).length) = singular (k + 1) := by
    rw [← p2, ← s2]; exact take_drop_of_occ o2
  constructor
  · rintro ⟨h0, hle, huniq, hmin⟩
    generalize hT : fibWord (k + 4) = T at *
    have hocc : T.take i ++ (T.drop i).take l ++ T.drop (i + l) = T := by
      rw [List.append_assoc, ← List.drop_drop, List.take_append_drop, List.take_append_drop]
    have hxl : (T.take i).length = i := by simp; omega
    have hvl : ((T.drop i).take l).length = l := by simp; omega
    have hnr : ¬ Repeats ((T.drop i).take l) T := by
      rintro ⟨a, b, hab, ha, hb⟩
      exact hab ((huniq a ha).trans (huniq b hb).symm)
    have hor : (i ≤ (fibWord (k + 2)).length - 1 ∧ (fibWord (k + 2)).length - 1 + (fibWord (k + 1)).length ≤ i + l) ∨
        (i ≤ (fibWord (k + 3)).length - 1 ∧ (fibWord (k + 3)).length - 1 + (fibWord (k + 2)).length ≤ i + l) := by
      by_contra hc
      apply hnr
      subst hT
      refine fib_repeats k hocc ?_ ?_ <;> rw [hxl, hvl] <;> omega
    have key : ∀ p m s, (T.drop p).take m = s → p + m ≤ T.length → 0 < m → ¬ Repeats s T → i ≤ p → p + m ≤ i + l →
        (i, l) = (p, m) := by
      intro p m s hs hpm hm hr hip hil
      have hinf : s <:+: (T.drop i).take l := by
        refine ⟨(T.drop i).take (p - i), (T.drop (p + m)).take (i + l - (p + m)), ?_⟩
        rw [← hs]
        have e1 : T.drop p = (T.drop i).drop (p - i) := by rw [List.drop_drop]; congr 1; omega
        have e2 : T.drop (p + m) = ((T.drop i).drop (p - i)).drop m := by
          rw [List.drop_drop, List.drop_drop]; congr 1; omega
        have e3 : l = (p - i) + (m + (i + l - (p + m))) := by omega
        conv_rhs => rw [e3, List.take_add, List.take_add]
        rw [e1, e2, List.append_assoc]
      have hsl : s.length = m := by rw [← hs]; simp; omega
      by_cases he : s = (T.drop i).take l
      · have hml : m = l := by rw [← hsl, he, hvl]
        have : p = i := huniq p (by
          rw [← he, ← hs]
          exact ⟨by simp; omega, List.take_prefix _ _⟩)
        rw [this, hml]
      · exact absurd (hmin s hinf he (by rintro rfl; simp at hsl; omega)) hr
    rcases hor with ⟨c1, c2⟩ | ⟨c1, c2⟩
    · exact Or.inl (key _ _ _ w1 (by omega) (by omega) n1 c1 c2)
    · exact Or.inr (key _ _ _ w2 (by omega) (by omega) n2 c1 c2)
  · have key : ∀ s x y, x ++ s ++ y = fibWord (k + 4) → 0 < s.length →
        (∀ x' y', x' ++ s ++ y' = fibWord (k + 4) → x'.length = x.length) →
        (∀ u v w, u ++ v ++ w = s → v ≠ s → Repeats v (fibWord (k + 4))) → IsMus (fibWord (k + 4)) x.length s.length := by
      intro s x y h hpos hu hr
      refine ⟨hpos, by rw [← h]; simp, ?_, ?_⟩
      · rw [take_drop_of_occ h]
        intro j hj
        obtain ⟨x', y', g, rfl⟩ := occursAt_iff.1 hj
        exact hu x' y' g
      · rw [take_drop_of_occ h]
        rintro v ⟨u, w, huw⟩ hv -
        exact hr u v w huw hv
    have hsub : ∀ s x y u v w : List UInt8, x ++ s ++ y = fibWord (k + 4) → u ++ v ++ w = s → v ≠ s →
        (x ++ u) ++ v ++ (w ++ y) = fibWord (k + 4) ∧ (0 < u.length ∨ 0 < w.length) ∧
          u.length + v.length + w.length = s.length := by
      intro s x y u v w h huw hv
      refine ⟨by rw [← h, ← huw]; simp, ?_, by rw [← huw]; simp [Nat.add_assoc]⟩
      by_contra hc
      push Not at hc
      have hu : u = [] := List.length_eq_zero_iff.1 (by omega)
      have hw : w = [] := List.length_eq_zero_iff.1 (by omega)
      apply hv; rw [← huw, hu, hw]; simp
    rintro (h | h)
    · injection h with h1 h2
      rw [h1, h2, ← p1, ← s1]
      refine key _ _ _ o1 (by omega) (fun x' y' g => by rw [singular_unique k g, p1]) ?_
      intro u v w huw hv
      obtain ⟨g1, g2, g3⟩ := hsub _ _ _ u v w o1 huw hv
      refine fib_repeats k g1 ?_ ?_ <;> rw [List.length_append] <;> omega
    · injection h with h1 h2
      rw [h1, h2, ← p2, ← s2]
      refine key _ _ _ o2 (by omega) (fun x' y' g => by rw [singular_unique' k g, p2]) ?_
      intro u v w huw hv
      obtain ⟨g1, g2, g3⟩ := hsub _ _ _ u v w o2 huw hv
      refine fib_repeats k g1 ?_ ?_ <;> rw [List.length_append] <;> omega

end Verif
