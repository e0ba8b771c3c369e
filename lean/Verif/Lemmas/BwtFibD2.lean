import Verif.Lemmas.BwtFibD

namespace Verif

open Spec Model

theorem fibE_all (j : Nat) : let w := iter fibMor (2 + 2 * j) [97]
    FibOk w ∧ (∃ w1, w = w1 ++ [98, 97]) ∧ 3 ≤ w.length ∧
    ∃ n m, 0 < n ∧ 0 < m ∧ bw (w ++ [0]) = 97 :: (List.replicate n 98 ++ 0 :: List.replicate m 97) := by
  induction j with
  | zero =>
    have e : bw (iter fibMor (2 + 2 * 0) [97] ++ [0]) = [97, 98, 0, 97] :=
      bw_of_matrix (m := [[0, 97, 98, 97], [97, 0, 97, 98], [97, 98, 97, 0], [98, 97, 0, 97]]) (by decide +kernel) (by decide +kernel)
    exact ⟨fibOk_step [97], ⟨[97], rfl⟩, by decide, 1, 1, by decide, by decide, e⟩
  | succ j ih =>
    obtain ⟨h1, ⟨w1, h2⟩, h3, n, m, hn, hm, h4⟩ := ih
    obtain ⟨N, M, T, hM, g1, g2⟩ := fib2_even h1 h2 h3
    have hT : T = List.replicate n 98 ++ 0 :: List.replicate m 97 := by rw [h4] at g1; simpa using g1.symm
    rw [fib2_fib h1.1, hT] at g2
    intro w
    have hw : w = ((iter fibMor (2 + 2 * j) [97]).flatMap fibMor).flatMap fibMor := rfl
    clear_value w
    subst hw
    have hl1 := fib_length_le (iter fibMor (2 + 2 * j) [97])
    have hl2 := fib_length_le ((iter fibMor (2 + 2 * j) [97]).flatMap fibMor)
    refine ⟨fibOk_step _, ⟨(w1.flatMap fibMor).flatMap fibMor ++ [97, 98, 97], ?_⟩, by omega, N + n, m + M, by omega, by omega, ?_⟩
    · rw [h2]; simp [fibMor]
    · rw [g2]
      simp only [List.replicate_add, List.append_assoc, List.cons_append]

theorem fibO_all (j : Nat) : let w := iter fibMor (5 + 2 * j) [97]
    FibOk w ∧ (∃ w1, w = w1 ++ [97, 97, 98]) ∧
    ∃ n m, 0 < n ∧ seg (w ++ [0]) [97, 97, 98] = List.replicate n 98 ∧
      seg (w ++ [0]) [98, 97] = List.replicate m 97 ∧
      (seg (w ++ [0]) [97, 98, 97]).head? = some 97 ∧ (seg (w ++ [0]) [97, 98, 97]).getLast? = some 97 ∧
      nr (seg (w ++ [0]) [97, 98, 97]) = 4 + 2 * j := by
  induction j with
  | zero =>
    have hm : matrix (iter fibMor 3 [97] ++ [0]) = [[0, 97, 98, 97, 97, 98], [97, 97, 98, 0, 97, 98], [97, 98, 0, 97, 98, 97],
        [97, 98, 97, 97, 98, 0], [98, 0, 97, 98, 97, 97], [98, 97, 97, 98, 0, 97]] :=
      matrix_unique ⟨by decide +kernel, by decide +kernel⟩
    have s1 : seg (iter fibMor 3 [97] ++ [0]) [97, 97, 98] = [98] := by
      rw [seg, rowsP_of_groups hm]; decide +kernel
    have s2 : seg (iter fibMor 3 [97] ++ [0]) [97, 98, 97] = [0] := by
      rw [seg, rowsP_of_groups hm]; decide +kernel
    have s3 : seg (iter fibMor 3 [97] ++ [0]) [98, 97] = [97] := by
      rw [seg, rowsP_of_groups hm]; decide +kernel
    obtain ⟨N, M, hN, g1, g2, g3, g4⟩ := fib2_odd (w := iter fibMor 3 [97]) (w1 := [97, 98]) (fibOk_step [97, 98]) rfl
    rw [fib2_fib (fib_iter_ab 3)] at g2 g3 g4
    rw [s1, s2, s3] at g3
    refine ⟨fibOk_step _, ⟨[97, 98, 97, 97, 98, 97, 98, 97, 97, 98], rfl⟩, N, M, hN, g2, g4, ?_, ?_, ?_⟩
    · exact (congrArg List.head? g3).trans rfl
    · exact (congrArg List.getLast? g3).trans rfl
    · exact (congrArg nr g3).trans rfl
  | succ j ih =>
    obtain ⟨h1, ⟨w1, h2⟩, n, m, hn, a1, a2, a3, a4, a5⟩ := ih
    obtain ⟨N, M, hN, g1, g2, g3, g4⟩ := fib2_odd h1 h2
    rw [fib2_fib h1.1] at g2 g3 g4
    intro w
    have hw : w = ((iter fibMor (5 + 2 * j) [97]).flatMap fibMor).flatMap fibMor := rfl
    clear_value w
    subst hw
    refine ⟨fibOk_step _, ⟨(w1.flatMap fibMor).flatMap fibMor ++ [97, 98, 97, 97, 98], ?_⟩, N, M, hN, g2, g4, ?_, ?_, ?_⟩
    · rw [h2]; simp [fibMor]
    · rw [g3]; rfl
    · rw [g3, a1, a2, ← List.singleton_append]
      refine last_append (last_append ?_)
      rcases Nat.eq_zero_or_pos m with rfl | hm
      · simpa using a4
      · exact last_append (last_replicate _ hm)
    · rw [g3, a1, a2]
      generalize seg (iter fibMor (5 + 2 * j) [97] ++ [0]) [97, 98, 97] = T at *
      have tne := ne_nil_of_head a3
      have f1 : nr (T ++ List.replicate m 97) = 4 + 2 * j := by
        rcases Nat.eq_zero_or_pos m with rfl | hm
        · simpa using a5
        · have := nr_append_eq tne (ne_nil_of_head (head_replicate 97 hm)) (by rw [a4, head_replicate _ hm])
          rw [nr_replicate _ hm] at this; omega
      rw [← List.singleton_append, nr_append_ne (by simp) (by simp [tne]), nr_append_ne (by simp; omega) (by simp [tne]), f1,
        nr_replicate _ hn]
      · simp only [nr]; omega
      · rw [last_replicate _ hn, head_append a3]; decide
      · rw [head_append (head_replicate _ hn)]; decide

/-- The transform of the Fibonacci words of even order with the sentinel. -/
theorem fibD_even {k : Nat} (hk : 2 ≤ k) (h : k % 2 = 0) : nr (bw (iter fibMor k [97] ++ [0])) = 4 := by
  obtain ⟨j, rfl⟩ : ∃ j, k = 2 + 2 * j := ⟨(k - 2) / 2, by omega⟩
  obtain ⟨-, -, -, n, m, hn, hm, e⟩ := fibE_all j
  rw [e, ← List.singleton_append, nr_append_ne (by simp) (by simp), nr_append_ne (by simp; omega) (by simp), nr_replicate _ hn,
    ← List.singleton_append (x := 0), nr_append_ne (by simp) (by simp; omega), nr_replicate _ hm]
  · rfl
  · rw [head_replicate _ hm]; decide
  · rw [last_replicate _ hn]; simp
  · rw [head_append (head_replicate _ hn)]; decide

/-- The transform of the Fibonacci words of odd order with the sentinel. -/
theorem fibD_odd {k : Nat} (hk : 5 ≤ k) (h : k % 2 = 1) : nr (bw (iter fibMor k [97] ++ [0])) = k := by
  obtain ⟨j, rfl⟩ : ∃ j, k = 5 + 2 * j := ⟨(k - 5) / 2, by omega⟩
  obtain ⟨h1, ⟨w1, h2⟩, n, m, hn, a1, a2, a3, a4, a5⟩ := fibO_all j
  obtain ⟨-, -, -, g1, -⟩ := fib2_odd h1 h2
  rw [g1, a1, a2]
  generalize seg (iter fibMor (5 + 2 * j) [97] ++ [0]) [97, 98, 97] = T at *
  have tne := ne_nil_of_head a3
  have e1 : (97 :: List.replicate m 97 : List UInt8) = List.replicate (m + 1) 97 := rfl
  have e2 : (98 : UInt8) :: (List.replicate n 98 ++ (97 :: (T ++ 97 :: List.replicate m 97))) =
      List.replicate (n + 1) 98 ++ (([97] ++ T) ++ List.replicate (m + 1) 97) := by
    rw [List.replicate_succ, List.replicate_succ]; simp
  rw [e2]
  have f1 := nr_append_eq (p := [97]) (q := T) (by simp) tne (by rw [a3]; rfl)
  have f2 := nr_append_eq (p := [97] ++ T) (q := List.replicate (m + 1) 97) (by simp) (by simp) (by
    rw [head_replicate _ (by omega)]; exact last_append a4)
  rw [nr_replicate _ (by omega)] at f2
  rw [nr_append_ne (by simp) (by simp), nr_replicate _ (by omega)]
  · have e : nr [97] = 1 := rfl
    omega
  · rw [last_replicate _ (by omega)]; simp

end Verif
