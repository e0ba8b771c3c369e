import Verif.Lemmas.BwtPdD

/-! # Period-doubling words with the sentinel: the number of runs -/

namespace Verif

open Spec Model

theorem nr_glueL {q : List UInt8} {n : Nat} {c : UInt8} (h : q.head? = some c) : nr (List.replicate n c ++ q) = nr q := by
  rcases Nat.eq_zero_or_pos n with rfl | hn
  · simp
  · have := nr_append_eq (p := List.replicate n c) (q := q) (ne_nil_of_head (head_replicate c hn)) (ne_nil_of_head h)
      (by rw [last_replicate _ hn, h])
    rw [nr_replicate _ hn] at this; omega

theorem nr_glueR {q : List UInt8} {n : Nat} {c : UInt8} (hq : q ≠ []) (h : q.getLast? = some c) : nr (q ++ List.replicate n c) = nr q := by
  rcases Nat.eq_zero_or_pos n with rfl | hn
  · simp
  · have := nr_append_eq (p := q) (q := List.replicate n c) hq (ne_nil_of_head (head_replicate c hn))
      (by rw [head_replicate _ hn, h])
    rw [nr_replicate _ hn] at this; omega

theorem pd_suffix_even (v : List UInt8) : ∃ w1, (((v ++ [97, 97]).flatMap pdMor).flatMap pdMor) = w1 ++ [97, 97] :=
  ⟨((v ++ [97]).flatMap pdMor).flatMap pdMor ++ [97, 98], by simp [pdMor]⟩

theorem pd_suffix_odd (v : List UInt8) : ∃ w1, (((v ++ [97, 98]).flatMap pdMor).flatMap pdMor) = w1 ++ [97, 98] :=
  ⟨((v ++ [97]).flatMap pdMor).flatMap pdMor ++ [97, 98], by simp [pdMor]⟩

theorem pdE_all (j : Nat) : let w := iter pdMor (4 + 2 * j) [97]
    (∀ c ∈ w, IsAb c) ∧ NoBB w ∧ (∃ w1, w = w1 ++ [97, 97]) ∧
    ∃ M A, 0 < M ∧ seg (w ++ [0]) [98, 97] = List.replicate M 97 ∧
      seg (w ++ [0]) [97, 0] ++ (seg (w ++ [0]) [97, 97] ++ seg (w ++ [0]) [97, 98]) = A ∧
      A.head? = some 97 ∧ A.getLast? = some 97 ∧ 98 ∈ A ∧ nr A = 7 + 4 * j := by
  induction j with
  | zero =>
    have hm : matrix (iter pdMor 4 [97] ++ [0]) = [[0, 97, 98, 97, 97, 97, 98, 97, 98, 97, 98, 97, 97, 97, 98, 97, 97], [97, 0, 97, 98, 97, 97, 97, 98, 97, 98, 97, 98, 97, 97, 97, 98, 97], [97, 97, 0, 97, 98, 97, 97, 97, 98, 97, 98, 97, 98, 97, 97, 97, 98], [97, 97, 97, 98, 97, 97, 0, 97, 98, 97, 97, 97, 98, 97, 98, 97, 98], [97, 97, 97, 98, 97, 98, 97, 98, 97, 97, 97, 98, 97, 97, 0, 97, 98], [97, 97, 98, 97, 97, 0, 97, 98, 97, 97, 97, 98, 97, 98, 97, 98, 97], [97, 97, 98, 97, 98, 97, 98, 97, 97, 97, 98, 97, 97, 0, 97, 98, 97], [97, 98, 97, 97, 0, 97, 98, 97, 97, 97, 98, 97, 98, 97, 98, 97, 97], [97, 98, 97, 97, 97, 98, 97, 97, 0, 97, 98, 97, 97, 97, 98, 97, 98], [97, 98, 97, 97, 97, 98, 97, 98, 97, 98, 97, 97, 97, 98, 97, 97, 0], [97, 98, 97, 98, 97, 97, 97, 98, 97, 97, 0, 97, 98, 97, 97, 97, 98], [97, 98, 97, 98, 97, 98, 97, 97, 97, 98, 97, 97, 0, 97, 98, 97, 97], [98, 97, 97, 0, 97, 98, 97, 97, 97, 98, 97, 98, 97, 98, 97, 97, 97], [98, 97, 97, 97, 98, 97, 97, 0, 97, 98, 97, 97, 97, 98, 97, 98, 97], [98, 97, 97, 97, 98, 97, 98, 97, 98, 97, 97, 97, 98, 97, 97, 0, 97], [98, 97, 98, 97, 97, 97, 98, 97, 97, 0, 97, 98, 97, 97, 97, 98, 97], [98, 97, 98, 97, 98, 97, 97, 97, 98, 97, 97, 0, 97, 98, 97, 97, 97]] :=
      matrix_unique ⟨by decide +kernel, by decide +kernel⟩
    have s1 : seg (iter pdMor 4 [97] ++ [0]) [98, 97] = [97, 97, 97, 97, 97] := by
      rw [seg, rowsP_of_groups hm]; decide +kernel
    have s2 : seg (iter pdMor 4 [97] ++ [0]) [97, 0] = [97] := by
      rw [seg, rowsP_of_groups hm]; decide +kernel
    have s3 : seg (iter pdMor 4 [97] ++ [0]) [97, 97] = [98, 98, 98, 97, 97] := by
      rw [seg, rowsP_of_groups hm]; decide +kernel
    have s4 : seg (iter pdMor 4 [97] ++ [0]) [97, 98] = [97, 98, 0, 98, 97] := by
      rw [seg, rowsP_of_groups hm]; decide +kernel
    refine ⟨pd_flatMap_ab, noBB_pd _, ⟨(iter pdMor 4 [97]).take 14, by decide⟩, 5, _, by decide, s1, rfl, ?_, ?_, ?_, ?_⟩ <;>
      rw [s2, s3, s4] <;> decide
  | succ j ih =>
    obtain ⟨h1, h2, ⟨w1, h3⟩, M, A, hM, a1, a2, a3, a4, a5, a6⟩ := ih
    obtain ⟨N, N', M', A', hN, hM', g0, -, g2, g3, g4, g5⟩ := pd2_even h1 h2 h3 a1
    obtain rfl : A' = A := g0.symm.trans a2
    rw [pd2_pd h1] at g2 g3 g4 g5
    intro w
    have hw : w = ((iter pdMor (4 + 2 * j) [97]).flatMap pdMor).flatMap pdMor := rfl
    clear_value w
    subst hw
    refine ⟨pd_flatMap_ab, noBB_pd _, by rw [h3]; exact pd_suffix_even _, M', _, hM', g5, rfl, ?_, ?_, ?_, ?_⟩
    · rw [g2]; rfl
    · rw [g4]; exact last_append (last_append (last_append (last_append (last_replicate _ hM))))
    · rw [g3]; simp only [List.mem_append, List.mem_replicate]; exact Or.inr (Or.inl (Or.inl ⟨by omega, trivial⟩))
    · rw [g2, g3, g4]
      have hc : 0 < A'.count 98 := List.count_pos_iff.2 a5
      have hA := ne_nil_of_head a3
      have e : ([97] ++ (List.replicate N 98 ++ List.replicate N' 97 ++ (A' ++ (List.replicate (A'.count 98) 98 ++ List.replicate M 97)))) =
          [97] ++ (List.replicate N 98 ++ ((List.replicate N' 97 ++ A') ++ (List.replicate (A'.count 98) 98 ++ List.replicate M 97))) := by simp
      have hT : (List.replicate N' 97 ++ A').head? = some 97 := by
        cases N' with
        | zero => simpa using a3
        | succ n => rfl
      have hn := nr_glueL (n := N') a3
      have hl : (List.replicate N' 97 ++ A').getLast? = some 97 := last_append a4
      rw [e]
      generalize List.replicate N' 97 ++ A' = T at *
      have tne := ne_nil_of_head hT
      rw [nr_append_ne (by simp) (by simp [tne]), nr_append_ne (by simp; omega) (by simp [tne]), nr_append_ne tne (by simp; omega),
        nr_two hc hM, hn, nr_replicate _ hN, a6]
      · have : nr [97] = 1 := rfl
        omega
      · rw [hl, head_append (head_replicate _ hc)]; decide
      · rw [last_replicate _ hN, head_append hT]; decide
      · rw [head_append (head_replicate _ hN)]; decide

theorem pdO_all (j : Nat) : let w := iter pdMor (3 + 2 * j) [97]
    (∀ c ∈ w, IsAb c) ∧ NoBB w ∧ (∃ w1, w = w1 ++ [97, 98]) ∧
    ∃ M A, 0 < M ∧ seg (w ++ [0]) [98, 97] = List.replicate M 97 ∧
      seg (w ++ [0]) [97, 97] ++ seg (w ++ [0]) [97, 98] = A ∧
      A.head? = some 98 ∧ A.getLast? = some 97 ∧ nr A = 5 + 4 * j := by
  induction j with
  | zero =>
    have hm : matrix (iter pdMor 3 [97] ++ [0]) = [[0, 97, 98, 97, 97, 97, 98, 97, 98], [97, 97, 97, 98, 97, 98, 0, 97, 98], [97, 97, 98, 97, 98, 0, 97, 98, 97], [97, 98, 0, 97, 98, 97, 97, 97, 98], [97, 98, 97, 97, 97, 98, 97, 98, 0], [97, 98, 97, 98, 0, 97, 98, 97, 97], [98, 0, 97, 98, 97, 97, 97, 98, 97], [98, 97, 97, 97, 98, 97, 98, 0, 97], [98, 97, 98, 0, 97, 98, 97, 97, 97]] :=
      matrix_unique ⟨by decide +kernel, by decide +kernel⟩
    have s1 : seg (iter pdMor 3 [97] ++ [0]) [98, 97] = [97, 97] := by
      rw [seg, rowsP_of_groups hm]; decide +kernel
    have s3 : seg (iter pdMor 3 [97] ++ [0]) [97, 97] = [98, 97] := by
      rw [seg, rowsP_of_groups hm]; decide +kernel
    have s4 : seg (iter pdMor 3 [97] ++ [0]) [97, 98] = [98, 0, 97] := by
      rw [seg, rowsP_of_groups hm]; decide +kernel
    refine ⟨pd_flatMap_ab, noBB_pd _, ⟨(iter pdMor 3 [97]).take 6, by decide⟩, 2, _, by decide, s1, rfl, ?_, ?_, ?_⟩ <;>
      rw [s3, s4] <;> decide
  | succ j ih =>
    obtain ⟨h1, h2, ⟨w1, h3⟩, M, A, hM, a1, a2, a3, a4, a6⟩ := ih
    obtain ⟨N, N', M', A', hN, hN', hM', g0, -, g3, g4, g5⟩ := pd2_odd h1 h2 h3 a1
    obtain rfl : A' = A := g0.symm.trans a2
    rw [pd2_pd h1] at g3 g4 g5
    intro w
    have hw : w = ((iter pdMor (3 + 2 * j) [97]).flatMap pdMor).flatMap pdMor := rfl
    clear_value w
    subst hw
    refine ⟨pd_flatMap_ab, noBB_pd _, by rw [h3]; exact pd_suffix_odd _, M', _, hM', g5, rfl, ?_, ?_, ?_⟩
    · rw [g3]; exact head_append (head_append (head_replicate _ hN))
    · rw [g4]
      exact last_append (last_append (p := [98]) (last_append (last_append (p := [97]) (last_append (last_replicate _ hM)))))
    · rw [g3, g4]
      have hA := ne_nil_of_head a3
      have hc : 0 < A'.count 98 := List.count_pos_iff.2 (by
        cases A' with
        | nil => simp at hA
        | cons x t => simp at a3; simp [a3])
      have e : ((List.replicate N 98 ++ List.replicate N' 97) ++ (98 :: (A' ++ 97 :: (List.replicate (A'.count 98) 98 ++ List.replicate M 97)))) =
          (List.replicate N 98 ++ List.replicate N' 97) ++ ((List.replicate 1 98 ++ (A' ++ List.replicate 1 97)) ++ (List.replicate (A'.count 98) 98 ++ List.replicate M 97)) := by simp
      have h4 : (A' ++ List.replicate 1 97).head? = some 98 := head_append a3
      have hn : nr (List.replicate 1 98 ++ (A' ++ List.replicate 1 97)) = nr A' := by
        rw [nr_glueL h4, nr_glueR hA a4]
      have hT : (List.replicate 1 98 ++ (A' ++ List.replicate 1 97)).head? = some 98 := rfl
      have hl : (List.replicate 1 98 ++ (A' ++ List.replicate 1 97)).getLast? = some 97 := last_append (last_append rfl)
      rw [e]
      generalize List.replicate 1 98 ++ (A' ++ List.replicate 1 97) = T at *
      have tne := ne_nil_of_head hT
      rw [nr_append_ne (by simp; omega) (by simp [tne]), nr_append_ne tne (by simp; omega),
        nr_two hc hM, nr_two hN hN', hn, a6]
      · omega
      · rw [hl, head_append (head_replicate _ hc)]; decide
      · rw [last_append (last_replicate _ hN'), head_append hT]; decide

/-- The transform of the period-doubling words with the sentinel: `2 k - 1` runs from order 3 on. -/
theorem pdD_runs {k : Nat} (hk : 3 ≤ k) : nr (bw (iter pdMor k [97] ++ [0])) = 2 * k - 1 := by
  rcases Nat.mod_two_eq_zero_or_one k with h | h
  · obtain ⟨j, rfl⟩ : ∃ j, k = 4 + 2 * j := ⟨(k - 4) / 2, by omega⟩
    obtain ⟨h1, h2, ⟨w1, h3⟩, M, A, hM, a1, a2, a3, a4, a5, a6⟩ := pdE_all j
    obtain ⟨N, N', M', A', hN, hM', g0, g1, -⟩ := pd2_even h1 h2 h3 a1
    obtain rfl : A' = A := g0.symm.trans a2
    have hA := ne_nil_of_head a3
    rw [g1, show (97 : UInt8) :: (A' ++ List.replicate M 97) = List.replicate 1 97 ++ (A' ++ List.replicate M 97) from rfl,
      nr_glueL (head_append a3), nr_glueR hA a4]
    omega
  · obtain ⟨j, rfl⟩ : ∃ j, k = 3 + 2 * j := ⟨(k - 3) / 2, by omega⟩
    obtain ⟨h1, h2, ⟨w1, h3⟩, M, A, hM, a1, a2, a3, a4, a6⟩ := pdO_all j
    obtain ⟨N, N', M', A', hN, hN', hM', g0, g1, -⟩ := pd2_odd h1 h2 h3 a1
    obtain rfl : A' = A := g0.symm.trans a2
    have hA := ne_nil_of_head a3
    rw [g1, show (98 : UInt8) :: (A' ++ 97 :: List.replicate M 97) = List.replicate 1 98 ++ (A' ++ List.replicate (M + 1) 97) from rfl,
      nr_glueL (head_append a3), nr_glueR hA a4]
    omega

end Verif
