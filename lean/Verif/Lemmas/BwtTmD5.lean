import Verif.Lemmas.BwtTmD4

namespace Verif

open Spec Model

theorem seg_D {w : List UInt8} (hab : ∀ c ∈ w, IsAb c) (p : List UInt8) : ∀ c ∈ seg (w ++ [0]) p, IsD c := by
  intro c hc
  obtain ⟨v, hv, rfl⟩ := List.mem_map.1 hc
  exact row_last hab (mem_rowsP.1 hv).1

theorem nr_complD {t : List UInt8} (h : ∀ c ∈ t, IsD c) : nr (t.map complD) = nr t := by
  refine nr_map fun x hx y hy e => ?_
  rcases h x hx with rfl | rfl | rfl <;> rcases h y hy with rfl | rfl | rfl <;> first | rfl | exact absurd e (by decide)

/-- What the Thue--Morse words of even order satisfy. -/
def TmEven (k : Nat) (w : List UInt8) : Prop :=
  (∀ c ∈ w, IsAb c) ∧ NoXXX w ∧ (∃ w1, w = w1 ++ [98, 98, 97]) ∧
  ∃ sa, seg (w ++ [0]) [97] = 98 :: 98 :: sa ∧ (seg (w ++ [0]) [97]).getLast? = some 0 ∧
    (seg (w ++ [0]) [98]).head? = some 98 ∧ (seg (w ++ [0]) [98]).getLast? = some 97 ∧
    1 + nr (seg (w ++ [0]) [97]) + nr (seg (w ++ [0]) [98]) = 3 * k - 2 ∧ 1 ≤ k

/-- What the Thue--Morse words of odd order satisfy. -/
def TmOdd (k : Nat) (w : List UInt8) : Prop :=
  (∀ c ∈ w, IsAb c) ∧ NoXXX w ∧ (∃ w1, w = w1 ++ [97, 97, 98]) ∧
  seg (w ++ [0]) [0] = [98] ∧ (seg (w ++ [0]) [97]).head? = some 98 ∧ (seg (w ++ [0]) [97]).getLast? = some 0 ∧
    (seg (w ++ [0]) [98]).head? = some 97 ∧ (seg (w ++ [0]) [98]).getLast? = some 97 ∧
    nr (seg (w ++ [0]) [97]) + nr (seg (w ++ [0]) [98]) = 3 * k - 2 ∧ 1 ≤ k

theorem tm_flatMap_ab {w : List UInt8} (hab : ∀ c ∈ w, IsAb c) : ∀ c ∈ w.flatMap tmMor, IsAb c := by
  intro c hc
  obtain ⟨x, hx, hc⟩ := List.mem_flatMap.1 hc
  rw [tmMor_ab (hab x hx)] at hc
  simp at hc
  rcases hc with rfl | rfl
  · exact hab c hx
  · exact isAb_compl

theorem count_pos_of_head' {t : List UInt8} {c : UInt8} (h : t.head? = some c) : 0 < t.count c := by
  cases t with
  | nil => simp at h
  | cons x t => simp at h; subst h; simp

theorem tmEven_step {k : Nat} {w : List UInt8} (h : TmEven k w) :
    nr (bw (w ++ [0])) = 3 * k - 2 ∧ TmOdd (k + 1) (w.flatMap tmMor) := by
  obtain ⟨hab, hx, ⟨w1, hw⟩, sa, h1, h2, h3, h4, h5, hk⟩ := h
  obtain ⟨sa', e0, e1, e2, e3, e4, e5⟩ := tmD_step_even hab hx hw
  have hsa : sa' = 98 :: sa := by rw [h1] at e1; simpa using e1.symm
  have d97 := seg_D hab [97]
  have d98 := seg_D hab [98]
  rw [h1] at e3 h2 h5 d97
  rw [hsa] at e3
  generalize seg (w ++ [0]) [98] = sb at *
  have c8 := count_pos_of_head' h3
  have nsb : sb ≠ [] := ne_nil_of_head h3
  have nm : nr (sb.map complD) = nr sb := nr_complD d98
  have na : nr ((98 :: sa).map complD) = nr (98 :: sa) := nr_complD fun c hc => d97 c (by simp at hc ⊢; tauto)
  have na2 : nr (98 :: 98 :: sa) = nr (98 :: sa) := by simp [nr]
  have hm1 : (sb.map complD).head? = some 97 := by rw [List.head?_map, h3]; rfl
  have hm2 : (sb.map complD).getLast? = some 98 := by rw [List.getLast?_map, h4]; rfl
  have hq1 : ((98 :: sa).map complD).head? = some 97 := rfl
  have hq2 : ((98 :: sa).map complD).getLast? = some 0 := by
    rw [List.getLast?_cons_cons] at h2
    rw [List.getLast?_map, h2]; rfl
  have c7 : 0 < ((98 :: 98 :: sa) ++ sb).count 97 := by
    rw [List.count_append]
    have := List.count_pos_iff.2 (List.mem_of_getLast? h4)
    omega
  have c8' : 0 < (98 :: 98 :: sa).count 98 := count_pos_of_head' rfl
  refine ⟨?_, tm_flatMap_ab hab, tm_noXXX hab, ⟨w1.flatMap tmMor ++ [98, 97, 98], ?_⟩, e2, ?_, ?_, ?_, ?_, ?_, by omega⟩
  · rw [e5, e0, h1, nr_append_ne (by simp) nsb, nr_append_ne (by simp) (by simp) (by simp)]
    · rw [← h5]; rfl
    · rw [List.singleton_append, List.getLast?_cons_cons, h2, h3]; decide
  · rw [hw]; simp [tmMor]
  · rw [e3]; exact head_append (head_replicate _ c8')
  · rw [e3]
    refine last_append ?_
    rw [← List.singleton_append]
    exact last_append (last_append hq2)
  · rw [e4]; rfl
  · rw [e4, ← List.singleton_append, h1]
    exact last_append (last_append (last_replicate _ c7))
  · rw [e3, e4, h1]
    have f1 : nr (List.replicate (List.count 98 sb) 98 ++ (98 :: sa).map complD) = 1 + nr (98 :: sa) := by
      rw [nr_append_ne (ne_nil_of_head (head_replicate _ c8)) (by simp), nr_replicate _ c8, na]
      rw [last_replicate _ c8, hq1]; decide
    have f2 : nr (97 :: (List.replicate (List.count 98 sb) 98 ++ (98 :: sa).map complD)) = 2 + nr (98 :: sa) := by
      rw [← List.singleton_append, nr_append_ne (by simp) (by simp), f1]
      · simp only [nr]; omega
      · rw [head_append (head_replicate _ c8)]; decide
    have f3 : nr (List.replicate (List.count 98 (98 :: 98 :: sa)) 98 ++
        97 :: (List.replicate (List.count 98 sb) 98 ++ (98 :: sa).map complD)) = 3 + nr (98 :: sa) := by
      rw [nr_append_ne (ne_nil_of_head (head_replicate _ c8')) (by simp), nr_replicate _ c8', f2]
      · omega
      · rw [last_replicate _ c8']; simp
    have f4 : nr (sb.map complD ++ List.replicate (List.count 97 ((98 :: 98 :: sa) ++ sb)) 97) = nr sb + 1 := by
      rw [nr_append_ne (ne_nil_of_head hm1) (ne_nil_of_head (head_replicate _ c7)), nr_replicate _ c7, nm]
      rw [hm2, head_replicate _ c7]; decide
    have f5 := nr_append_eq (p := [97]) (q := sb.map complD ++ List.replicate (List.count 97 ((98 :: 98 :: sa) ++ sb)) 97)
      (by simp) (by simp [nsb]) (by rw [head_append hm1]; rfl)
    rw [f4] at f5
    rw [f3, ← List.singleton_append (x := 97) (l := _ ++ _)]
    have e : nr [97] = 1 := rfl
    omega

theorem tmOdd_step {k : Nat} {w : List UInt8} (h : TmOdd k w) :
    nr (bw (w ++ [0])) = 3 * k - 2 ∧ TmEven (k + 1) (w.flatMap tmMor) := by
  obtain ⟨hab, hx, ⟨w1, hw⟩, h0, h1, h2, h3, h4, h5, hk⟩ := h
  obtain ⟨e2, e3, e4, e5⟩ := tmD_step_odd hab hx hw
  have d97 := seg_D hab [97]
  have d98 := seg_D hab [98]
  rw [h0] at e5
  generalize seg (w ++ [0]) [98] = sb at *
  generalize seg (w ++ [0]) [97] = sa at *
  have nsa : sa ≠ [] := ne_nil_of_head h1
  have nsb : sb ≠ [] := ne_nil_of_head h3
  have nma : nr (sa.map complD) = nr sa := nr_complD d97
  have nmb : nr (sb.map complD) = nr sb := nr_complD d98
  have a1 : (sa.map complD).head? = some 97 := by rw [List.head?_map, h1]; rfl
  have a2 : (sa.map complD).getLast? = some 0 := by rw [List.getLast?_map, h2]; rfl
  have b1 : (sb.map complD).head? = some 98 := by rw [List.head?_map, h3]; rfl
  have b2 : (sb.map complD).getLast? = some 98 := by rw [List.getLast?_map, h4]; rfl
  have hc8 : ∃ n, (bw (w ++ [0])).count 98 = n + 2 := by
    rw [e5, List.count_append, List.count_append]
    have := count_pos_of_head' h1
    have e : List.count 98 [(98 : UInt8)] = 1 := rfl
    exact ⟨List.count 98 [(98 : UInt8)] + sa.count 98 + sb.count 98 - 2, by omega⟩
  obtain ⟨n, hn⟩ := hc8
  have c7 : 0 < (bw (w ++ [0])).count 97 := by
    rw [e5, List.count_append]
    have := List.count_pos_iff.2 (List.mem_of_getLast? h4)
    omega
  rw [hn] at e3
  have c8 : 0 < n + 2 := by omega
  refine ⟨?_, tm_flatMap_ab hab, tm_noXXX hab, ⟨w1.flatMap tmMor ++ [97, 98, 97], ?_⟩, List.replicate n 98 ++ sa.map complD,
    ?_, ?_, ?_, ?_, ?_, by omega⟩
  · have f := nr_append_eq (p := [98]) (q := sa) (by simp) nsa (by rw [h1]; rfl)
    rw [e5, nr_append_ne (by simp) nsb]
    · have e : nr [98] = 1 := rfl
      omega
    · rw [last_append h2, h3]; decide
  · rw [hw]; simp [tmMor]
  · rw [e3]; rfl
  · rw [e3]; exact last_append a2
  · rw [e4]; exact head_append b1
  · rw [e4]; exact last_append (last_replicate _ c7)
  · rw [e3, e4, nr_append_ne (by simp) (ne_nil_of_head a1), nr_replicate _ c8, nma,
      nr_append_ne (ne_nil_of_head b1) (ne_nil_of_head (head_replicate _ c7)), nr_replicate _ c7, nmb]
    · omega
    · rw [b2, head_replicate _ c7]; decide
    · rw [last_replicate _ c8, a1]; decide

theorem tm4_matrix : matrix (iter tmMor 4 [97] ++ [0]) = 
   [[0, 97, 98, 98, 97, 98, 97, 97, 98, 98, 97, 97, 98, 97, 98, 98, 97],
    [97, 0, 97, 98, 98, 97, 98, 97, 97, 98, 98, 97, 97, 98, 97, 98, 98],
    [97, 97, 98, 97, 98, 98, 97, 0, 97, 98, 98, 97, 98, 97, 97, 98, 98],
    [97, 97, 98, 98, 97, 97, 98, 97, 98, 98, 97, 0, 97, 98, 98, 97, 98],
    [97, 98, 97, 97, 98, 98, 97, 97, 98, 97, 98, 98, 97, 0, 97, 98, 98],
    [97, 98, 97, 98, 98, 97, 0, 97, 98, 98, 97, 98, 97, 97, 98, 98, 97],
    [97, 98, 98, 97, 0, 97, 98, 98, 97, 98, 97, 97, 98, 98, 97, 97, 98],
    [97, 98, 98, 97, 97, 98, 97, 98, 98, 97, 0, 97, 98, 98, 97, 98, 97],
    [97, 98, 98, 97, 98, 97, 97, 98, 98, 97, 97, 98, 97, 98, 98, 97, 0],
    [98, 97, 0, 97, 98, 98, 97, 98, 97, 97, 98, 98, 97, 97, 98, 97, 98],
    [98, 97, 97, 98, 97, 98, 98, 97, 0, 97, 98, 98, 97, 98, 97, 97, 98],
    [98, 97, 97, 98, 98, 97, 97, 98, 97, 98, 98, 97, 0, 97, 98, 98, 97],
    [98, 97, 98, 97, 97, 98, 98, 97, 97, 98, 97, 98, 98, 97, 0, 97, 98],
    [98, 97, 98, 98, 97, 0, 97, 98, 98, 97, 98, 97, 97, 98, 98, 97, 97],
    [98, 98, 97, 0, 97, 98, 98, 97, 98, 97, 97, 98, 98, 97, 97, 98, 97],
    [98, 98, 97, 97, 98, 97, 98, 98, 97, 0, 97, 98, 98, 97, 98, 97, 97],
    [98, 98, 97, 98, 97, 97, 98, 98, 97, 97, 98, 97, 98, 98, 97, 0, 97]] :=
  matrix_unique ⟨by decide +kernel, by decide +kernel⟩

theorem tmEven_four : TmEven 4 (iter tmMor 4 [97]) := by
  refine ⟨tm_iter_ab 4, tm_noXXX (tm_iter_ab 3), ⟨(iter tmMor 4 [97]).take 13, by decide +kernel⟩, ?_⟩
  have e1 : seg (iter tmMor 4 [97] ++ [0]) [97] = [98, 98, 98, 98, 97, 98, 97, 0] := by
    rw [seg, rowsP_of_groups tm4_matrix]; decide +kernel
  have e2 : seg (iter tmMor 4 [97] ++ [0]) [98] = [98, 98, 97, 98, 97, 97, 97, 97] := by
    rw [seg, rowsP_of_groups tm4_matrix]; decide +kernel
  rw [e1, e2]
  exact ⟨_, rfl, rfl, rfl, rfl, rfl, by decide⟩

theorem tmEven_all (j : Nat) : TmEven (4 + 2 * j) (iter tmMor (4 + 2 * j) [97]) := by
  induction j with
  | zero => exact tmEven_four
  | succ j ih => exact (tmOdd_step (tmEven_step ih).2).2

/-- The transform of the Thue--Morse word of order `k` with the sentinel. -/
theorem tmD_runs {k : Nat} (hk : 4 ≤ k) : nr (bw (iter tmMor k [97] ++ [0])) = 3 * k - 2 := by
  rcases Nat.even_or_odd' k with ⟨c, rfl | rfl⟩
  · obtain ⟨j, rfl⟩ := Nat.exists_eq_add_of_le' (show 2 ≤ c by omega)
    have := (tmEven_step (tmEven_all j)).1
    rw [show 2 * (j + 2) = 4 + 2 * j by omega]; exact this
  · obtain ⟨j, rfl⟩ := Nat.exists_eq_add_of_le' (show 2 ≤ c by omega)
    have := (tmOdd_step (tmEven_step (tmEven_all j)).2).1
    rw [show 2 * (j + 2) + 1 = 4 + 2 * j + 1 by omega]; exact this

end Verif
