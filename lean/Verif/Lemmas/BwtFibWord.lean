import Verif.Lemmas.BwtVtm
import Verif.Lemmas.Fib

/-! # The transform of the Fibonacci words and of their Lyndon conjugates -/

namespace Verif

open Spec Model

theorem fibMor_head (x : UInt8) : ∃ s, fibMor x = 97 :: s := by
  unfold fibMor; split
  · exact ⟨[98], rfl⟩
  · exact ⟨[], rfl⟩

theorem fib_mis {v u : List UInt8} (hv : ∀ c ∈ v, IsAb c) (hu : ∀ c ∈ u, IsAb c) (h : Mis v u) (s t : List UInt8) :
    Mis (u.flatMap fibMor ++ 97 :: s) (v.flatMap fibMor ++ t) := by
  obtain ⟨p, a, b, v', u', rfl, rfl, hab⟩ := h
  rcases hv a (by simp) with rfl | rfl <;> rcases hu b (by simp) with rfl | rfl
  · exact absurd hab (by decide)
  · have : ∃ s', u'.flatMap fibMor ++ 97 :: s = 97 :: s' := by
      cases u' with
      | nil => exact ⟨s, rfl⟩
      | cons x u' =>
        obtain ⟨q, hq⟩ := fibMor_head x
        exact ⟨q ++ (u'.flatMap fibMor ++ 97 :: s), by rw [List.flatMap_cons, hq]; simp⟩
    obtain ⟨s', hs'⟩ := this
    have e1 : (p ++ 98 :: u').flatMap fibMor ++ 97 :: s = p.flatMap fibMor ++ 97 :: 97 :: s' := by
      rw [List.flatMap_append, List.append_assoc, List.flatMap_cons, List.append_assoc, hs']
      rfl
    have e2 : (p ++ 97 :: v').flatMap fibMor ++ t = p.flatMap fibMor ++ 97 :: 98 :: (v'.flatMap fibMor ++ t) := by
      rw [List.flatMap_append, List.append_assoc, List.flatMap_cons, List.append_assoc]
      rfl
    rw [e1, e2, mis_append_left]
    exact ⟨[97], 97, 98, _, _, rfl, rfl, by decide⟩
  · exact absurd hab (by decide)
  · exact absurd hab (by decide)

/-- The row of the image that begins in the middle of the last block. -/
def fibOdd (v : List UInt8) : List UInt8 := 98 :: (v.dropLast.flatMap fibMor ++ [97])

theorem fib_lastRots {v' : List UInt8} {x : UInt8} (hx : IsAb x) :
    lastRots fibMor (v' ++ [x]) = if (v' ++ [x]).getLastD 0 = 97 then [fibOdd (v' ++ [x])] else [] := by
  rcases hx with rfl | rfl <;> simp [lastRots, fibOdd, fibMor, List.range_succ]

theorem fib_matrix {w : List UInt8} (hw : 2 ≤ w.length) (hab : ∀ c ∈ w, IsAb c) :
    matrix (w.flatMap fibMor) =
      ((matrix w).map fun v => v.flatMap fibMor).reverse ++
      (((matrix w).filter fun v => v.getLastD 0 = 97).map fibOdd).reverse := by
  have habr : ∀ v ∈ matrix w, ∀ c ∈ v, IsAb c := fun v hv c hc => hab c ((row_perm hv).mem_iff.1 hc)
  have hdl : ∀ v ∈ matrix w, ∀ u ∈ matrix w, v < u → ∀ s t,
      Mis (u.dropLast.flatMap fibMor ++ 97 :: s) (v.dropLast.flatMap fibMor ++ t) := by
    intro v hv u hu hlt s t
    exact fib_mis (fun c hc => habr v hv c (List.mem_of_mem_dropLast hc))
      (fun c hc => habr u hu c (List.mem_of_mem_dropLast hc)) (rows_dropLast hv hu hlt) s t
  have hL := matrix_sorted w
  have hne : ∀ x, fibMor x ≠ [] := fun x => by obtain ⟨s, hs⟩ := fibMor_head x; rw [hs]; simp
  refine matrix_flatMap (fun x _ => hne x) ?_ ?_
  · refine List.Perm.append (List.reverse_perm _) ((List.reverse_perm _).trans (List.Perm.of_eq ?_))
    rw [← flatMap_ite (fun v : List UInt8 => v.getLastD 0 = 97), List.flatMap_def, List.flatMap_def]
    congr 1
    apply List.map_congr_left
    intro v hv
    obtain ⟨v', x, rfl, h⟩ := row_concat hw hv
    exact (fib_lastRots (habr _ hv x (by simp))).symm
  · rw [List.pairwise_append]
    refine ⟨?_, ?_, ?_⟩
    · refine sorted_map_reverse hL fun v hv u hu h => ?_
      have := hdl v hv u hu h
      obtain ⟨v', x, rfl, -⟩ := row_concat hw hv
      obtain ⟨u', y, rfl, -⟩ := row_concat hw hu
      obtain ⟨s, hs⟩ := fibMor_head y
      rw [List.dropLast_concat, List.dropLast_concat] at this
      rw [List.flatMap_append, List.flatMap_append, List.flatMap_singleton, List.flatMap_singleton, hs]
      exact (this s _).lt
    · refine sorted_map_reverse (hL.filter _) fun v hv u hu h => ?_
      exact ((hdl v (List.mem_of_mem_filter hv) u (List.mem_of_mem_filter hu) h _ _).cons _).lt
    · intro r hr q hq
      obtain ⟨v, hv, rfl⟩ := List.mem_map.1 (List.mem_reverse.1 hr)
      obtain ⟨u, hu, rfl⟩ := List.mem_map.1 (List.mem_reverse.1 hq)
      obtain ⟨v', x, rfl, h'⟩ := row_concat hw hv
      obtain ⟨z, v1, rfl⟩ := List.exists_cons_of_ne_nil h'
      obtain ⟨s, hs⟩ := fibMor_head z
      rw [List.cons_append, List.flatMap_cons, hs]
      exact le_of_lt (by simp [fibOdd, cons_lt_cons])

/-- The transform of the image of a word under the Fibonacci morphism. -/
theorem fib_bw {w : List UInt8} (hw : 2 ≤ w.length) (hab : ∀ c ∈ w, IsAb c) :
    bw (w.flatMap fibMor) = ((bw w).map compl).reverse ++ List.replicate ((bw w).count 97) 97 := by
  have habr : ∀ v ∈ matrix w, ∀ c ∈ v, IsAb c := fun v hv c hc => hab c ((row_perm hv).mem_iff.1 hc)
  rw [bw, fib_matrix hw hab, List.map_append]
  congr 1
  · rw [bw, List.map_reverse, List.map_map, List.map_map]
    congr 1
    apply List.map_congr_left
    intro v hv
    obtain ⟨v', x, rfl, h⟩ := row_concat hw hv
    simp only [Function.comp]
    have hne : fibMor x ≠ [] := by obtain ⟨s, hs⟩ := fibMor_head x; rw [hs]; simp
    rw [List.flatMap_append, List.flatMap_singleton, lastD_concat, lastD_append hne]
    rcases habr _ hv x (by simp) with rfl | rfl <;> rfl
  · rw [bw, ← filter_last_length, List.map_reverse, List.map_map, ← List.reverse_replicate, ← List.map_const]
    congr 1
    apply List.map_congr_left
    intro v hv
    simp only [Function.comp, fibOdd]
    rw [lastD_cons_concat]
    rfl

theorem fib_iter_ab (k : Nat) : ∀ c ∈ iter fibMor k [97], IsAb c := by
  induction k with
  | zero => intro c hc; simp [iter] at hc; exact Or.inl hc
  | succ k ih =>
    intro c hc
    obtain ⟨x, hx, hc⟩ := List.mem_flatMap.1 hc
    rcases ih x hx with rfl | rfl <;> simp [fibMor] at hc <;> unfold IsAb <;> tauto

theorem fib_length_le (w : List UInt8) : w.length ≤ (w.flatMap fibMor).length := by
  induction w with
  | nil => simp
  | cons x w ih =>
    obtain ⟨s, hs⟩ := fibMor_head x
    rw [List.flatMap_cons, List.length_append, List.length_cons, hs, List.length_cons]; omega

/-- The transform of the Fibonacci word of order `k + 1`. -/
theorem fibWord_bw (k : Nat) : 2 ≤ (fibWord (k + 1)).length ∧
    bw (fibWord (k + 1)) = List.replicate (Nat.fib (k + 1)) 98 ++ List.replicate (Nat.fib (k + 2)) 97 := by
  rw [fibWord_eq]
  induction k with
  | zero =>
    have e : bw (iter fibMor (0 + 1) [97]) = [98, 97] :=
      bw_of_matrix (m := [[97, 98], [98, 97]]) (by decide +kernel) (by decide +kernel)
    exact ⟨by decide, by rw [e]; rfl⟩
  | succ k ih =>
    obtain ⟨h1, h2⟩ := ih
    have hb := fib_bw h1 (fib_iter_ab (k + 1))
    have hl := fib_length_le (iter fibMor (k + 1) [97])
    rw [show iter fibMor (k + 1 + 1) [97] = (iter fibMor (k + 1) [97]).flatMap fibMor from rfl]
    refine ⟨by omega, ?_⟩
    rw [hb, h2, List.map_append, List.map_replicate, List.map_replicate, List.reverse_append, List.reverse_replicate,
      List.reverse_replicate, List.count_append, List.count_replicate_self, List.count_replicate,
      show Nat.fib (k + 1 + 2) = Nat.fib (k + 1) + Nat.fib (k + 2) from Nat.fib_add_two]
    simp [compl]

theorem bw_rot {w : List UInt8} {p : Nat} (h : p ≤ w.length) : bw (rot p w) = bw w := by
  rw [bw, bw, matrix_unique (⟨(matrix_spec w).1.trans (rots_rot h).symm, matrix_sorted w⟩ : IsRotationMatrix (rot p w) (matrix w))]

theorem bw_swap (u v : List UInt8) : bw (u ++ v) = bw (v ++ u) := by
  have := bw_rot (w := u ++ v) (p := u.length) (by simp)
  rw [← this, rot_append]

/-- `a -> ba`, `b -> a`. -/
def fibMor' (c : UInt8) : List UInt8 := if c = 97 then [98, 97] else [97]

theorem fib_conj (w : List UInt8) : w.flatMap fibMor ++ [97] = 97 :: w.flatMap fibMor' := by
  induction w with
  | nil => rfl
  | cons x w ih =>
    rw [List.flatMap_cons, List.flatMap_cons, List.append_assoc, ih]
    unfold fibMor fibMor'; split <;> rfl

theorem lyndonMor_fib (w : List UInt8) (hab : ∀ c ∈ w, IsAb c) : w.flatMap lyndonMor = (w.flatMap fibMor').flatMap fibMor := by
  induction w with
  | nil => rfl
  | cons x w ih =>
    rw [List.flatMap_cons, List.flatMap_cons, List.flatMap_append, ih fun c hc => hab c (by simp [hc])]
    congr 1
    rcases hab x (by simp) with rfl | rfl <;> rfl

/-- The images of a word under the two morphisms are conjugates. -/
theorem fib_swap {w : List UInt8} (h : w ≠ []) : ∃ z, w.flatMap fibMor = 97 :: z ∧ w.flatMap fibMor' = z ++ [97] := by
  have hc := fib_conj w
  cases w with
  | nil => exact absurd rfl h
  | cons x w =>
    obtain ⟨s, hs⟩ := fibMor_head x
    refine ⟨s ++ w.flatMap fibMor, by rw [List.flatMap_cons, hs]; rfl, ?_⟩
    rw [List.flatMap_cons, hs] at hc
    simp only [List.cons_append, List.cons.injEq, true_and] at hc
    rw [← hc]

theorem lyndonMor_ab {w : List UInt8} (hab : ∀ c ∈ w, IsAb c) : ∀ c ∈ w.flatMap lyndonMor, IsAb c := by
  intro c hc
  obtain ⟨x, hx, hc⟩ := List.mem_flatMap.1 hc
  rcases hab x hx with rfl | rfl <;> simp [lyndonMor] at hc <;> unfold IsAb <;> tauto

/-- The Lyndon words of the generator are conjugates of Fibonacci words. -/
theorem lyndon_conj (k : Nat) : ∃ u v, iter lyndonMor k [97, 98] = u ++ v ∧ fibWord (2 * k + 1) = v ++ u := by
  have hab : ∀ k, ∀ c ∈ iter lyndonMor k [97, 98], IsAb c := by
    intro k
    induction k with
    | zero => intro c hc; simpa [iter, IsAb] using hc
    | succ k ih => exact lyndonMor_ab ih
  induction k with
  | zero => exact ⟨[], [97, 98], rfl, rfl⟩
  | succ k ih =>
    obtain ⟨u, v, h1, h2⟩ := ih
    have hf : fibWord (2 * (k + 1) + 1) = ((v ++ u).flatMap fibMor).flatMap fibMor := by
      rw [← h2, fibWord_eq, fibWord_eq]; rfl
    have hne : u ++ v ≠ [] := by
      intro h
      have := (fibWord_bw (2 * k)).1
      rw [h2] at this
      have h0 := congrArg List.length h
      rw [List.length_append] at this h0
      rw [List.length_nil] at h0
      omega
    have hlm : iter lyndonMor (k + 1) [97, 98] = ((u ++ v).flatMap fibMor').flatMap fibMor := by
      rw [← h1]; exact lyndonMor_fib _ (hab k)
    obtain ⟨z, hz1, hz2⟩ := fib_swap hne
    -- `fibMor'(uv) = z a`, `fibMor(uv) = a z`, `fibMor(vu)` is a conjugate of it
    rcases List.eq_nil_or_concat' u with rfl | ⟨u', x, rfl⟩
    · refine ⟨z.flatMap fibMor, fibMor 97, ?_, ?_⟩
      · rw [hlm, hz2]; simp
      · simp only [List.nil_append, List.append_nil] at hz1 hf
        rw [hf, hz1]; simp
    · have hu : (u' ++ [x]) ≠ [] := by simp
      generalize u' ++ [x] = u at *
      -- `fibMor u = a y`, `z = y (fibMor v)`
      obtain ⟨y, hy1, hy2⟩ := fib_swap hu
      rw [List.flatMap_append, hy1, List.cons_append, List.cons.injEq] at hz1
      obtain ⟨-, hz1⟩ := hz1
      refine ⟨y.flatMap fibMor, ((v.flatMap fibMor) ++ [97]).flatMap fibMor, ?_, ?_⟩
      · rw [hlm, hz2, ← hz1]; simp
      · rw [hf, List.flatMap_append, hy1]; simp

theorem lyndon_bw (k : Nat) : bw (iter lyndonMor k [97, 98]) =
    List.replicate (Nat.fib (2 * k + 1)) 98 ++ List.replicate (Nat.fib (2 * k + 2)) 97 := by
  obtain ⟨u, v, h1, h2⟩ := lyndon_conj k
  rw [h1, bw_swap, ← h2, (fibWord_bw (2 * k)).2]

theorem nr_two {m n : Nat} (hm : 0 < m) (hn : 0 < n) : nr (List.replicate m 98 ++ List.replicate n 97) = 2 := by
  rw [nr_append_ne (ne_nil_of_head (head_replicate _ hm)) (ne_nil_of_head (head_replicate _ hn)), nr_replicate _ hm,
    nr_replicate _ hn]
  rw [last_replicate _ hm, head_replicate _ hn]; decide

end Verif
