import Verif.Lemmas.Bwt
import Verif.Lemmas.BwtSa
import Verif.Lemmas.Streams
import Verif.Lemmas.Analyse

/-! # Rotations of a morphic image -/

namespace Verif

open Spec Model

section rotations
variable {α : Type}

/-- The rotations of `φ(v)` that begin in the block of the first letter of `v`. -/
def headRots (φ : α → List α) (v : List α) : List (List α) :=
  match v with
  | [] => []
  | x :: _ => (List.range (φ x).length).map fun j => rot j (v.flatMap φ)

/-- The rotations of `φ(v)` that begin properly inside the block of the last letter of `v`. -/
def lastRots (φ : α → List α) (v : List α) : List (List α) :=
  match v.getLast? with
  | none => []
  | some x => (List.range ((φ x).length - 1)).map fun j =>
      (φ x).drop (j + 1) ++ v.dropLast.flatMap φ ++ (φ x).take (j + 1)

theorem rot_length_add {u v : List α} {j : Nat} (h : j ≤ v.length) : rot (u.length + j) (u ++ v) = rot j (v ++ u) := by
  unfold rot
  rw [List.drop_length_add_append, List.take_length_add_append, List.drop_append_of_le_length h,
    List.take_append_of_le_length h, List.append_assoc]

theorem rots_flatMap_aux (φ : α → List α) (s u : List α) :
    (List.range (s.flatMap φ).length).map (fun d => rot ((u.flatMap φ).length + d) ((u ++ s).flatMap φ)) =
      ((List.range s.length).map (fun i => rot (u.length + i) (u ++ s))).flatMap (headRots φ) := by
  induction s generalizing u with
  | nil => simp
  | cons x s ih =>
    have h := ih (u ++ [x])
    rw [List.flatMap_cons, List.length_append, List.range_add, List.map_append, List.length_cons, List.range_succ_eq_map,
      List.map_cons, List.flatMap_cons]
    congr 1
    · simp only [Nat.add_zero]
      rw [rot_append, List.cons_append, headRots]
      apply List.map_congr_left
      intro j hj
      have hj' : j < (φ x).length := List.mem_range.1 hj
      have e1 : (u ++ x :: s).flatMap φ = u.flatMap φ ++ (φ x ++ s.flatMap φ) := by simp
      have e2 : (x :: (s ++ u)).flatMap φ = (φ x ++ s.flatMap φ) ++ u.flatMap φ := by simp
      rw [e1, e2]
      exact rot_length_add (by simp; omega)
    · rw [List.map_map, List.map_map]
      have e3 : (u ++ [x]) ++ s = u ++ x :: s := by simp
      rw [e3] at h
      have e4 : ((u ++ [x]).flatMap φ).length = (u.flatMap φ).length + (φ x).length := by simp
      rw [e4] at h
      have e5 : (u ++ [x]).length = u.length + 1 := by simp
      rw [e5] at h
      convert h using 2
      · funext d; simp [Function.comp, Nat.add_assoc]
      · apply List.map_congr_left
        intro d _
        simp only [Function.comp]
        congr 1; omega

/-- The rotations of an image, grouped by the letter whose block they begin in. -/
theorem rots_flatMap (φ : α → List α) (w : List α) : rots (w.flatMap φ) = (rots w).flatMap (headRots φ) := by
  have := rots_flatMap_aux φ w []
  simpa [rots] using this

theorem headRots_cons {φ : α → List α} {x : α} {v : List α} (hx : φ x ≠ []) :
    headRots φ (x :: v) = (x :: v).flatMap φ :: lastRots φ (v ++ [x]) := by
  rw [headRots, lastRots]
  simp only [List.getLast?_append, List.getLast?_singleton, Option.some_or, List.dropLast_concat]
  obtain ⟨m, hm⟩ : ∃ m, (φ x).length = m + 1 := ⟨(φ x).length - 1, by have := List.length_pos_iff.2 hx; omega⟩
  rw [hm, List.range_succ_eq_map, List.map_cons, rot_zero, Nat.add_sub_cancel, List.map_map]
  congr 1
  apply List.map_congr_left
  intro j hj
  have hj' : j < m := List.mem_range.1 hj
  simp only [Function.comp, List.flatMap_cons, rot]
  rw [List.drop_append_of_le_length (by omega), List.take_append_of_le_length (by omega)]

/-- The rotations of an image: the images of the rotations, and those that begin inside a block. -/
theorem rots_flatMap_perm {φ : α → List α} {w : List α} (hφ : ∀ x ∈ w, φ x ≠ []) :
    (rots (w.flatMap φ)).Perm ((rots w).map (fun v => v.flatMap φ) ++ (rots w).flatMap (lastRots φ)) := by
  rcases Nat.eq_zero_or_pos w.length with h0 | h0
  · rw [List.eq_nil_of_length_eq_zero h0]; simp [rots]
  have h1 : (rots w).flatMap (headRots φ) =
      (rots w).flatMap fun v => [v.flatMap φ] ++ lastRots φ (rot 1 v) := by
    rw [List.flatMap_def, List.flatMap_def]
    congr 1
    apply List.map_congr_left
    intro v hv
    obtain ⟨i, hi, rfl⟩ := List.mem_map.1 hv
    have hi' := List.mem_range.1 hi
    have hp := rot_perm i w
    cases hr : rot i w with
    | nil => rw [hr] at hp; rw [← hp.length_eq] at h0; simp at h0
    | cons x v =>
      rw [headRots_cons (hφ x (hp.mem_iff.1 (by rw [hr]; simp)))]
      simp [rot]
  rw [rots_flatMap, h1]
  refine (List.flatMap_append_perm _ _ _).symm.trans ?_
  refine List.Perm.append ?_ ?_
  · rw [List.map_eq_flatMap]
  · have := (rots_map_rot (t := w) (p := 1) h0).flatMap_right (lastRots φ)
    rwa [List.flatMap_map] at this

end rotations

section sorted
variable {α : Type} [LinearOrder α]

theorem row_perm {w v : List α} (h : v ∈ matrix w) : v.Perm w := by
  obtain ⟨i, -, rfl⟩ := mem_matrix.1 h
  exact rot_perm i w

/-- How to recognize the matrix of an image. -/
theorem matrix_flatMap {φ : α → List α} {w : List α} (hφ : ∀ x ∈ w, φ x ≠ []) {m : List (List α)}
    (hp : m.Perm ((matrix w).map (fun v => v.flatMap φ) ++ (matrix w).flatMap (lastRots φ))) (hs : m.Pairwise (· ≤ ·)) :
    matrix (w.flatMap φ) = m := by
  refine matrix_unique ⟨hp.trans ?_, hs⟩
  have hm : (matrix w).Perm (rots w) := (matrix_spec w).1
  exact ((hm.map _).append (hm.flatMap_right _)).trans (rots_flatMap_perm hφ).symm

theorem sorted_map {L : List (List α)} (hL : L.Pairwise (· ≤ ·)) {f : List α → List α}
    (hf : ∀ v ∈ L, ∀ u ∈ L, v < u → f v < f u) : (L.map f).Pairwise (· ≤ ·) := by
  rw [List.pairwise_map]
  refine hL.imp_of_mem fun {v u} hv hu h => ?_
  rcases h.eq_or_lt with rfl | h
  · exact le_refl _
  · exact (hf v hv u hu h).le

theorem sorted_map_reverse {L : List (List α)} (hL : L.Pairwise (· ≤ ·)) {f : List α → List α}
    (hf : ∀ v ∈ L, ∀ u ∈ L, v < u → f u < f v) : (L.map f).reverse.Pairwise (· ≤ ·) := by
  rw [List.pairwise_reverse, List.pairwise_map]
  refine hL.imp_of_mem fun {v u} hv hu h => ?_
  rcases h.eq_or_lt with rfl | h
  · exact le_refl _
  · exact (hf v hv u hu h).le

theorem matrix_sorted (w : List α) : (matrix w).Pairwise (· ≤ ·) := (matrix_spec w).2

theorem rows_mis {w v u : List α} (hv : v ∈ matrix w) (hu : u ∈ matrix w) (h : v < u) : Mis v u :=
  mis_of_lt_of_length_le h (by rw [matrix_row_length hv, matrix_row_length hu])

/-- Rows have the same letters, so they do not differ only in the last one. -/
theorem mis_dropLast {v u : List α} (hp : v.Perm u) (h : Mis v u) : Mis v.dropLast u.dropLast := by
  obtain ⟨p, a, b, v', u', rfl, rfl, hab⟩ := h
  have hl := hp.length_eq
  simp at hl
  have hne : v' ≠ [] := by
    rintro rfl
    rw [List.length_nil, eq_comm, List.length_eq_zero_iff] at hl
    subst hl
    have h1 : [a].Perm [b] := (List.perm_append_left_iff p).1 hp
    rw [List.singleton_perm_singleton] at h1
    exact hab.ne h1
  have hne' : u' ≠ [] := by
    rintro rfl
    rw [List.length_nil, List.length_eq_zero_iff] at hl
    exact hne hl
  obtain ⟨v1, x, rfl⟩ := (List.eq_nil_or_concat' v').resolve_left hne
  obtain ⟨u1, y, rfl⟩ := (List.eq_nil_or_concat' u').resolve_left hne'
  refine ⟨p, a, b, v1, u1, ?_, ?_, hab⟩
  · rw [show p ++ a :: (v1 ++ [x]) = (p ++ a :: v1) ++ [x] by simp, List.dropLast_concat]
  · rw [show p ++ b :: (u1 ++ [y]) = (p ++ b :: u1) ++ [y] by simp, List.dropLast_concat]

theorem mis_flatMap {φ : α → List α} {A : α → Prop} (hφ : ∀ x y, A x → A y → x < y → Mis (φ x) (φ y)) {v u : List α}
    (hv : ∀ c ∈ v, A c) (hu : ∀ c ∈ u, A c) (h : Mis v u) (s t : List α) : Mis (v.flatMap φ ++ s) (u.flatMap φ ++ t) := by
  obtain ⟨p, a, b, v', u', rfl, rfl, hab⟩ := h
  have := (hφ a b (hv a (by simp)) (hu b (by simp)) hab).append (v'.flatMap φ ++ s) (u'.flatMap φ ++ t)
  simpa [List.flatMap_append, mis_append_left] using this

theorem mis_flatMap_anti {φ : α → List α} {A : α → Prop} (hφ : ∀ x y, A x → A y → x < y → Mis (φ y) (φ x)) {v u : List α}
    (hv : ∀ c ∈ v, A c) (hu : ∀ c ∈ u, A c) (h : Mis v u) (s t : List α) : Mis (u.flatMap φ ++ s) (v.flatMap φ ++ t) := by
  obtain ⟨p, a, b, v', u', rfl, rfl, hab⟩ := h
  have := (hφ a b (hv a (by simp)) (hu b (by simp)) hab).append (u'.flatMap φ ++ s) (v'.flatMap φ ++ t)
  simpa [List.flatMap_append, mis_append_left] using this

end sorted

/-! ## counting runs -/

/-- The number of runs. -/
def nr : List UInt8 → Nat
  | [] => 0
  | [_] => 1
  | a :: b :: t => nr (b :: t) + if a = b then 0 else 1

theorem nr_eq_changes {t : List UInt8} (h : t ≠ []) : nr t = 1 + changes t := by
  induction t with
  | nil => exact absurd rfl h
  | cons a t ih =>
    cases t with
    | nil => rfl
    | cons b t =>
      rw [nr, ih (by simp), changes_cons]
      by_cases hab : a = b
      · simp [hab]
      · simp [hab]; omega

theorem numberOfRuns_nr (t : List UInt8) : numberOfRuns (sliceReader t) = nr t := by
  by_cases h : t = []
  · subst h; rfl
  · rw [numberOfRuns_ok, Par.delivered_slice, runsOf_length h, nr_eq_changes h]

theorem nr_append {p q : List UInt8} (hp : p ≠ []) (hq : q ≠ []) :
    nr (p ++ q) + (if p.getLast? = q.head? then 1 else 0) = nr p + nr q := by
  induction p with
  | nil => exact absurd rfl hp
  | cons a p ih =>
    cases p with
    | nil =>
      cases q with
      | nil => exact absurd rfl hq
      | cons b q =>
        simp only [List.singleton_append, nr, List.getLast?_singleton, List.head?_cons, Option.some.injEq]
        split <;> omega
    | cons c p =>
      have := ih (by simp)
      simp only [List.cons_append, nr] at this ⊢
      rw [List.getLast?_cons_cons]
      omega

theorem nr_replicate {n : Nat} (c : UInt8) (h : 0 < n) : nr (List.replicate n c) = 1 := by
  induction n with
  | zero => omega
  | succ n ih =>
    cases n with
    | zero => rfl
    | succ n =>
      rw [List.replicate_succ, List.replicate_succ, nr, ← List.replicate_succ, ih (by omega), if_pos rfl]

theorem nr_map {f : UInt8 → UInt8} {t : List UInt8} (hf : ∀ x ∈ t, ∀ y ∈ t, f x = f y → x = y) : nr (t.map f) = nr t := by
  induction t with
  | nil => rfl
  | cons a t ih =>
    cases t with
    | nil => rfl
    | cons b t =>
      have := ih fun x hx y hy => hf x (by simp [hx]) y (by simp [hy])
      simp only [List.map_cons, nr] at this ⊢
      rw [this]
      congr 1
      by_cases h : a = b
      · simp [h]
      · rw [if_neg h, if_neg fun e => h (hf a (by simp) b (by simp) e)]

theorem nr_reverse (t : List UInt8) : nr t.reverse = nr t := by
  induction t with
  | nil => rfl
  | cons a t ih =>
    rw [List.reverse_cons]
    by_cases ht : t = []
    · subst ht; rfl
    · have := nr_append (p := t.reverse) (q := [a]) (by simpa using ht) (by simp)
      rw [ih] at this
      cases t with
      | nil => exact absurd rfl ht
      | cons b t =>
        have e1 : nr [a] = 1 := rfl
        rw [e1] at this
        simp only [List.getLast?_reverse, List.head?_cons, Option.some.injEq] at this
        rw [nr]
        by_cases h : a = b
        · subst h; simp at this ⊢; omega
        · have h' : b ≠ a := fun e => h e.symm
          simp [h, h'] at this ⊢; omega

/-! ## the transform of a word -/

/-- The last column of the rotation matrix. -/
def bw (w : List UInt8) : List UInt8 := (matrix w).map fun v => v.getLastD 0

theorem bw_spec {w : List UInt8} (h : w ≠ []) : IsMatrixBwt w (bw w) := by
  refine ⟨matrix w, matrix_spec w, ?_⟩
  rw [bw, List.map_map]
  apply List.map_congr_left
  intro v hv
  have : v ≠ [] := by
    rintro rfl
    have := matrix_row_length hv
    simp at this
    exact h (List.eq_nil_of_length_eq_zero this.symm)
  obtain ⟨v', x, rfl⟩ := (List.eq_nil_or_concat' v).resolve_left this
  simp

/-- The rows of a word of at least two letters. -/
theorem row_concat {w v : List UInt8} (hw : 2 ≤ w.length) (hv : v ∈ matrix w) : ∃ v' x, v = v' ++ [x] ∧ v' ≠ [] := by
  have hl := matrix_row_length hv
  have : v ≠ [] := by rintro rfl; simp at hl; omega
  obtain ⟨v', x, rfl⟩ := (List.eq_nil_or_concat' v).resolve_left this
  refine ⟨v', x, rfl, ?_⟩
  rintro rfl
  simp at hl; omega

theorem rows_dropLast {w v u : List UInt8} (hv : v ∈ matrix w) (hu : u ∈ matrix w) (h : v < u) : Mis v.dropLast u.dropLast :=
  mis_dropLast ((row_perm hv).trans (row_perm hu).symm) (rows_mis hv hu h)

theorem filter_last_length (L : List (List UInt8)) (c : UInt8) :
    (L.filter fun v => v.getLastD 0 = c).length = (L.map fun v => v.getLastD 0).count c := by
  rw [List.count, List.countP_map, List.countP_eq_length_filter]
  congr 1

theorem bw_of_matrix {w : List UInt8} {m : List (List UInt8)} (h : m.Perm (rots w)) (hs : m.Pairwise (· ≤ ·)) :
    bw w = m.map fun v => v.getLastD 0 := by
  rw [bw, matrix_unique (⟨h, hs⟩ : IsRotationMatrix w m)]

theorem lastD_concat (u : List UInt8) (x : UInt8) : (u ++ [x]).getLastD 0 = x := by simp

theorem lastD_cons_concat (y : UInt8) (u : List UInt8) (x : UInt8) : (y :: (u ++ [x])).getLastD 0 = x := by
  rw [← List.cons_append, lastD_concat]

theorem lastD_append {u v : List UInt8} (h : v ≠ []) : (u ++ v).getLastD 0 = v.getLastD 0 := by
  obtain ⟨v', x, rfl⟩ := (List.eq_nil_or_concat' v).resolve_left h
  rw [← List.append_assoc, lastD_concat, lastD_concat]

theorem nr_append_ne {p q : List UInt8} (hp : p ≠ []) (hq : q ≠ []) (h : p.getLast? ≠ q.head?) : nr (p ++ q) = nr p + nr q := by
  have := nr_append hp hq
  rwa [if_neg h, Nat.add_zero] at this

theorem nr_append_eq {p q : List UInt8} (hp : p ≠ []) (hq : q ≠ []) (h : p.getLast? = q.head?) :
    nr (p ++ q) + 1 = nr p + nr q := by
  have := nr_append hp hq
  rwa [if_pos h] at this

theorem ne_nil_of_head {p : List UInt8} {c : UInt8} (h : p.head? = some c) : p ≠ [] := by
  rintro rfl; simp at h

theorem ne_nil_of_last {p : List UInt8} {c : UInt8} (h : p.getLast? = some c) : p ≠ [] := by
  rintro rfl; simp at h

theorem head_append {p q : List UInt8} {c : UInt8} (h : p.head? = some c) : (p ++ q).head? = some c := by
  rw [List.head?_append, h]; rfl

theorem last_append {p q : List UInt8} {c : UInt8} (h : q.getLast? = some c) : (p ++ q).getLast? = some c := by
  rw [List.getLast?_append, h]; rfl

theorem head_replicate {n : Nat} (c : UInt8) (h : 0 < n) : (List.replicate n c).head? = some c := by
  rw [List.head?_replicate, if_neg (by omega)]

theorem last_replicate {n : Nat} (c : UInt8) (h : 0 < n) : (List.replicate n c).getLast? = some c := by
  rw [List.getLast?_replicate, if_neg (by omega)]

theorem count_pos_of_head {p : List UInt8} {c : UInt8} (h : p.head? = some c) : 0 < p.count c :=
  List.count_pos_iff.2 (List.mem_of_head? h)

theorem count_pos_of_last {p : List UInt8} {c : UInt8} (h : p.getLast? = some c) : 0 < p.count c :=
  List.count_pos_iff.2 (List.mem_of_getLast? h)

end Verif
