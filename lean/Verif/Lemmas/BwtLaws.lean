import Verif.Lemmas.BwtMorph

/-! # The transform of powers, of renamed words, and its first and last letter -/

namespace Verif

open Spec Model

section
variable {α : Type}

/-- `w` repeated `k` times. -/
def pw (k : Nat) (w : List α) : List α := (List.replicate k w).flatten

theorem pw_zero (w : List α) : pw 0 w = [] := rfl
theorem pw_succ (k : Nat) (w : List α) : pw (k + 1) w = w ++ pw k w := by simp [pw, List.replicate_succ]
theorem pw_length (k : Nat) (w : List α) : (pw k w).length = k * w.length := by simp [pw]
theorem pw_add (a b : Nat) (w : List α) : pw (a + b) w = pw a w ++ pw b w := by
  rw [pw, List.replicate_add, List.flatten_append]; rfl

theorem pw_swap (m : Nat) (d t : List α) : pw (m + 1) (d ++ t) = d ++ pw m (t ++ d) ++ t := by
  induction m with
  | zero => simp [pw]
  | succ m ih => rw [pw_succ, ih, pw_succ]; simp

theorem rot_pw {w : List α} {k q j : Nat} (hq : q < k) (hj : j ≤ w.length) :
    rot (q * w.length + j) (pw k w) = pw k (rot j w) := by
  obtain ⟨m, rfl⟩ := Nat.exists_eq_add_of_lt hq
  have e : pw (q + m + 1) w = pw q w ++ (w ++ pw m w) := by
    rw [show q + m + 1 = q + (m + 1) by omega, pw_add, pw_succ]
  have hl : q * w.length = (pw q w).length := (pw_length q w).symm
  rw [e, hl, rot_length_add (by simp; omega)]
  unfold rot
  rw [pw_swap, List.take_append_drop, List.append_assoc w, List.drop_append_of_le_length hj, List.take_append_of_le_length hj,
    show q + m = m + q by omega, pw_add]

theorem range_blocks {β : Type} (g h : Nat → β) (n k : Nat) (H : ∀ q j, q < k → j < n → g (q * n + j) = h j) :
    (List.range (k * n)).map g = pw k ((List.range n).map h) := by
  induction k with
  | zero => simp [pw]
  | succ k ih =>
    rw [pw_add, ← ih (fun q j hq hj => H q j (by omega) hj), Nat.succ_mul, List.range_add, List.map_append, List.map_map]
    congr 1
    rw [pw_succ, pw_zero, List.append_nil]
    exact List.map_congr_left fun j hj => H k j (by omega) (List.mem_range.1 hj)

theorem pw_perm {β : Type} (k : Nat) (L : List β) : (pw k L).Perm (L.flatMap fun v => List.replicate k v) := by
  induction k with
  | zero => simp [pw]
  | succ k ih =>
    rw [pw_succ]
    refine (List.Perm.append_left L ih).trans ?_
    have := List.flatMap_append_perm L (fun v => [v]) (fun v => List.replicate k v)
    simpa [List.replicate_succ, List.flatMap_singleton'] using this

theorem rots_pw (k : Nat) (w : List α) : (rots (pw k w)).Perm ((rots w).flatMap fun v => List.replicate k (pw k v)) := by
  have h : rots (pw k w) = pw k ((rots w).map (pw k)) := by
    unfold rots
    rw [pw_length, range_blocks _ (fun j => pw k (rot j w)) w.length k fun q j hq hj => rot_pw hq hj.le, List.map_map]
    rfl
  rw [h]
  refine (pw_perm k _).trans ?_
  rw [List.flatMap_map]

theorem pw_getLastD {k : Nat} (hk : 0 < k) (v : List UInt8) : (pw k v).getLastD 0 = v.getLastD 0 := by
  obtain ⟨m, rfl⟩ := Nat.exists_eq_succ_of_ne_zero hk.ne'
  by_cases hv : v = []
  · subst hv; simp [pw]
  · rw [Nat.succ_eq_add_one, pw_add, pw_succ, pw_zero, List.append_nil, lastD_append hv]

end

/-- The transform of a power: every letter `k` times. -/
theorem bw_pw {k : Nat} (hk : 0 < k) (w : List UInt8) : bw (pw k w) = (bw w).flatMap fun x => List.replicate k x := by
  have hm : (matrix w).Perm (rots w) := (matrix_spec w).1
  rw [bw_of_matrix (m := (matrix w).flatMap fun v => List.replicate k (pw k v))]
  · rw [bw, List.map_flatMap, List.flatMap_map]
    simp only [List.map_replicate, pw_getLastD hk]
  · exact (hm.flatMap_right _).trans (rots_pw k w).symm
  · rw [List.pairwise_flatMap]
    refine ⟨fun v _ => List.pairwise_replicate.2 (Or.inr (le_refl _)), ?_⟩
    refine (matrix_sorted w).imp_of_mem fun {v u} hv hu h a ha b hb => ?_
    rw [List.eq_of_mem_replicate ha, List.eq_of_mem_replicate hb]
    rcases h.eq_or_lt with rfl | h
    · exact le_refl _
    · obtain ⟨m, rfl⟩ := Nat.exists_eq_succ_of_ne_zero hk.ne'
      rw [Nat.succ_eq_add_one, pw_succ, pw_succ]
      exact ((rows_mis hv hu h).append _ _).lt.le

theorem nr_stretch {k : Nat} (hk : 0 < k) (b : List UInt8) : nr (b.flatMap fun x => List.replicate k x) = nr b := by
  induction b with
  | nil => rfl
  | cons a b ih =>
    rw [List.flatMap_cons]
    cases b with
    | nil => simp [nr_replicate a hk, nr]
    | cons c b =>
      have h1 : List.replicate k a ≠ [] := by simp; omega
      have h2 : ((c :: b).flatMap fun x => List.replicate k x) ≠ [] := by simp; omega
      have := nr_append h1 h2
      rw [ih, nr_replicate a hk, last_replicate a hk, List.flatMap_cons, head_append (head_replicate c hk)] at this
      rw [nr]
      simp only [Option.some.injEq] at this
      rw [List.flatMap_cons]
      split at this <;> simp_all <;> omega

/-! ## renaming -/

theorem rots_map (f : UInt8 → UInt8) (w : List UInt8) : rots (w.map f) = (rots w).map (List.map f) := by
  simp [rots, rot, List.map_drop, List.map_take]

theorem mis_map {f : UInt8 → UInt8} {v u : List UInt8} (hf : ∀ x ∈ v, ∀ y ∈ u, x < y → f x < f y) (h : Mis v u) :
    Mis (v.map f) (u.map f) := by
  obtain ⟨p, a, b, v', u', rfl, rfl, hab⟩ := h
  exact ⟨p.map f, f a, f b, v'.map f, u'.map f, by simp, by simp, hf a (by simp) b (by simp) hab⟩

theorem mis_map_anti {f : UInt8 → UInt8} {v u : List UInt8} (hf : ∀ x ∈ v, ∀ y ∈ u, x < y → f y < f x) (h : Mis v u) :
    Mis (u.map f) (v.map f) := by
  obtain ⟨p, a, b, v', u', rfl, rfl, hab⟩ := h
  exact ⟨p.map f, f b, f a, u'.map f, v'.map f, by simp, by simp, hf a (by simp) b (by simp) hab⟩

theorem getLastD_map {f : UInt8 → UInt8} {v : List UInt8} (hv : v ≠ []) : (v.map f).getLastD 0 = f (v.getLastD 0) := by
  obtain ⟨v', x, rfl⟩ := (List.eq_nil_or_concat' v).resolve_left hv
  simp

theorem row_ne_nil {w v : List UInt8} (hw : w ≠ []) (hv : v ∈ matrix w) : v ≠ [] := by
  rintro rfl
  have := matrix_row_length hv
  simp at this
  exact hw (List.eq_nil_of_length_eq_zero this.symm)

theorem bw_map {f : UInt8 → UInt8} {w : List UInt8} (hw : w ≠ []) (hf : ∀ x ∈ w, ∀ y ∈ w, x < y → f x < f y) :
    bw (w.map f) = (bw w).map f := by
  rw [bw_of_matrix (m := (matrix w).map (List.map f)), bw, List.map_map, List.map_map]
  · exact List.map_congr_left fun v hv => getLastD_map (row_ne_nil hw hv)
  · rw [rots_map]; exact (matrix_spec w).1.map _
  · exact sorted_map (matrix_sorted w) fun v hv u hu h => (mis_map (fun x hx y hy => hf x ((row_perm hv).mem_iff.1 hx) y
      ((row_perm hu).mem_iff.1 hy)) (rows_mis hv hu h)).lt

theorem bw_map_anti {f : UInt8 → UInt8} {w : List UInt8} (hw : w ≠ []) (hf : ∀ x ∈ w, ∀ y ∈ w, x < y → f y < f x) :
    bw (w.map f) = ((bw w).map f).reverse := by
  rw [bw_of_matrix (m := ((matrix w).map (List.map f)).reverse), bw, List.map_reverse, List.map_map, List.map_map]
  · congr 1
    exact List.map_congr_left fun v hv => getLastD_map (row_ne_nil hw hv)
  · rw [rots_map]; exact (List.reverse_perm _).trans ((matrix_spec w).1.map _)
  · exact sorted_map_reverse (matrix_sorted w) fun v hv u hu h => (mis_map_anti (fun x hx y hy => hf x ((row_perm hv).mem_iff.1 hx) y
      ((row_perm hu).mem_iff.1 hy)) (rows_mis hv hu h)).lt

theorem bw_length (w : List UInt8) : (bw w).length = w.length := by rw [bw, List.length_map, matrix_length]

theorem nr_le_length (b : List UInt8) : nr b ≤ b.length := by
  induction b with
  | nil => simp [nr]
  | cons a b ih =>
    cases b with
    | nil => simp [nr]
    | cons c b => rw [nr, List.length_cons]; split <;> omega

/-! ## first and last letter -/

theorem least_first {z : UInt8} {v : List UInt8} (h : ∀ a ∈ v, z ≤ a) (hne : ∃ a ∈ v, a ≠ z) : z :: v < v ++ [z] := by
  induction v with
  | nil => simp at hne
  | cons a v ih =>
    rw [List.cons_append, cons_lt_cons]
    rcases (h a (by simp)).eq_or_lt with e | e
    · subst e
      refine Or.inr ⟨rfl, ih (fun x hx => h x (by simp [hx])) ?_⟩
      obtain ⟨x, hx, hx'⟩ := hne
      rcases List.mem_cons.1 hx with rfl | hx
      · exact absurd rfl hx'
      · exact ⟨x, hx, hx'⟩
    · exact Or.inl e

/-- The first letter of the transform is not the least one, unless it is the only one. -/
theorem bw_head {w : List UInt8} {z y : UInt8} (hz : ∀ a ∈ w, z ≤ a) (hy : y ∈ w) (hyz : y ≠ z) : (bw w).head? ≠ some z := by
  have hw : w ≠ [] := List.ne_nil_of_mem hy
  intro h
  cases hm : matrix w with
  | nil => rw [bw, hm] at h; simp at h
  | cons v m =>
    rw [bw, hm] at h
    have hv : v ∈ matrix w := by rw [hm]; simp
    obtain ⟨v', x, rfl⟩ := (List.eq_nil_or_concat' v).resolve_left (row_ne_nil hw hv)
    simp at h
    subst h
    have hp := row_perm hv
    have h1 : x :: v' < v' ++ [x] := by
      refine least_first (fun a ha => hz a (hp.mem_iff.1 (by simp [ha]))) ⟨y, ?_, hyz⟩
      have := hp.mem_iff.2 hy
      simpa [hyz] using this
    have h2 : x :: v' ∈ matrix w := by
      obtain ⟨i, hi, e⟩ := mem_matrix.1 hv
      rw [← matrix_of_conj (t := w) ⟨i, hi.le, e⟩]
      exact mem_matrix.2 ⟨v'.length, by simp, by simp [rot]⟩
    have hs := matrix_sorted w
    rw [hm] at hs h2
    rcases List.mem_cons.1 h2 with e | h2
    · rw [e] at h1; exact lt_irrefl _ h1
    · exact absurd h1 (not_lt.2 ((List.pairwise_cons.1 hs).1 _ h2))

theorem flip_lt {x y : UInt8} (h : x < y) : 255 - y < 255 - x := by
  rw [UInt8.lt_iff_toNat_lt] at h ⊢
  have hx := x.toNat_lt
  have hy := y.toNat_lt
  rw [UInt8.toNat_sub_of_le _ _ (by rw [UInt8.le_iff_toNat_le]; show y.toNat ≤ 255; omega), UInt8.toNat_sub_of_le _ _ (by rw [UInt8.le_iff_toNat_le]; show x.toNat ≤ 255; omega)]
  show 255 - y.toNat < 255 - x.toNat
  omega

theorem bw_last {w : List UInt8} {z y : UInt8} (hz : ∀ a ∈ w, a ≤ z) (hy : y ∈ w) (hyz : y ≠ z) : (bw w).getLast? ≠ some z := by
  have hw : w ≠ [] := List.ne_nil_of_mem hy
  have e := bw_map_anti (f := fun x => 255 - x) hw fun x _ y _ h => flip_lt h
  have h := bw_head (w := w.map fun x => 255 - x) (z := 255 - z) (y := 255 - y) (by
    intro a ha
    obtain ⟨b, hb, rfl⟩ := List.mem_map.1 ha
    rcases (hz b hb).eq_or_lt with rfl | h
    · exact le_refl _
    · exact (flip_lt h).le) (List.mem_map.2 ⟨y, hy, rfl⟩) (by simpa using hyz)
  rw [e, List.head?_reverse, List.getLast?_map] at h
  intro h'
  rw [h'] at h
  exact h rfl

/-! ## parity of the number of runs over two letters -/

theorem nr_parity {x y : UInt8} (hxy : x ≠ y) (b : List UInt8) (hb : ∀ c ∈ b, c = x ∨ c = y) (h0 : b ≠ []) :
    (nr b % 2 = 0 ↔ b.head? ≠ b.getLast?) := by
  induction b with
  | nil => exact absurd rfl h0
  | cons a b ih =>
    cases b with
    | nil => simp [nr]
    | cons c b =>
      have := ih (fun d hd => hb d (by simp [hd])) (by simp)
      rw [nr, List.getLast?_cons_cons]
      obtain ⟨z, hz⟩ : ∃ z, (c :: b).getLast? = some z := ⟨_, List.getLast?_eq_some_getLast (by simp)⟩
      have hzm : z ∈ c :: b := List.mem_of_getLast? hz
      rw [hz] at this ⊢
      simp only [List.head?_cons, ne_eq, Option.some.injEq] at this ⊢
      have ha := hb a (by simp)
      have hc := hb c (by simp)
      have hz' := hb z (by simp [List.mem_cons.1 hzm])
      have key : (a = z ↔ (a = c ↔ c = z)) := by
        rcases ha with rfl | rfl <;> rcases hc with rfl | rfl <;> rcases hz' with rfl | rfl <;> simp [hxy, Ne.symm hxy]
      rw [key]
      by_cases h1 : a = c
      · rw [if_pos h1, Nat.add_zero, this]; simp [h1]
      · rw [if_neg h1]
        by_cases h2 : c = z
        · subst h2; simp [h1] at this ⊢; omega
        · simp [h1, h2] at this ⊢; omega

/-- There are at least as many runs as letters. -/
theorem card_le_nr (b : List UInt8) : b.toFinset.card ≤ nr b := by
  induction b with
  | nil => simp [nr]
  | cons a b ih =>
    rw [List.toFinset_cons]
    cases b with
    | nil => simp [nr]
    | cons c b =>
      rw [nr]
      by_cases h : a = c
      · subst h
        rw [Finset.insert_eq_of_mem (by simp), if_pos rfl]
        exact ih
      · rw [if_neg h]
        exact (Finset.card_insert_le _ _).trans (by omega)

end Verif
