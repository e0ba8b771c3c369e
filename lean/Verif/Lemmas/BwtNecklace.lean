import Verif.Lemmas.BbwtInj
import Verif.Lemmas.FibBwt

/-! # The transforms on necklaces (least rotations), and the suffix-array BWT without sentinel -/

namespace Verif

open Spec Model

section
variable {α : Type} [LinearOrder α]

/-- The Lyndon factors of a necklace are all equal. -/
theorem necklace_factors {L : List α} (hL : IsNecklace L) {fs : List (List α)} (hf : IsLyndonFactorization fs L) :
    ∃ u, fs = List.replicate fs.length u := by
  rcases List.eq_nil_or_concat fs with rfl | ⟨pre, u, hpp⟩
  · exact ⟨[], rfl⟩
  rw [List.concat_eq_append] at hpp
  subst hpp
  obtain ⟨h1, h2, h3⟩ := hf
  refine ⟨u, List.eq_replicate_iff.2 ⟨rfl, ?_⟩⟩
  have hu := h2 u (by simp)
  rcases pre with _ | ⟨f, pre⟩
  · simp
  have hf := h2 f (by simp)
  have huf : u ≤ f := by
    rw [List.cons_append, List.pairwise_cons] at h3
    exact h3.1 u (by simp)
  have hfu : f = u := by
    by_contra hne
    have hlt : u < f := lt_of_le_of_ne huf (Ne.symm hne)
    have hLe : L = (f :: pre).flatten ++ u := by rw [← h1]; simp
    have hgl : 0 < u.length := List.length_pos_iff.2 hu.1
    have hrot := hL (f :: pre).flatten.length (by rw [hLe, List.length_append]; omega)
    have hrot' : rot (f :: pre).flatten.length L = u ++ (f ++ pre.flatten) := by
      rw [hLe, rot, List.drop_left, List.take_left, List.flatten_cons]
    have hLf : L = f ++ (pre.flatten ++ u) := by rw [hLe]; simp
    rw [hrot', hLf] at hrot
    apply absurd hrot
    rw [not_le]
    rcases lt_iff_mis.1 hlt with ⟨⟨x, hx⟩, -⟩ | hm
    · have hxne : x ≠ [] := by rintro rfl; simp at hx; exact hne hx.symm
      have hfx : f < x := hf.2 u x hu.1 hxne hx.symm
      have hmis : Mis f x := mis_of_lt_of_length_le hfx (by rw [← hx]; simp)
      conv_rhs => rw [← hx, List.append_assoc]
      rw [append_lt_left]
      exact (hmis.append _ _).lt
    · exact (hm.append _ _).lt
  intro g hg
  have h4 : g ≤ f := by
    rw [List.cons_append, List.pairwise_cons] at h3
    rcases List.mem_cons.1 hg with rfl | hg
    · exact le_rfl
    · exact h3.1 g hg
  have h5 : u ≤ g := by
    rw [List.pairwise_append] at h3
    rcases List.mem_append.1 hg with hg | hg
    · exact h3.2.2 g hg u (by simp)
    · rw [List.mem_singleton.1 hg]
  exact le_antisymm (h4.trans hfu.le) h5

omit [LinearOrder α] in
theorem replicate_flatten (u : List α) (k : Nat) : (List.replicate k u).flatten = power u k := by
  induction k with
  | zero => rfl
  | succ k ih => rw [List.replicate_succ, List.flatten_cons, ih, power]

omit [LinearOrder α] in
theorem power_eq_omTake {u : List α} (hu : u ≠ []) (k : Nat) : power u k = omTake u (k * u.length) := by
  apply List.ext_getElem?
  intro i
  by_cases hi : i < k * u.length
  · rw [power_get _ _ _ hi, omTake_get hu hi]
  · rw [List.getElem?_eq_none (by rw [power_length]; omega), List.getElem?_eq_none (by rw [omTake_length hu]; omega)]

omit [LinearOrder α] in
theorem rot_power {u : List α} (hu : u ≠ []) {k i : Nat} (hi : i < k * u.length) :
    rot i (power u k) = power (rot (i % u.length) u) k := by
  have hn : 0 < u.length := List.length_pos_iff.2 hu
  have hm : i % u.length < u.length := Nat.mod_lt _ hn
  have hr : (rot (i % u.length) u).length = u.length := rot_length
  apply List.ext_getElem?
  intro j
  by_cases hj : j < k * u.length
  · rw [rot_get (by rw [power_length]; omega) (by rw [power_length]; exact hj), power_length,
      power_get u k _ (Nat.mod_lt _ (by omega)), power_get (rot (i % u.length) u) k _ (by rw [hr]; exact hj), hr,
      rot_get hm.le (Nat.mod_lt _ hn), Nat.mod_mul_left_mod]
    congr 1
    rw [← Nat.add_mod]
  · rw [List.getElem?_eq_none (by rw [rot_length, power_length]; omega),
      List.getElem?_eq_none (by rw [power_length, hr]; omega)]

omit [LinearOrder α] in
theorem rots_power {u : List α} (hu : u ≠ []) (k : Nat) :
    rots (power u k) = ((List.replicate k u).flatMap rots).map (power · k) := by
  have hn : 0 < u.length := List.length_pos_iff.2 hu
  have key : ∀ j, j ≤ k → (List.range (j * u.length)).map (fun i => rot i (power u k)) =
      ((List.replicate j u).flatMap rots).map (power · k) := by
    intro j
    induction j with
    | zero => intro _; simp
    | succ j ih =>
      intro hj
      have hjk : (j + 1) * u.length ≤ k * u.length := Nat.mul_le_mul_right _ hj
      rw [Nat.succ_mul] at hjk ⊢
      rw [List.range_add, List.map_append, ih (by omega), List.replicate_succ', List.flatMap_append, List.map_append]
      congr 1
      simp only [List.flatMap_cons, List.flatMap_nil, List.append_nil, rots, List.map_map]
      apply List.map_congr_left
      intro i hi
      rw [List.mem_range] at hi
      simp only [Function.comp]
      rw [rot_power hu (by omega), Nat.mul_add_mod_self_right, Nat.mod_eq_of_lt hi]
  have := key k le_rfl
  rw [← this, rots, power_length]

/-- On necklaces (least rotations) the bijective transform is the matrix BWT. -/
theorem bbwt_necklace {t : List α} (ht : t ≠ []) (hL : IsNecklace t) :
    ∃ b, bbwtNaive t = .ok b ∧ b.map some = (matrix t).map List.getLast? := by
  obtain ⟨fs, -, hf⟩ := duval_spec t
  obtain ⟨S, b, h1, h2, h3, h4⟩ := bbwtNaive_rows ht hf (le_refl _)
  refine ⟨b, h1, ?_⟩
  obtain ⟨u, hu⟩ := necklace_factors hL hf
  generalize fs.length = k at hu
  subst hu
  have ht' : t = power u k := by rw [← replicate_flatten]; exact hf.1.symm
  have hk : 0 < k := by
    by_contra h
    have : k = 0 := by omega
    rw [ht', this] at ht; exact ht rfl
  have hune : u ≠ [] := (hf.2.1 u (by rw [List.mem_replicate]; exact ⟨by omega, rfl⟩)).1
  have hn : 0 < u.length := List.length_pos_iff.2 hune
  have hmem : ∀ r ∈ S, r ≠ [] ∧ r.length = u.length := by
    intro r hr
    obtain ⟨f, hf', hr'⟩ := List.mem_flatMap.1 (h2.mem_iff.1 hr)
    obtain ⟨i, hi, rfl⟩ := List.mem_map.1 hr'
    rw [List.eq_of_mem_replicate hf', rot_length]
    exact ⟨by rw [← List.length_pos_iff, rot_length]; exact hn, rfl⟩
  have hmat : matrix t = S.map (power · k) := by
    apply matrix_unique
    refine ⟨?_, ?_⟩
    · have := h2.map (power · k)
      rw [← rots_power hune, ← ht'] at this
      exact this
    · rw [List.pairwise_map]
      refine h3.imp_of_mem ?_
      intro x y hx hy hxy
      obtain ⟨x1, x2⟩ := hmem x hx
      obtain ⟨y1, y2⟩ := hmem y hy
      have htl : t.length = k * u.length := by rw [ht', power_length]
      have hle : k * u.length ≤ t.length * t.length := by
        rw [← htl]; exact Nat.le_mul_of_pos_left _ (List.length_pos_iff.2 ht)
      have := take_le_take hxy (k * u.length) (by rw [omTake_length x1]; omega)
      rw [omTake_take x1 hle, omTake_take y1 hle] at this
      rw [power_eq_omTake x1, power_eq_omTake y1, x2, y2]
      exact this
  rw [h4, hmat, List.map_map]
  apply List.map_congr_left
  intro r hr
  obtain ⟨r1, r2⟩ := hmem r hr
  obtain ⟨k', rfl⟩ := Nat.exists_eq_succ_of_ne_zero hk.ne'
  have : ∀ m, (power r (m + 1)).getLast? = r.getLast? := by
    intro m
    rw [power_add, List.getLast?_append]
    have : power r 1 = r := by simp [power]
    rw [this]
    obtain ⟨c, hc⟩ : ∃ c, r.getLast? = some c := by
      rw [← Option.isSome_iff_exists, List.getLast?_isSome]; exact r1
    rw [hc]; rfl
  exact (this k').symm

end

/-! ### The suffix-array BWT without sentinel -/

/-- Appending a small letter does not change the order of suffixes. -/
theorem snoc_zero_lt {t : List UInt8} (hz : ∀ x ∈ t, x ≠ 0) {u v : List UInt8} (hv : v <:+ t) (h : u < v) :
    u ++ [0] < v ++ [0] := by
  rcases lt_iff_mis.1 h with ⟨⟨x, hx⟩, hne⟩ | hm
  · have hxne : x ≠ [] := by rintro rfl; simp at hx; exact hne hx
    obtain ⟨c, x, rfl⟩ := List.exists_cons_of_ne_nil hxne
    rw [← hx, List.append_assoc, append_lt_left, List.cons_append, cons_lt_cons]
    left
    apply byte_zero_lt
    apply hz
    have : c ∈ v := by rw [← hx]; simp
    exact hv.mem this
  · exact (hm.append _ _).lt

/-- On a zero-free necklace the suffix array sorts the rotations, without a sentinel. -/
theorem necklace_sa_matrix {L : List UInt8} (hz : ∀ x ∈ L, x ≠ 0) (hL : IsNecklace L) {sa : List Nat}
    (h : IsSuffixArray L sa) : matrix L = sa.map (fun i => rot i L) := by
  apply matrix_unique
  refine ⟨h.1.map _, ?_⟩
  rw [List.pairwise_map]
  refine h.2.imp_of_mem ?_
  intro a b ha hb hab
  have ha' := h.mem.1 ha
  have hb' := h.mem.1 hb
  refine necklace_suffix_rot (z := 0) (fun x hx => byte_zero_lt (hz x hx)) hL ha' hb' ?_
  rw [List.drop_append_of_le_length ha'.le, List.drop_append_of_le_length hb'.le]
  exact snoc_zero_lt hz (List.drop_suffix _ _) hab

theorem exists_sorted_ctx (p : UInt8) (t : List UInt8) :
    ∃ m : List (UInt8 × List UInt8), m.Perm (ctx p t) ∧ m.Pairwise (fun x y => x.2 < y.2) := by
  obtain ⟨sa, hsa⟩ := exists_suffixArray t
  have h1 := ctx_eq t p
  have h2 := (hsa.1.map (fun i => ((p :: t)[i]?, t.drop i))).symm
  rw [← h1] at h2
  have h3 : ((sa.map (fun i => ((p :: t)[i]?, t.drop i))).map (fun z => (z.1.getD 0, z.2))).Perm (ctx p t) := by
    have := (h2.map (fun z => (z.1.getD 0, z.2))).symm
    rwa [List.map_map, List.map_map (g := fun z => (z.1.getD 0, z.2)) (f := fun z : UInt8 × List UInt8 => (some z.1, z.2)),
      show (fun z : Option UInt8 × List UInt8 => (z.1.getD 0, z.2)) ∘ (fun z : UInt8 × List UInt8 => (some z.1, z.2)) = id from rfl,
      List.map_id, ← List.map_map] at this
  refine ⟨_, h3, ?_⟩
  rw [List.map_map, List.pairwise_map]
  exact hsa.2

theorem ctx_snoc (t : List UInt8) : ∀ p, ctx p (t ++ [0]) =
    (ctx p t).map (fun z => (z.1, z.2 ++ [0])) ++ [((p :: t).getLast (by simp), [0])] := by
  induction t with
  | nil => intro p; rfl
  | cons x t ih => intro p; simp [ctx, ih]

theorem ctx_fst_mem (t : List UInt8) : ∀ p, ∀ z ∈ ctx p t, z.1 = p ∨ z.1 ∈ t := by
  induction t with
  | nil => intro p z hz; simp [ctx] at hz
  | cons x t ih =>
    intro p z hz
    rw [ctx, List.mem_cons] at hz
    rcases hz with rfl | hz
    · exact Or.inl rfl
    · rcases ih x z hz with h | h
      · right; rw [h]; simp
      · right; exact List.mem_cons_of_mem _ h

theorem ctx_zero {p : UInt8} {t : List UInt8} (hz : ∀ x ∈ t, x ≠ 0) :
    (ctx 0 t).map (fun z => (if z.1 = 0 then p else z.1, z.2)) = ctx p t := by
  rcases t with _ | ⟨x, t⟩
  · rfl
  · rw [ctx, ctx, List.map_cons, if_pos rfl]
    congr 1
    conv_rhs => rw [← List.map_id (ctx x t)]
    apply List.map_congr_left
    intro z hm
    rcases ctx_fst_mem t x z hm with h | h
    · rw [if_neg (by rw [h]; exact hz x (by simp))]; rfl
    · rw [if_neg (hz _ (by simp [h]))]; rfl

theorem ctx_suffix (t : List UInt8) : ∀ p, ∀ z ∈ ctx p t, z.2 <:+ t := by
  induction t with
  | nil => intro p z hz; simp [ctx] at hz
  | cons x t ih =>
    intro p z hz
    rw [ctx, List.mem_cons] at hz
    rcases hz with rfl | hz
    · exact List.suffix_refl _
    · exact (ih x z hz).trans (List.suffix_cons _ _)

/-- The suffix-array BWT of a zero-free text without sentinel, in terms of the one with sentinel: drop the first
letter (the last letter of the text) and put it in the place of the zero. -/
theorem saBwt_without_sentinel {sufsort : List UInt8 → List Nat} (hs : SortsSuffixes sufsort) {t : List UInt8}
    {p : UInt8} (hp : t.getLast? = some p) (hz : ∀ x ∈ t, x ≠ 0) (hlen : t.length < 2147483647) :
    ∃ c, bwtFromTextBySa sufsort (t ++ [0]) = .ok (p :: c) ∧
      bwtFromTextBySa sufsort t = .ok (c.map (fun x => if x = 0 then p else x)) := by
  obtain ⟨m, hm, hms⟩ := exists_sorted_ctx 0 t
  have hne : t ≠ [] := by rintro rfl; simp at hp
  obtain ⟨w, hw⟩ : ∃ w, t = w ++ [p] := by
    obtain ⟨w, z, rfl⟩ := (List.eq_nil_or_concat' t).resolve_left hne
    rw [List.getLast?_append_of_ne_nil _ (by simp)] at hp
    simp at hp; exact ⟨w, by rw [hp]⟩
  obtain ⟨b, hb1, hb2⟩ := bwtFromTextBySa_ok hs (w := w) (z := p) (by
    intro x hx; exact hz x (by rw [hw]; simp [hx])) (by rw [hw] at hlen; simp at hlen; omega)
  rw [← hw] at hb1 hb2
  obtain ⟨d, hd1, hd2⟩ := bwtFromTextBySa_ok hs (w := t) (z := 0) hz hlen
  refine ⟨m.map Prod.fst, ?_, ?_⟩
  · rw [hd1]; congr 1
    have := saBwt_ctx (t := t ++ [0]) (p := 0) (by simp) (hs _ (by simp; omega)) hd2
      (m := (p, [0]) :: m.map (fun z => (z.1, z.2 ++ [0]))) ?_ ?_
    · rw [this]; simp
    · rw [ctx_snoc]
      have e : (0 :: t).getLast (by simp) = p := by
        have : (0 :: t).getLast? = some p := by
          rw [hw, ← List.cons_append, List.getLast?_append_of_ne_nil _ (by simp)]; rfl
        rw [List.getLast?_eq_some_getLast (by simp)] at this
        injection this
      rw [e]
      exact ((hm.map _).cons _).trans (List.perm_append_singleton _ _).symm
    · rw [List.pairwise_cons, List.pairwise_map]
      refine ⟨?_, hms.imp_of_mem ?_⟩
      · intro z hzm
        obtain ⟨z, hzm', rfl⟩ := List.mem_map.1 hzm
        replace hzm := hzm'
        have hsuf := ctx_suffix _ _ z (hm.mem_iff.1 hzm)
        have hzne : z.2 ≠ [] := by
          have : ∀ (t : List UInt8) p, ∀ z ∈ ctx p t, z.2 ≠ [] := by
            intro t
            induction t with
            | nil => intro p z hz; simp [ctx] at hz
            | cons x t ih =>
              intro p z hz
              rw [ctx, List.mem_cons] at hz
              rcases hz with rfl | hz
              · simp
              · exact ih x z hz
          exact this _ _ z (hm.mem_iff.1 hzm)
        have := snoc_zero_lt hz (u := []) hsuf (lt_of_prefix List.nil_prefix (Ne.symm hzne))
        exact this
      · intro x y _ hy hxy
        exact snoc_zero_lt hz (ctx_suffix _ _ y (hm.mem_iff.1 hy)) hxy
  · rw [hb1]; congr 1
    have := saBwt_ctx hp (hs t (by omega)) hb2
      (m := m.map (fun z => (if z.1 = 0 then p else z.1, z.2))) ?_ ?_
    · rw [this, List.map_map, List.map_map]; rfl
    · rw [← ctx_zero hz]; exact hm.map _
    · rw [List.pairwise_map]; exact hms

end Verif
