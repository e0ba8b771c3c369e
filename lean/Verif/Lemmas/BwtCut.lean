import Verif.Lemmas.BwtTmD

/-! # The matrix of the image of a word with the sentinel, from the beginnings of its rows

`ψ` is a morphism on `a`, `b` that keeps the sentinel; the rows of `w ++ [0]` are cut at the beginnings `qs`; the rows of
the image are the images of the rows (`none`) and the rows that begin inside the block of a letter `c` (`some (c, j)`).  If
the beginnings of these groups are in order, so are the groups. -/

namespace Verif

open Spec Model

variable (ψ : UInt8 → List UInt8)

/-- The row of the image that begins at position `j` of the block of the last letter `c`. -/
def cutRow (c : UInt8) (j : Nat) (v : List UInt8) : List UInt8 :=
  (ψ c).drop j ++ v.dropLast.flatMap ψ ++ (ψ c).take j

def cutRows (c : UInt8) (j : Nat) (L : List (List UInt8)) : List (List UInt8) :=
  (L.filter fun v => v.getLastD 0 = c).map (cutRow ψ c j)

/-- The rows of one group. -/
def kRows (W : List UInt8) (x : Option (UInt8 × Nat) × List UInt8) : List (List UInt8) :=
  match x.1 with
  | none => (rowsP W x.2).map fun v => v.flatMap ψ
  | some (c, j) => cutRows ψ c j (rowsP W x.2)

/-- The beginning of the rows of one group. -/
def kPre (x : Option (UInt8 × Nat) × List UInt8) : List UInt8 :=
  match x.1 with
  | none => x.2.flatMap ψ
  | some (c, j) => (ψ c).drop j ++ x.2.flatMap ψ

/-- The last letters of the rows of one group. -/
def kLast (W : List UInt8) (x : Option (UInt8 × Nat) × List UInt8) : List UInt8 :=
  match x.1 with
  | none => (seg W x.2).map fun c => (ψ c).getLastD 0
  | some (c, j) => List.replicate ((seg W x.2).count c) (((ψ c).take j).getLastD 0)

/-- The positions inside the blocks. -/
def cutKs : List (Option (UInt8 × Nat)) :=
  [97, 98].flatMap fun c => (List.range ((ψ c).length - 1)).map fun j => some (c, j + 1)

variable {ψ}

theorem flatMap_nil_fun {α β : Type} (l : List α) : (l.flatMap fun _ => ([] : List β)) = [] := by
  rw [List.flatMap_eq_nil_iff]; intros; rfl

theorem cut_lastRots (h0 : ψ 0 = [0]) {L : List (List UInt8)} (hL : ∀ v ∈ L, v ≠ [] ∧ IsD (v.getLastD 0)) :
    (L.flatMap (lastRots ψ)).Perm ((cutKs ψ).flatMap fun k => match k with
      | none => []
      | some (c, j) => cutRows ψ c j L) := by
  induction L with
  | nil =>
    have : (fun k : Option (UInt8 × Nat) => match k with
      | none => []
      | some (c, j) => cutRows ψ c j []) = fun _ => ([] : List (List UInt8)) := by
      funext k; cases k <;> rfl
    rw [this]; simp
  | cons v L ih =>
    have ih := ih fun u hu => hL u (by simp [hu])
    obtain ⟨h1, h2⟩ := hL v (by simp)
    rw [List.flatMap_cons]
    have e : (fun k : Option (UInt8 × Nat) => match k with
        | none => ([] : List (List UInt8))
        | some (c, j) => cutRows ψ c j (v :: L)) = fun k : Option (UInt8 × Nat) =>
        (match k with
        | none => []
        | some (c, j) => if v.getLastD 0 = c then [cutRow ψ c j v] else []) ++
        (match k with
        | none => []
        | some (c, j) => cutRows ψ c j L) := by
      funext k
      cases k with
      | none => rfl
      | some p =>
        simp only [cutRows, List.filter_cons, decide_eq_true_eq]
        by_cases h : v.getLastD 0 = p.1
        · rw [if_pos h, if_pos h]; rfl
        · rw [if_neg h, if_neg h]; rfl
    rw [e]
    refine List.Perm.trans ?_ (List.flatMap_append_perm _ _ _)
    refine List.Perm.append (List.Perm.of_eq ?_) ih
    obtain ⟨v', x, rfl⟩ := (List.eq_nil_or_concat' v).resolve_left h1
    rw [lastD_concat] at h2 ⊢
    unfold cutKs
    simp only [List.flatMap_cons, List.flatMap_nil, List.append_nil, List.flatMap_append, List.flatMap_map]
    rcases h2 with rfl | rfl | rfl
    · simp [lastRots, h0]
    · simp only [show ¬ (97 : UInt8) = 98 by decide, if_true, if_false, lastRots, List.getLast?_concat]
      rw [flatMap_nil_fun, List.map_eq_flatMap]
      simp [cutRow]
    · simp only [show ¬ (98 : UInt8) = 97 by decide, if_true, if_false, lastRots, List.getLast?_concat]
      rw [flatMap_nil_fun, List.map_eq_flatMap]
      simp [cutRow]

section
variable {w : List UInt8} (hab : ∀ c ∈ w, IsAb c) (h0 : ψ 0 = [0]) (hne : ∀ c, IsD c → ψ c ≠ [])
include hab

include hne in
theorem kRows_last {x : Option (UInt8 × Nat) × List UInt8} (hj : ∀ c j, x.1 = some (c, j) → 0 < j ∧ IsD c) :
    (kRows ψ (w ++ [0]) x).map (fun v => v.getLastD 0) = kLast ψ (w ++ [0]) x := by
  obtain ⟨k, q⟩ := x
  cases k with
  | none =>
    simp only [kRows, kLast, seg, List.map_map]
    apply List.map_congr_left
    intro v hv
    have hv1 := (mem_rowsP.1 hv).1
    obtain ⟨v', x, rfl⟩ := (List.eq_nil_or_concat' v).resolve_left (row_ne hv1)
    simp only [Function.comp]
    rw [List.flatMap_append, List.flatMap_singleton, lastD_append (hne x (rowsD hab hv1 x (by simp))), lastD_concat]
  | some p =>
    obtain ⟨c, j⟩ := p
    obtain ⟨hj, hc⟩ := hj c j rfl
    simp only [kRows, kLast, seg, cutRows, List.map_map]
    rw [← filter_last_length, ← List.map_const]
    apply List.map_congr_left
    intro v hv
    simp only [Function.comp, cutRow]
    rw [lastD_append]
    · rfl
    · have := hne c hc
      cases h : ψ c with
      | nil => exact absurd h this
      | cons y t =>
        obtain ⟨j', rfl⟩ : ∃ j', j = j' + 1 := ⟨j - 1, by omega⟩
        simp

omit hab in
theorem kRows_pre {x : Option (UInt8 × Nat) × List UInt8} (hq : x.2.length ≤ w.length) :
    ∀ r ∈ kRows ψ (w ++ [0]) x, kPre ψ x <+: r := by
  obtain ⟨k, q⟩ := x
  cases k with
  | none =>
    intro r hr
    obtain ⟨v, hv, rfl⟩ := List.mem_map.1 hr
    obtain ⟨t, rfl⟩ := (mem_rowsP.1 hv).2
    exact ⟨t.flatMap ψ, by simp [kPre]⟩
  | some p =>
    obtain ⟨c, j⟩ := p
    intro r hr
    simp only [kRows, cutRows] at hr
    obtain ⟨v, hv, rfl⟩ := List.mem_map.1 hr
    obtain ⟨hm, t, rfl⟩ := mem_rowsP.1 (List.mem_of_mem_filter hv)
    have hl := matrix_row_length hm
    simp only [List.length_append, List.length_singleton] at hl hq
    have ht : t ≠ [] := by rintro rfl; simp at hl; omega
    simp only [kPre, cutRow]
    rw [List.dropLast_append_of_ne_nil ht, List.flatMap_append]
    exact ⟨t.dropLast.flatMap ψ ++ (ψ c).take j, by simp⟩

omit hab in
theorem kRows_sorted {x : Option (UInt8 × Nat) × List UInt8}
    (hmono : ∀ u ∈ rowsP (w ++ [0]) x.2, ∀ v ∈ rowsP (w ++ [0]) x.2, u < v →
      ∀ s t, Mis (u.dropLast.flatMap ψ ++ s) (v.dropLast.flatMap ψ ++ t)) : (kRows ψ (w ++ [0]) x).Pairwise (· ≤ ·) := by
  obtain ⟨k, q⟩ := x
  cases k with
  | none =>
    refine sorted_map (rowsP_sorted _ _) fun u hu v hv hlt => ?_
    have := hmono u hu v hv hlt
    obtain ⟨u', y, rfl⟩ := (List.eq_nil_or_concat' u).resolve_left (row_ne (mem_rowsP.1 hu).1)
    obtain ⟨v', z, rfl⟩ := (List.eq_nil_or_concat' v).resolve_left (row_ne (mem_rowsP.1 hv).1)
    rw [List.dropLast_concat, List.dropLast_concat] at this
    rw [List.flatMap_append, List.flatMap_append]
    exact (this _ _).lt
  | some p =>
    obtain ⟨c, j⟩ := p
    refine sorted_map ((rowsP_sorted _ _).filter _) fun u hu v hv hlt => ?_
    have := hmono u (List.mem_of_mem_filter hu) v (List.mem_of_mem_filter hv) hlt
    unfold cutRow
    rw [List.append_assoc, List.append_assoc]
    exact (mis_append_left.2 (this _ _)).lt

include h0 hne in
/-- The matrix of the image, by groups. -/
theorem matrix_cut {qs : List (List UInt8)} {G E : List (Option (UInt8 × Nat) × List UInt8)}
    (hq : qs.Pairwise fun p q => misB p q = true) (hcov : ∀ v ∈ matrix (w ++ [0]), ∃ p ∈ qs, p <+: v)
    (hlen : ∀ q ∈ qs, q.length ≤ w.length)
    (hperm : (G ++ E).Perm ((none :: cutKs ψ).flatMap fun k => qs.map fun q => (k, q)))
    (hE : ∀ e ∈ E, kRows ψ (w ++ [0]) e = [])
    (hG : G.Pairwise fun x y => misB (kPre ψ x) (kPre ψ y) = true)
    (hmono : ∀ q ∈ qs, ∀ u ∈ rowsP (w ++ [0]) q, ∀ v ∈ rowsP (w ++ [0]) q, u < v →
      ∀ s t, Mis (u.dropLast.flatMap ψ ++ s) (v.dropLast.flatMap ψ ++ t)) :
    matrix ((w ++ [0]).flatMap ψ) = G.flatMap (kRows ψ (w ++ [0])) := by
  have hGq : ∀ x ∈ G, x.2 ∈ qs := by
    intro x hx
    have := hperm.mem_iff.1 (List.mem_append_left _ hx)
    simp only [List.mem_flatMap, List.mem_map] at this
    obtain ⟨k, -, q, hq, rfl⟩ := this
    exact hq
  have hM := matrix_eq_rowsP hq hcov
  refine matrix_flatMap (fun c hc => hne c ?_) ?_ ?_
  · rcases List.mem_append.1 hc with h | h
    · exact Or.inr (hab c h)
    · exact Or.inl (by simpa using h)
  · have e := cut_lastRots h0 (L := matrix (w ++ [0])) fun v hv => ⟨row_ne hv, row_last hab hv⟩
    have e1 : G.flatMap (kRows ψ (w ++ [0])) = (G ++ E).flatMap (kRows ψ (w ++ [0])) := by
      rw [List.flatMap_append]
      have : E.flatMap (kRows ψ (w ++ [0])) = [] := by
        rw [List.flatMap_eq_nil_iff]; exact hE
      rw [this, List.append_nil]
    rw [e1]
    refine (hperm.flatMap_right _).trans ?_
    rw [List.flatMap_cons, List.flatMap_append]
    refine List.Perm.append (List.Perm.of_eq ?_) ?_
    · rw [List.flatMap_map]
      conv_rhs => rw [hM]
      rw [List.map_flatMap]; rfl
    · refine List.Perm.trans (List.Perm.of_eq ?_) e.symm
      rw [List.flatMap_assoc, List.flatMap_def, List.flatMap_def]
      congr 1
      apply List.map_congr_left
      intro k hk
      rw [List.flatMap_map]
      cases k with
      | none => simp [cutKs] at hk
      | some p =>
        obtain ⟨c, j⟩ := p
        simp only [cutRows]
        conv_rhs => rw [hM]
        rw [List.filter_flatMap, List.map_flatMap]
        rfl
  · rw [List.flatMap_def, List.pairwise_flatten]
    refine ⟨fun l hl => ?_, ?_⟩
    · obtain ⟨x, hx, rfl⟩ := List.mem_map.1 hl
      exact kRows_sorted (hmono _ (hGq x hx))
    · rw [List.pairwise_map]
      refine hG.imp_of_mem fun {x y} hx hy h r hr s hs => ?_
      exact le_of_lt (misB_lt h (kRows_pre (hlen _ (hGq x hx)) r hr) (kRows_pre (hlen _ (hGq y hy)) s hs))

include hne in
/-- The last letters of the rows of the image that begin with `p`. -/
theorem seg_cut {G : List (Option (UInt8 × Nat) × List UInt8)} {p : List UInt8}
    (hm : matrix ((w ++ [0]).flatMap ψ) = G.flatMap (kRows ψ (w ++ [0])))
    (hlen : ∀ x ∈ G, x.2.length ≤ w.length ∧ ∀ c j, x.1 = some (c, j) → 0 < j ∧ IsD c)
    (hp : ∀ P ∈ G.map (kPre ψ), p.isPrefixOf P = true ∨ (misB p P || misB P p) = true) :
    seg ((w ++ [0]).flatMap ψ) p = (G.filter fun x => p.isPrefixOf (kPre ψ x)).flatMap (kLast ψ (w ++ [0])) := by
  have h := rowsP_groups (W := (w ++ [0]).flatMap ψ) (p := p) (gs := G.map fun x => ([kPre ψ x], kRows ψ (w ++ [0]) x))
    (by rw [hm, List.flatMap_map]) ?_ ?_
  · rw [seg, h, List.filter_map, List.flatMap_map, List.map_flatMap]
    have e : (G.filter ((fun g : List (List UInt8) × List (List UInt8) => g.1.all fun q => p.isPrefixOf q) ∘
        fun x => ([kPre ψ x], kRows ψ (w ++ [0]) x))) = G.filter fun x => p.isPrefixOf (kPre ψ x) := by
      apply List.filter_congr
      intro x _
      simp
    rw [e, List.flatMap_def, List.flatMap_def]
    congr 1
    apply List.map_congr_left
    intro x hx
    exact kRows_last hab hne (hlen x (List.mem_of_mem_filter hx)).2
  · intro g hg r hr
    obtain ⟨x, hx, rfl⟩ := List.mem_map.1 hg
    exact ⟨_, by simp, kRows_pre (hlen x hx).1 r hr⟩
  · intro P hP
    obtain ⟨g, hg, rfl⟩ := List.mem_map.1 hP
    obtain ⟨x, hx, rfl⟩ := List.mem_map.1 hg
    rcases hp _ (List.mem_map.2 ⟨x, hx, rfl⟩) with h | h
    · exact Or.inl (by simpa using h)
    · exact Or.inr (by simpa using h)

end

end Verif
