import Verif.Lemmas.Duval
import Verif.Spec.Arrays
import Verif.Lemmas.Sort

/-! # Suffix order: Lyndon factors and suffix arrays -/

namespace Verif

open Spec Model

variable {α : Type} [LinearOrder α]

/-- A concatenation of Lyndon words not larger than the Lyndon word `f` grows when `f` is put in
front. -/
theorem flatten_lt_cons {f : List α} (hf : IsLyndon f) (gs : List (List α))
    (hl : ∀ g ∈ gs, IsLyndon g) (hle : ∀ g ∈ gs, g ≤ f) : gs.flatten < f ++ gs.flatten := by
  induction gs with
  | nil => exact lt_of_prefix List.nil_prefix (by simpa using hf.1.symm)
  | cons g gs ih =>
    have ih := ih (fun x hx => hl x (by simp [hx])) (fun x hx => hle x (by simp [hx]))
    have hgf := hle g (by simp)
    simp only [List.flatten_cons]
    rcases hgf.lt_or_eq with hlt | rfl
    · rcases lt_iff_mis.1 hlt with ⟨⟨f', rfl⟩, hne⟩ | hm
      · have hf' : f' ≠ [] := by rintro rfl; simp at hne
        rw [List.append_assoc, append_lt_left]
        exact ih.trans ((hf.mis (hl g (by simp)).1 hf' rfl).append _ _).lt
      · exact (hm.append _ _).lt
    · exact append_lt_left.2 ih

/-- The suffix starting at a Lyndon factor is smaller than all suffixes starting before it. -/
theorem suffix_start_lt (gs1 gs2 : List (List α)) (hl : ∀ g ∈ gs1 ++ gs2, IsLyndon g)
    (hp : (gs1 ++ gs2).Pairwise (fun f g => g ≤ f)) (q : Nat) (hq : q < gs1.flatten.length) :
    gs2.flatten < (gs1 ++ gs2).flatten.drop q := by
  induction gs1 generalizing q with
  | nil => simp at hq
  | cons g gs1 ih =>
    have hl' : ∀ x ∈ gs1 ++ gs2, IsLyndon x := fun x hx => hl x (by
      rw [List.cons_append]; exact List.mem_cons_of_mem _ hx)
    rw [List.cons_append, List.pairwise_cons] at hp
    have hg := hl g (by simp)
    have h0 : gs2.flatten ≤ (gs1 ++ gs2).flatten := by
      cases gs1 with
      | nil => exact le_refl _
      | cons f gs1 =>
        have hf := (hl' f (by simp)).length_pos
        have := ih hl' hp.2 0 (by simp; omega)
        simpa using this.le
    have h1 : gs2.flatten < g ++ (gs1 ++ gs2).flatten :=
      lt_of_le_of_lt h0 (flatten_lt_cons hg _ hl' hp.1)
    rw [List.cons_append, List.flatten_cons]
    by_cases hqg : q < g.length
    · rw [List.drop_append_of_le_length hqg.le]
      by_cases hq0 : q = 0
      · subst hq0; simpa using h1
      · exact h1.trans ((hg.mis_drop (Nat.pos_of_ne_zero hq0) hqg).append _ _).lt
    · obtain ⟨e, rfl⟩ : ∃ e, q = g.length + e := ⟨q - g.length, by omega⟩
      rw [List.drop_length_add_append]
      simp at hq
      exact ih hl' hp.2 e (by simp; omega)

/-- Suffixes starting strictly inside a Lyndon factor are larger than the one at its start. -/
theorem suffix_inside_gt (f x : List α) (hf : IsLyndon f) (d : Nat) (h0 : 0 < d)
    (h1 : d < f.length) : f ++ x < (f ++ x).drop d := by
  rw [List.drop_append_of_le_length h1.le]
  exact ((hf.mis_drop h0 h1).append _ _).lt

/-- The suffix at the start of a factor of a Lyndon factorization is least among the suffixes starting
before the end of this factor. -/
theorem factor_suffix_min {pre post : List (List α)} {f t : List α}
    (h : IsLyndonFactorization (pre ++ f :: post) t) (q : Nat)
    (hq : q < pre.flatten.length + f.length) (hne : q ≠ pre.flatten.length) :
    t.drop pre.flatten.length < t.drop q := by
  obtain ⟨h1, h2, h3⟩ := h
  have e : t.drop pre.flatten.length = (f :: post).flatten := by rw [← h1]; simp
  rcases Nat.lt_or_ge q pre.flatten.length with hlt | hge
  · rw [e, ← h1]; exact suffix_start_lt pre (f :: post) h2 h3 q hlt
  · obtain ⟨d, rfl⟩ : ∃ d, q = pre.flatten.length + d := ⟨q - pre.flatten.length, by omega⟩
    rw [← List.drop_drop, e]
    exact suffix_inside_gt f post.flatten (h2 f (by simp)) d (by omega) (by omega)

/-- Taking prefixes of the same length keeps `≤`. -/
theorem take_le_take {u v : List α} (h : u ≤ v) (n : Nat) (hl : n ≤ u.length ∨ v.length ≤ n) :
    u.take n ≤ v.take n := by
  rcases h.lt_or_eq with hlt | rfl
  · rcases lt_iff_mis.1 hlt with ⟨⟨w, rfl⟩, hne⟩ | ⟨p, a, b, u', v', rfl, rfl, hab⟩
    · rcases hl with hl | hl
      · rw [List.take_append_of_le_length hl]
      · simp at hl
        exact le_of_prefix (by
          rw [List.take_of_length_le (by omega), List.take_of_length_le (by simp; omega)]; simp)
    · rw [List.take_append, List.take_append]
      by_cases hn : n ≤ p.length
      · rw [show n - p.length = 0 by omega]; simp
      · obtain ⟨m, hm⟩ : ∃ m, n - p.length = m + 1 := ⟨n - p.length - 1, by omega⟩
        rw [hm]
        exact (Mis.lt ⟨p.take n, a, b, u'.take m, v'.take m, by simp, by simp, hab⟩).le
  · exact le_refl _

/-! ### Suffix arrays -/

section
omit [LinearOrder α]
theorem perm_range_mem {p : List Nat} {n x : Nat} (h : p.Perm (List.range n)) : x ∈ p ↔ x < n := by
  rw [h.mem_iff]; simp

theorem perm_range_length {p : List Nat} {n : Nat} (h : p.Perm (List.range n)) : p.length = n := by
  rw [h.length_eq]; simp

theorem perm_range_nodup {p : List Nat} {n : Nat} (h : p.Perm (List.range n)) : p.Nodup :=
  h.nodup_iff.2 List.nodup_range

theorem drop_injOn {t : List α} {a b : Nat} (ha : a ≤ t.length) (hb : b ≤ t.length)
    (h : t.drop a = t.drop b) : a = b := by
  have := congrArg List.length h
  rw [List.length_drop, List.length_drop] at this; omega
end

theorem Spec.IsSuffixArray.length {t : List α} {sa : List Nat} (h : IsSuffixArray t sa) :
    sa.length = t.length := perm_range_length h.1

theorem Spec.IsSuffixArray.mem {t : List α} {sa : List Nat} (h : IsSuffixArray t sa) {x : Nat} :
    x ∈ sa ↔ x < t.length := perm_range_mem h.1

/-- There is only one suffix array. -/
theorem Spec.IsSuffixArray.unique {t : List α} {sa sb : List Nat} (h1 : IsSuffixArray t sa)
    (h2 : IsSuffixArray t sb) : sa = sb :=
  List.Perm.eq_of_pairwise (fun _ _ _ _ h h' => absurd h (not_lt.2 (le_of_lt h'))) h1.2 h2.2
    (h1.1.trans h2.1.symm)

/-- `suffixarray_naive` returns the suffix array. -/
theorem suffixarrayNaive_ok (t : List α) :
    ∃ sa, suffixarrayNaive t = .ok sa ∧ IsSuffixArray t sa := by
  obtain ⟨s, h1, h2, -, h4⟩ := sortByR_key (cmp := suffixCmp t) (key := fun a => t.drop a)
    (l := List.range t.length) (by
      intro a ha b hb
      simp at ha hb
      simp [suffixCmp, ha.le, hb.le, ucmp])
  refine ⟨s, h1, h2, ?_⟩
  refine (h4.and (perm_range_nodup h2)).imp_of_mem ?_
  intro a b ha hb h
  have ha := (perm_range_mem h2).1 ha
  have hb := (perm_range_mem h2).1 hb
  exact h.1.lt_of_ne (fun e => h.2 (drop_injOn ha.le hb.le e))

theorem exists_suffixArray (t : List α) : ∃ sa, IsSuffixArray t sa := by
  obtain ⟨sa, _, h⟩ := suffixarrayNaive_ok t
  exact ⟨sa, h⟩

end Verif
