import Verif.Lemmas.Suffix
import Verif.Lemmas.Loops
import Mathlib.Data.List.Nodup

/-! # Permutation arrays: inverse, phi, and ranks in the suffix array -/

namespace Verif

open Spec Model

theorem Spec.IsPermutation.lt {p : List Nat} (h : IsPermutation p) {i : Nat} (hi : i < p.length) :
    p[i] < p.length := (perm_range_mem h).1 (List.getElem_mem hi)

theorem Spec.IsPermutation.inj {p : List Nat} (h : IsPermutation p) {i j : Nat} (hi : i < p.length)
    (hj : j < p.length) (e : p[i] = p[j]) : i = j :=
  (List.Nodup.getElem_inj_iff (perm_range_nodup h)).1 e

theorem Spec.IsPermutation.surj {p : List Nat} (h : IsPermutation p) {x : Nat} (hx : x < p.length) :
    ∃ i, ∃ (hi : i < p.length), p[i] = x :=
  List.getElem_of_mem ((perm_range_mem h).2 hx)

theorem inversePermutation_ok {tmax : Nat} {p : List Nat} (h : IsPermutation p)
    (ht : p.length ≤ tmax + 1) :
    ∃ q, inversePermutation tmax p = .ok q ∧ IsInverse p q := by
  obtain ⟨w, h1, h2, h3, -⟩ := forRange_scatter (lo := 0) (hi := p.length)
    (v := List.replicate p.length 0)
    (body := fun i inv => do
      let x ← rd p i
      if i ≤ tmax then wr inv x i else .error .unwrap)
    (f := fun i => p.getD i 0) (g := fun i => i) (Nat.zero_le _)
    (by
      intro i w _ hi _
      rw [rd_ok hi, ok_bind, if_pos (by omega)]
      simp [hi])
    (by intro i _ hi; simp [hi]; exact h.lt hi)
    (by intro i j _ hi _ hj e; simp [hi, hj] at e; exact h.inj hi hj e)
  have h2 : w.length = p.length := by simpa using h2
  have hq : ∀ i (hi : i < p.length), w[p[i]]? = some i := by
    intro i hi
    have := h3 i (Nat.zero_le _) hi
    simpa [hi] using this
  refine ⟨w, h1, h2, fun i hi => ⟨p[i], List.getElem?_eq_getElem hi, hq i hi⟩, fun i hi => ?_⟩
  obtain ⟨j, hj, hji⟩ := h.surj hi
  have := hq j hj
  rw [hji] at this
  exact ⟨j, this, by rw [List.getElem?_eq_getElem hj, hji]⟩

theorem computePhi_ok {p : List Nat} (h : IsPermutation p) (hne : 0 < p.length) :
    ∃ phi, computePhi p = .ok phi ∧ phi.length = p.length ∧
      (∀ i (h0 : 0 < i) (hi : i < p.length), phi[p[i]]? = some p[i - 1]) ∧
      phi[p[0]]? = some p[p.length - 1] := by
  obtain ⟨w, h1, h2, h3, -⟩ := forRange_scatter (lo := 1) (hi := p.length)
    (v := List.replicate p.length 0)
    (body := fun i phi => do
      let x ← rd p i
      let i1 ← usub i 1
      let q ← rd p i1
      wr phi x q)
    (f := fun i => p.getD i 0) (g := fun i => p.getD (i - 1) 0) (by omega)
    (by
      intro i w h1 hi _
      rw [rd_ok hi, ok_bind, usub_ok h1, ok_bind, rd_ok (by omega), ok_bind]
      simp [hi, show i - 1 < p.length by omega])
    (by intro i _ hi; simp [hi]; exact h.lt hi)
    (by intro i j _ hi _ hj e; simp [hi, hj] at e; exact h.inj hi hj e)
  have h2 : w.length = p.length := by simpa using h2
  have hp0 : p[0] < w.length := by rw [h2]; exact h.lt hne
  refine ⟨w.set p[0] p[p.length - 1], ?_, by simpa using h2, ?_, by simp [hp0]⟩
  · simp only [computePhi, assertR]
    rw [if_pos (by simpa using hne)]
    simp only [ok_bind]
    rw [h1]
    simp only [ok_bind]
    rw [rd_ok hne, ok_bind, usub_ok hne, ok_bind, rd_ok (by omega), ok_bind, wr_ok hp0]
  · intro i h0 hi
    rw [List.getElem?_set_ne (fun e => by have := h.inj hne hi e; omega)]
    have := h3 i h0 hi
    simpa [hi, show i - 1 < p.length by omega] using this

theorem computePhi_empty : computePhi [] = .error .assert := rfl

variable {α : Type} [LinearOrder α]

theorem Spec.IsSuffixArray.perm {t : List α} {sa : List Nat} (h : IsSuffixArray t sa) :
    IsPermutation sa := by
  have := h.1
  rw [← h.length] at this
  exact this

theorem Spec.IsSuffixArray.lt {t : List α} {sa : List Nat} (h : IsSuffixArray t sa) {i : Nat}
    (hi : i < sa.length) : sa[i] < t.length := by
  have := h.perm.lt hi; rw [h.length] at this; exact this

theorem Spec.IsSuffixArray.lt_iff {t : List α} {sa : List Nat} (h : IsSuffixArray t sa) {i j : Nat}
    (hi : i < sa.length) (hj : j < sa.length) : t.drop sa[i] < t.drop sa[j] ↔ i < j := by
  constructor
  · intro hlt
    by_contra hge
    rw [not_lt] at hge
    rcases Nat.eq_or_lt_of_le hge with rfl | hge
    · exact lt_irrefl _ hlt
    · exact lt_asymm hlt (List.pairwise_iff_getElem.1 h.2 j i hj hi hge)
  · intro hlt
    exact List.pairwise_iff_getElem.1 h.2 i j hi hj hlt

theorem Spec.IsSuffixArray.le_iff {t : List α} {sa : List Nat} (h : IsSuffixArray t sa) {i j : Nat}
    (hi : i < sa.length) (hj : j < sa.length) : t.drop sa[i] ≤ t.drop sa[j] ↔ i ≤ j := by
  rw [← not_lt, h.lt_iff hj hi]; omega

/-- Every suffix has a rank. -/
theorem Spec.IsSuffixArray.rank {t : List α} {sa : List Nat} (h : IsSuffixArray t sa) {x : Nat}
    (hx : x < t.length) : ∃ i, ∃ (hi : i < sa.length), sa[i] = x :=
  h.perm.surj (by rw [h.length]; exact hx)

/-- Inverse suffix array entries order the suffixes. -/
theorem isa_lt_iff {t : List α} {sa isa : List Nat} (h : IsSuffixArray t sa) (hi : IsInverse sa isa)
    {a b : Nat} (ha : a < t.length) (hb : b < t.length) (ha' : a < isa.length) (hb' : b < isa.length) :
    isa[a] < isa[b] ↔ t.drop a < t.drop b := by
  obtain ⟨i, hi1, rfl⟩ := h.rank ha
  obtain ⟨j, hj1, rfl⟩ := h.rank hb
  rw [h.lt_iff hi1 hj1]
  obtain ⟨x, e1, e2⟩ := hi.2.1 i hi1
  obtain ⟨y, e3, e4⟩ := hi.2.1 j hj1
  rw [List.getElem?_eq_getElem hi1] at e1
  rw [List.getElem?_eq_getElem hj1] at e3
  simp only [Option.some.injEq] at e1 e3
  subst e1; subst e3
  rw [List.getElem?_eq_getElem ha'] at e2
  rw [List.getElem?_eq_getElem hb'] at e4
  simp only [Option.some.injEq] at e2 e4
  rw [e2, e4]

end Verif
