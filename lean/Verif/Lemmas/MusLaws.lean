import Verif.Lemmas.Mus
import Mathlib.Data.List.Sort

/-! # Laws of minimal unique substrings -/

namespace Verif

open Spec Model

variable {α : Type}

/-- The substring of `t` at `i` of length `l` occurs nowhere else. -/
def Uq (t : List α) (i l : Nat) : Prop := 0 < l ∧ i + l ≤ t.length ∧ ∀ j, Occ t j i l → j = i

theorem Uq.mono {t : List α} {i l j m : Nat} (h : Uq t j m) (h1 : i ≤ j) (h2 : j + m ≤ i + l) (h3 : i + l ≤ t.length) : Uq t i l := by
  obtain ⟨a, b, c⟩ := h
  refine ⟨by omega, h3, fun k hk => ?_⟩
  have := c _ (by simpa [show i + (j - i) = j by omega] using hk.sub (a := j - i) (b := m) (by omega))
  omega

theorem uq_iff {t : List α} {i l : Nat} : Uq t i l ↔ 0 < l ∧ i + l ≤ t.length ∧ ∀ j, OccursAt ((t.drop i).take l) t j → j = i := by
  constructor
  · rintro ⟨a, b, c⟩
    exact ⟨a, b, fun j hj => c j ((occursAt_take b).1 hj)⟩
  · rintro ⟨a, b, c⟩
    exact ⟨a, b, fun j hj => c j ((occursAt_take b).2 hj)⟩

theorem sub_infix {t : List α} {i l j m : Nat} (h1 : i ≤ j) (h2 : j + m ≤ i + l) : (t.drop j).take m <:+: (t.drop i).take l := by
  obtain ⟨a, rfl⟩ : ∃ a, j = i + a := ⟨j - i, by omega⟩
  have : (t.drop (i + a)).take m = (((t.drop i).take l).drop a).take m := by
    rw [List.drop_take, List.drop_drop, List.take_take, Nat.min_eq_left (by omega)]
  rw [this]
  exact (List.take_prefix _ _).isInfix.trans (List.drop_suffix _ _).isInfix

theorem infix_sub {t v : List α} {i l : Nat} (h : v <:+: (t.drop i).take l) (hi : i + l ≤ t.length) :
    ∃ j, i ≤ j ∧ j + v.length ≤ i + l ∧ v = (t.drop j).take v.length := by
  obtain ⟨p, s, hv⟩ := h
  have hlen : p.length + v.length + s.length = l := by
    have := congrArg List.length hv
    simp at this
    omega
  refine ⟨i + p.length, by omega, by omega, ?_⟩
  have e1 : (((t.drop i).take l).drop p.length).take v.length = v := by
    rw [← hv, List.append_assoc, List.drop_left, List.take_left]
  rw [List.drop_take, List.drop_drop, List.take_take, Nat.min_eq_left (by omega)] at e1
  exact e1.symm

theorem not_uq_iff {t : List α} {j m : Nat} (hm : 0 < m) (h : j + m ≤ t.length) : ¬ Uq t j m ↔ Repeats ((t.drop j).take m) t := by
  constructor
  · intro hn
    simp only [Uq, hm, h, true_and, not_forall] at hn
    obtain ⟨k, hk, hne⟩ := hn
    exact ⟨k, j, hne, (occursAt_take h).2 hk, (occursAt_take h).2 ⟨h, h, fun _ _ => rfl⟩⟩
  · rintro ⟨a, b, hab, ha, hb⟩ hu
    exact hab ((hu.2.2 a ((occursAt_take h).1 ha)).trans (hu.2.2 b ((occursAt_take h).1 hb)).symm)

theorem isMus_iff_uq {t : List α} {i l : Nat} :
    IsMus t i l ↔ Uq t i l ∧ ∀ j m, i ≤ j → j + m ≤ i + l → (j, m) ≠ (i, l) → ¬ Uq t j m := by
  constructor
  · rintro ⟨a, b, c, d⟩
    refine ⟨uq_iff.2 ⟨a, b, c⟩, fun j m h1 h2 h3 hu => ?_⟩
    have hm := hu.1
    have hl1 : ((t.drop j).take m).length = m := by simp; omega
    have hl2 : ((t.drop i).take l).length = l := by simp; omega
    refine absurd hu ((not_uq_iff hm (by omega)).2 (d _ (sub_infix h1 h2) (fun e => h3 ?_) (fun e => ?_)))
    · have e1 := congrArg List.length e
      rw [hl1, hl2] at e1
      subst e1
      have : j = i := by omega
      rw [this]
    · have e1 := congrArg List.length e
      rw [hl1, List.length_nil] at e1
      omega
  · rintro ⟨hu, hd⟩
    obtain ⟨a, b, c⟩ := uq_iff.1 hu
    refine ⟨a, b, c, fun v hv h1 h2 => ?_⟩
    obtain ⟨j, i1, i2, i3⟩ := infix_sub hv b
    have hvl := List.length_pos_iff.2 h2
    rw [i3]
    refine (not_uq_iff hvl (by omega)).1 (hd j v.length i1 i2 fun e => h1 ?_)
    injection e with e1 e2
    rw [i3, e1, e2]

theorem exists_mus {t : List α} {i l : Nat} (h : Uq t i l) : ∃ j m, IsMus t j m ∧ i ≤ j ∧ j + m ≤ i + l := by
  induction l using Nat.strongRecOn generalizing i with
  | _ l ih =>
    by_cases hm : IsMus t i l
    · exact ⟨i, l, hm, le_rfl, le_rfl⟩
    · have : ∃ j m, i ≤ j ∧ j + m ≤ i + l ∧ (j, m) ≠ (i, l) ∧ Uq t j m := by
        by_contra hc
        refine hm (isMus_iff_uq.2 ⟨h, fun j m h1 h2 h3 hu => hc ⟨j, m, h1, h2, h3, hu⟩⟩)
      obtain ⟨j, m, h1, h2, h3, hu⟩ := this
      have hlt : m < l := by
        by_contra hge
        exact h3 (by rw [show j = i by omega, show m = l by omega])
      obtain ⟨j', m', g1, g2, g3⟩ := ih m hlt hu
      exact ⟨j', m', g1, by omega, by omega⟩

theorem uq_iff_mus {t : List α} {i l : Nat} (hi : i + l ≤ t.length) : Uq t i l ↔ ∃ j m, IsMus t j m ∧ i ≤ j ∧ j + m ≤ i + l := by
  constructor
  · exact exists_mus
  · rintro ⟨j, m, h1, h2, h3⟩
    exact (isMus_iff_uq.1 h1).1.mono h2 h3 hi

theorem IsMus.ends_lt {t : List α} {i l j m : Nat} (h1 : IsMus t i l) (h2 : IsMus t j m) (h : i < j) : i + l < j + m := by
  by_contra hc
  refine (isMus_iff_uq.1 h1).2 j m h.le (by omega) (fun e => ?_) (isMus_iff_uq.1 h2).1
  injection e with e1 e2
  omega

theorem uq_whole {t : List α} (h : t ≠ []) : Uq t 0 t.length :=
  ⟨List.length_pos_iff.2 h, by omega, fun j hj => by have := hj.1; omega⟩

theorem occ_reverse {t : List α} {i j l : Nat} (h : Occ t j i l) : Occ t.reverse (t.length - j - l) (t.length - i - l) l := by
  obtain ⟨a, b, c⟩ := h
  refine ⟨by simp; omega, by simp; omega, fun k hk => ?_⟩
  rw [List.getElem?_reverse (by omega), List.getElem?_reverse (by omega)]
  have := c (l - 1 - k) (by omega)
  rw [show t.length - 1 - (t.length - j - l + k) = j + (l - 1 - k) by omega,
    show t.length - 1 - (t.length - i - l + k) = i + (l - 1 - k) by omega]
  exact this

theorem uq_reverse {t : List α} {i l : Nat} (h : Uq t i l) : Uq t.reverse (t.length - i - l) l := by
  obtain ⟨a, b, c⟩ := h
  refine ⟨a, by simp; omega, fun j hj => ?_⟩
  have hb := hj.1
  have := occ_reverse hj
  simp only [List.reverse_reverse, List.length_reverse] at this hb
  rw [show t.length - (t.length - i - l) - l = i by omega] at this
  have := c _ this
  omega

theorem isMus_reverse {t : List α} {i l : Nat} (h : IsMus t i l) : IsMus t.reverse (t.length - i - l) l := by
  obtain ⟨h1, h2⟩ := isMus_iff_uq.1 h
  have hb := h1.2.1
  refine isMus_iff_uq.2 ⟨uq_reverse h1, fun j m a b hne hu => ?_⟩
  have hub := hu.2.1
  have hu' := uq_reverse hu
  simp only [List.reverse_reverse, List.length_reverse] at hu' hub
  refine h2 (t.length - j - m) m (by omega) (by omega) (fun e => hne ?_) hu'
  injection e with e1 e2
  subst e2
  rw [show j = t.length - i - m by omega]

theorem occ_map {β : Type} {g : α → β} (hg : ∀ x y, g x = g y → x = y) {t : List α} {i j l : Nat} : Occ (t.map g) j i l ↔ Occ t j i l := by
  simp only [Occ, List.length_map, List.getElem?_map]
  refine and_congr_right fun a => and_congr_right fun b => forall_congr' fun k => forall_congr' fun hk => ?_
  rw [List.getElem?_eq_getElem (show j + k < t.length by omega), List.getElem?_eq_getElem (show i + k < t.length by omega)]
  simp only [Option.map_some, Option.some.injEq]
  exact ⟨hg _ _, fun e => by rw [e]⟩

theorem uq_map {β : Type} {g : α → β} (hg : ∀ x y, g x = g y → x = y) {t : List α} {i l : Nat} : Uq (t.map g) i l ↔ Uq t i l := by
  simp only [Uq, List.length_map, occ_map hg]

theorem isMus_map {β : Type} {g : α → β} (hg : ∀ x y, g x = g y → x = y) {t : List α} {i l : Nat} : IsMus (t.map g) i l ↔ IsMus t i l := by
  simp only [isMus_iff_uq, uq_map hg]

/-- a letter that occurs nowhere else at the end -/
theorem uq_snoc {t : List α} {c : α} (hc : c ∉ t) {i l : Nat} :
    Uq (t ++ [c]) i l ↔ (0 < l ∧ i + l = t.length + 1) ∨ Uq t i l := by
  have key : ∀ j, i + l ≤ t.length → 0 < l → (Occ (t ++ [c]) j i l ↔ Occ t j i l) := by
    intro j hi hl
    simp only [Occ, List.length_append, List.length_singleton]
    constructor
    · rintro ⟨a, b, h⟩
      have hj : j + l ≤ t.length := by
        by_contra hj
        have := h (l - 1) (by omega)
        rw [show j + (l - 1) = t.length by omega, List.getElem?_append_right le_rfl, List.getElem?_append_left (by omega)] at this
        simp at this
        exact hc (List.mem_of_getElem? this.symm)
      refine ⟨hj, hi, fun k hk => ?_⟩
      have := h k hk
      rwa [List.getElem?_append_left (by omega), List.getElem?_append_left (by omega)] at this
    · rintro ⟨a, b, h⟩
      refine ⟨by omega, by omega, fun k hk => ?_⟩
      rw [List.getElem?_append_left (by omega), List.getElem?_append_left (by omega)]
      exact h k hk
  constructor
  · rintro ⟨a, b, h⟩
    simp only [List.length_append, List.length_singleton] at b
    by_cases he : i + l = t.length + 1
    · exact .inl ⟨a, he⟩
    · exact .inr ⟨a, by omega, fun j hj => h j ((key j (by omega) a).2 hj)⟩
  · rintro (⟨a, b⟩ | ⟨a, b, h⟩)
    · refine ⟨a, by simp; omega, fun j hj => ?_⟩
      obtain ⟨h1, h2, h3⟩ := hj
      simp only [List.length_append, List.length_singleton] at h1
      by_contra hne
      have := h3 (l - 1) (by omega)
      rw [show i + (l - 1) = t.length by omega, List.getElem?_append_right le_rfl, List.getElem?_append_left (by omega)] at this
      simp at this
      exact hc (List.mem_of_getElem? this)
    · exact ⟨a, by simp; omega, fun j hj => h j ((key j b a).1 hj)⟩

theorem isMus_snoc_fresh {t : List α} {c : α} (hc : c ∉ t) {i l : Nat} : IsMus (t ++ [c]) i l ↔ IsMus t i l ∨ (i, l) = (t.length, 1) := by
  constructor
  · intro h
    obtain ⟨h1, h2⟩ := isMus_iff_uq.1 h
    rcases (uq_snoc hc).1 h1 with ⟨a, b⟩ | hu
    · right
      by_contra hne
      exact h2 t.length 1 (by omega) (by omega) (fun e => hne e.symm) ((uq_snoc hc).2 (.inl ⟨by omega, rfl⟩))
    · exact .inl (isMus_iff_uq.2 ⟨hu, fun j m a b hne hu' => h2 j m a b hne ((uq_snoc hc).2 (.inr hu'))⟩)
  · rintro (h | h)
    · obtain ⟨h1, h2⟩ := isMus_iff_uq.1 h
      refine isMus_iff_uq.2 ⟨(uq_snoc hc).2 (.inr h1), fun j m a b hne hu => ?_⟩
      rcases (uq_snoc hc).1 hu with ⟨c1, c2⟩ | hu
      · have := h1.2.1; omega
      · exact h2 j m a b hne hu
    · injection h with e1 e2
      subst e1 e2
      refine isMus_iff_uq.2 ⟨(uq_snoc hc).2 (.inl ⟨by omega, rfl⟩), fun j m a b hne hu => ?_⟩
      have := hu.1
      exact hne (by rw [show j = t.length by omega, show m = 1 by omega])

/-- Lists of pairs with increasing first components are determined by their elements. -/
theorem pairs_ext {r s : List (Nat × Nat)} (hr : r.Pairwise (fun a b => a.1 < b.1)) (hs : s.Pairwise (fun a b => a.1 < b.1))
    (h : ∀ i l, (i, l) ∈ r ↔ (i, l) ∈ s) : r = s := by
  have : Std.Irrefl (fun a b : Nat × Nat => a.1 < b.1) := ⟨fun a => lt_irrefl _⟩
  have : Std.Antisymm (fun a b : Nat × Nat => a.1 < b.1) := ⟨fun a b h1 h2 => absurd h1 (lt_asymm h2)⟩
  exact List.Pairwise.eq_of_mem_iff hr hs (fun ⟨i, l⟩ => h i l)

theorem replicate_of_mus_whole {t : List α} (h : IsMus t 0 t.length) : ∃ a, t = List.replicate t.length a := by
  obtain ⟨h1, h2⟩ := isMus_iff_uq.1 h
  have hn := h1.1
  rcases t with _ | ⟨a, t⟩
  · simp at hn
  refine ⟨a, ?_⟩
  by_cases h0 : t = []
  · subst h0; rfl
  have htl := List.length_pos_iff.2 h0
  have := h2 0 t.length le_rfl (by simp) (fun e => by simp at e)
  simp only [Uq, htl, List.length_cons, Nat.zero_add, Nat.le_succ, true_and, not_forall] at this
  obtain ⟨j, ⟨hj, -, hk⟩, hne⟩ := this
  simp only [List.length_cons] at hj
  obtain rfl : j = 1 := by omega
  have : ∀ k, k ≤ t.length → (a :: t)[k]? = some a := by
    intro k
    induction k with
    | zero => intro _; rfl
    | succ k ih =>
      intro hle
      have := hk k (by omega)
      rw [show 1 + k = k + 1 by omega, Nat.zero_add] at this
      rw [this, ih (by omega)]
  refine List.eq_replicate_iff.2 ⟨rfl, fun b hb => ?_⟩
  obtain ⟨k, hk1, hk2⟩ := List.mem_iff_getElem.1 hb
  have e := this k (by simp at hk1; omega)
  rw [List.getElem?_eq_getElem hk1, hk2] at e
  exact Option.some.inj e

theorem mus_replicate {a : α} {n i l : Nat} (hn : 0 < n) : IsMus (List.replicate n a) i l ↔ (i, l) = (0, n) := by
  have hu : ∀ j m, Uq (List.replicate n a) j m → j = 0 ∧ m = n := by
    rintro j m ⟨h1, h2, h3⟩
    rw [List.length_replicate] at h2
    have occ : ∀ k, k + m ≤ n → Occ (List.replicate n a) k j m := fun k hk =>
      ⟨by simpa using hk, by simpa using h2, fun p hp => by
        rw [List.getElem?_replicate_of_lt (by omega), List.getElem?_replicate_of_lt (by omega)]⟩
    have e1 := h3 0 (occ 0 (by omega))
    have e2 := h3 (n - m) (occ (n - m) (by omega))
    omega
  have hne : List.replicate n a ≠ [] := by rw [Ne, List.replicate_eq_nil_iff]; omega
  constructor
  · intro h
    obtain ⟨rfl, rfl⟩ := hu i l (isMus_iff_uq.1 h).1
    rfl
  · intro h
    injection h with e1 e2
    subst e1 e2
    have hw := uq_whole hne
    rw [List.length_replicate] at hw
    refine isMus_iff_uq.2 ⟨hw, fun j m _ _ hne' hu' => hne' ?_⟩
    obtain ⟨rfl, rfl⟩ := hu j m hu'
    rfl

end Verif
