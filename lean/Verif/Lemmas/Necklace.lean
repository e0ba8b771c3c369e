import Verif.Lemmas.LyndonGen
import Verif.Lemmas.LyndonMore
import Verif.Lemmas.Duval
import Verif.Model.Word

/-! # `is_necklace` -/

namespace Verif
open Spec Model

/-- In a prefix of a power of a Lyndon word no suffix is smaller (by a mismatch) than the word. -/
theorem PPow.no_smaller_suffix {α : Type} [LinearOrder α] {u x : List α} (hu : IsLyndon u) (h : PPow u x) (d : Nat) :
    ¬ Mis (x.drop d) x := by
  intro hm
  obtain ⟨m, h1, h2, h3, h4⟩ := mis_iff_index.1 hm
  rw [List.length_drop] at h1
  have hu0 := hu.length_pos
  have hx : ∀ i, i < x.length → x[i]? = u[i % u.length]? := h.eq
  have hle := h.le
  -- letters of the suffix
  have hs : ∀ i, i + d < x.length → (x.drop d)[i]? = u[(d + i) % u.length]? := by
    intro i hi
    rw [List.getElem?_drop, hx _ (by omega)]
  obtain ⟨r, hr⟩ : ∃ r, r = d % u.length := ⟨_, rfl⟩
  have hrl : r < u.length := by rw [hr]; exact Nat.mod_lt _ hu0
  rcases Nat.eq_zero_or_pos r with h0 | h0
  · -- a whole number of periods
    have e : (x.drop d)[m]? = x[m]? := by
      rw [hs m (by omega), hx m h2, Nat.add_mod, ← hr, h0, Nat.zero_add, Nat.mod_mod]
    rw [List.getElem?_eq_getElem (by rw [List.length_drop]; omega), List.getElem?_eq_getElem h2] at e
    injection e with e
    rw [e] at h4; exact lt_irrefl _ h4
  · obtain ⟨l, g1, g2, g3, g4⟩ := mis_iff_index.1 (hu.mis_drop h0 hrl)
    rw [List.length_drop] at g2
    have hmod : ∀ i, i < u.length - r → (d + i) % u.length = r + i := by
      intro i hi
      rw [Nat.add_mod, ← hr, Nat.mod_eq_of_lt (show i < u.length by omega), Nat.mod_eq_of_lt (by omega)]
    have hs' : ∀ i, i < u.length - r → i + d < x.length → (x.drop d)[i]? = (u.drop r)[i]? := by
      intro i hi hi2
      rw [hs i hi2, hmod i hi, List.getElem?_drop]
    have hx' : ∀ i, i < u.length → x[i]? = u[i]? := by
      intro i hi
      rw [hx i (by omega), Nat.mod_eq_of_lt hi]
    have hget : ∀ i, i < u.length - r → i + d < x.length → ∀ (a : i < (x.drop d).length) (b : i < (u.drop r).length),
        (x.drop d)[i] = (u.drop r)[i] := by
      intro i hi hi2 a b
      have := hs' i hi hi2
      rw [List.getElem?_eq_getElem a, List.getElem?_eq_getElem b] at this
      injection this
    have hgetx : ∀ i, ∀ (a : i < x.length) (b : i < u.length), x[i] = u[i] := by
      intro i a b
      have := hx' i b
      rw [List.getElem?_eq_getElem a, List.getElem?_eq_getElem b] at this
      injection this
    rcases lt_trichotomy m l with hml | rfl | hml
    · have := g3 m hml
      rw [← hx' m (by omega), ← hs' m (by omega) (by omega)] at this
      rw [List.getElem?_eq_getElem h2, List.getElem?_eq_getElem (by rw [List.length_drop]; omega)] at this
      injection this with this
      rw [this] at h4; exact lt_irrefl _ h4
    · rw [hget m (by omega) (by omega) (by rw [List.length_drop]; omega) (by rw [List.length_drop]; omega),
        hgetx m h2 (by omega)] at h4
      exact lt_asymm h4 g4
    · have := h3 l hml
      rw [hx' l g1, hs' l (by omega) (by omega), List.getElem?_eq_getElem g1,
        List.getElem?_eq_getElem (by rw [List.length_drop]; omega)] at this
      injection this with this
      rw [this] at g4; exact lt_irrefl _ g4

theorem necklaceCond_eq (text : List UInt8) : necklaceCond text text.length = duvalCond text text.length := by
  funext ⟨i, j⟩
  unfold necklaceCond duvalCond
  simp only
  by_cases h : j = text.length
  · rw [if_pos h, if_neg (by simp [h])]
  · rw [if_neg h, if_pos h]

theorem whileLoop_fuel {σ : Type} {c : σ → Res Bool} {b : σ → Res σ} {f : Nat} {s s' : σ} (d : Nat)
    (h : whileLoop f c b s = .ok s') : whileLoop (f + d) c b s = .ok s' := by
  induction f generalizing s with
  | zero => simp [whileLoop] at h
  | succ f ih =>
    rw [show f + 1 + d = f + d + 1 by omega]
    rw [whileLoop] at h ⊢
    cases hc : c s with
    | error e => simp [hc] at h
    | ok v =>
      simp only [hc, ok_bind] at h ⊢
      cases v with
      | false => exact h
      | true =>
        simp only [if_true] at h ⊢
        cases hb : b s with
        | error e => simp [hb] at h
        | ok t => simp only [hb, ok_bind] at h ⊢; exact ih h

/-- `is_necklace(text, |text|)` answers whether no suffix is smaller by a mismatch. -/
theorem isNecklace_ok {text : List UInt8} (ht : text ≠ []) :
    ∃ b, isNecklace text text.length = .ok b ∧
      ((b = true ∧ (∃ u, IsLyndon u ∧ PPow u text) ∧ ∀ d, ¬ Mis (text.drop d) text) ∨
       (b = false ∧ (¬ ∃ u, IsLyndon u ∧ PPow u text) ∧ ∃ d, Mis (text.drop d) text)) := by
  have h0 : 0 < text.length := List.length_pos_iff.2 ht
  obtain ⟨i, j, h1, h2, h3⟩ := duval_inner (k := 0) h0
  have hb : necklaceBody text = duvalBody text 0 := by funext ⟨i, j⟩; rfl
  unfold isNecklace
  rw [necklaceCond_eq, hb, show text.length + text.length + 2 = (text.length + 1) + (text.length + 1) by omega,
    whileLoop_fuel _ h1, ok_bind]
  simp only
  by_cases hj : j = text.length
  · rw [if_neg (by simp [hj])]
    refine ⟨true, rfl, Or.inl ⟨rfl, ?_⟩⟩
    have hp := h2.pow
    have hl := h2.lyn
    have e : (text.drop 0).take (j - 0) = text := by rw [hj]; simp
    rw [e] at hp hl
    exact ⟨⟨_, hl, hp⟩, fun d => PPow.no_smaller_suffix hl hp d⟩
  · rw [if_pos hj]
    refine ⟨false, rfl, Or.inr ⟨rfl, ?_⟩⟩
    obtain ⟨hjn, hin, hlt⟩ := h3.resolve_left hj
    have hij := h2.hij
    have hm : Mis (text.drop (j - i)) text := by
      refine mis_iff_index.2 ⟨i, by rw [List.length_drop]; omega, hin, ?_, ?_⟩
      · intro t ht
        have hsh := h2.pow.shift (m := t) (by rw [h2.ulen, slice_len h2.hjn]; omega)
        rw [h2.ulen, slice_get (by omega), slice_get (by omega)] at hsh
        rw [List.getElem?_drop]
        simpa [Nat.add_comm] using hsh
      · rw [List.getElem_drop]
        have e : j - i + i = j := by omega
        simp only [e]; exact hlt
    refine ⟨?_, _, hm⟩
    rintro ⟨u, hu, hp⟩
    exact PPow.no_smaller_suffix hu hp _ hm

/-- no smaller suffix, in words: each suffix is at least the prefix of its length -/
theorem no_mis_iff {text : List UInt8} (d : Nat) :
    ¬ Mis (text.drop d) text ↔ text.take (text.length - d) ≤ text.drop d := by
  have hl : (text.take (text.length - d)).length = (text.drop d).length := by
    rw [List.length_take, List.length_drop]; omega
  have hpre : text.take (text.length - d) <+: text := List.take_prefix _ _
  constructor
  · intro h
    by_contra hgt
    rw [not_le] at hgt
    have hm := mis_of_lt_of_length_le hgt hl.le
    obtain ⟨t, ht⟩ := hpre
    have := hm.append [] t
    rw [List.append_nil, ht] at this
    exact h this
  · intro h hm
    have : Mis (text.drop d) (text.take (text.length - d)) := by
      obtain ⟨i, h1, h2, h3, h4⟩ := mis_iff_index.1 hm
      rw [List.length_drop] at h1
      refine mis_iff_index.2 ⟨i, by rw [List.length_drop]; exact h1, by rw [List.length_take]; omega, ?_, ?_⟩
      · intro t ht
        rw [h3 t ht, List.getElem?_take_of_lt (by omega)]
      · rw [List.getElem_take]; exact h4
    exact absurd this.lt (not_lt.2 h)

/-- a prefix of a power, in terms of `power` -/
theorem ppow_prefix_power {α : Type} {u x : List α} (h : PPow u x) : ∃ m, x <+: power u m := by
  refine ⟨x.length, ?_⟩
  have hu0 : 0 < u.length := List.length_pos_iff.2 h.ne
  have hget : ∀ m i, i < m * u.length → (power u m)[i]? = u[i % u.length]? := by
    intro m
    induction m with
    | zero => intro i hi; omega
    | succ m ih =>
      intro i hi
      rw [power]
      by_cases hlt : i < u.length
      · rw [List.getElem?_append_left hlt, Nat.mod_eq_of_lt hlt]
      · rw [List.getElem?_append_right (by omega), ih _ (by rw [Nat.succ_mul] at hi; omega)]
        congr 1
        rw [← Nat.mod_eq_sub_mod (by omega)]
  rw [List.prefix_iff_getElem?]
  intro i hi
  rw [hget _ _ (by nlinarith), ← h.eq i hi, List.getElem?_eq_getElem hi]

end Verif
