import Verif.Spec.Words
import Mathlib.Tactic.Push
import Mathlib.Tactic.ByContra

/-! # Lexicographic order of words -/

namespace Verif

variable {α : Type} [LinearOrder α]

/-- `u` is smaller than `v` because of a mismatching letter (and not because it is a prefix). -/
def Mis (u v : List α) : Prop :=
  ∃ p a b u' v', u = p ++ a :: u' ∧ v = p ++ b :: v' ∧ a < b

theorem cons_lt_cons {a b : α} {u v : List α} : a :: u < b :: v ↔ a < b ∨ (a = b ∧ u < v) :=
  List.cons_lt_cons_iff

theorem append_lt_left {p u v : List α} : p ++ u < p ++ v ↔ u < v := by
  induction p with
  | nil => simp
  | cons a p ih => simp [ih]

theorem append_le_left {p u v : List α} : p ++ u ≤ p ++ v ↔ u ≤ v := by
  rw [← not_lt, ← not_lt, append_lt_left]

theorem lt_of_prefix {u v : List α} (h : u <+: v) (hne : u ≠ v) : u < v := by
  obtain ⟨t, rfl⟩ := h
  have : t ≠ [] := by rintro rfl; simp at hne
  obtain ⟨b, t, rfl⟩ := List.exists_cons_of_ne_nil this
  have := (append_lt_left (p := u) (u := []) (v := b :: t)).2 (List.nil_lt_cons _ _)
  simpa using this

theorem le_of_prefix {u v : List α} (h : u <+: v) : u ≤ v := by
  rcases eq_or_ne u v with rfl | hne
  · exact le_refl _
  · exact (lt_of_prefix h hne).le

theorem nil_le' (u : List α) : [] ≤ u := le_of_prefix (List.nil_prefix)

theorem Mis.lt {u v : List α} (h : Mis u v) : u < v := by
  obtain ⟨p, a, b, u', v', rfl, rfl, hab⟩ := h
  rw [append_lt_left, cons_lt_cons]; exact Or.inl hab

theorem Mis.append {u v : List α} (h : Mis u v) (x y : List α) : Mis (u ++ x) (v ++ y) := by
  obtain ⟨p, a, b, u', v', rfl, rfl, hab⟩ := h
  exact ⟨p, a, b, u' ++ x, v' ++ y, by simp, by simp, hab⟩

theorem Mis.cons {u v : List α} (a : α) (h : Mis u v) : Mis (a :: u) (a :: v) := by
  obtain ⟨p, x, y, u', v', rfl, rfl, hab⟩ := h
  exact ⟨a :: p, x, y, u', v', by simp, by simp, hab⟩

theorem mis_append_left {p u v : List α} : Mis (p ++ u) (p ++ v) ↔ Mis u v := by
  constructor
  · intro h
    induction p with
    | nil => simpa using h
    | cons c p ih =>
      apply ih
      obtain ⟨q, a, b, u', v', h1, h2, hab⟩ := h
      cases q with
      | nil => simp at h1 h2; rw [← h1.1, ← h2.1] at hab; exact absurd hab (lt_irrefl _)
      | cons d q =>
        simp at h1 h2
        exact ⟨q, a, b, u', v', h1.2, h2.2, hab⟩
  · intro h
    induction p with
    | nil => simpa using h
    | cons c p ih => exact ih.cons c

/-- The five ways two words can compare. -/
theorem word_cases (u v : List α) :
    u = v ∨ (u <+: v ∧ u ≠ v) ∨ (v <+: u ∧ u ≠ v) ∨ Mis u v ∨ Mis v u := by
  induction u generalizing v with
  | nil =>
    cases v with
    | nil => exact Or.inl rfl
    | cons b v => exact Or.inr (Or.inl ⟨List.nil_prefix, by simp⟩)
  | cons a u ih =>
    cases v with
    | nil => exact Or.inr (Or.inr (Or.inl ⟨List.nil_prefix, by simp⟩))
    | cons b v =>
      rcases lt_trichotomy a b with h | rfl | h
      · exact Or.inr (Or.inr (Or.inr (Or.inl ⟨[], a, b, u, v, rfl, rfl, h⟩)))
      · rcases ih v with rfl | ⟨h, hn⟩ | ⟨h, hn⟩ | h | h
        · exact Or.inl rfl
        · exact Or.inr (Or.inl ⟨by simpa using h, by simpa using hn⟩)
        · exact Or.inr (Or.inr (Or.inl ⟨by simpa using h, by simpa using hn⟩))
        · exact Or.inr (Or.inr (Or.inr (Or.inl (h.cons a))))
        · exact Or.inr (Or.inr (Or.inr (Or.inr (h.cons a))))
      · exact Or.inr (Or.inr (Or.inr (Or.inr ⟨[], b, a, v, u, rfl, rfl, h⟩)))

theorem lt_iff_mis {u v : List α} : u < v ↔ (u <+: v ∧ u ≠ v) ∨ Mis u v := by
  constructor
  · intro h
    rcases word_cases u v with rfl | h1 | ⟨h1, h2⟩ | h1 | h1
    · exact absurd h (lt_irrefl _)
    · exact Or.inl h1
    · exact absurd h (not_lt.2 (le_of_prefix h1))
    · exact Or.inr h1
    · exact absurd h (not_lt.2 h1.lt.le)
  · rintro (⟨h, hn⟩ | h)
    · exact lt_of_prefix h hn
    · exact h.lt

theorem mis_of_lt_of_length_le {u v : List α} (h : u < v) (hl : v.length ≤ u.length) : Mis u v := by
  rcases lt_iff_mis.1 h with ⟨h1, h2⟩ | h1
  · exact absurd (h1.eq_of_length_le hl) h2
  · exact h1

theorem Mis.trans {u v w : List α} (h1 : Mis u v) (h2 : Mis v w) : Mis u w := by
  induction u generalizing v w with
  | nil => obtain ⟨p, a, b, u', v', h, _⟩ := h1; simp at h
  | cons a u ih =>
    obtain ⟨p, x, y, u', v', e1, e2, hxy⟩ := h1
    obtain ⟨q, x', y', u'', v'', e3, e4, hxy'⟩ := h2
    cases p with
    | nil =>
      cases q with
      | nil =>
        simp at e1 e2 e3 e4
        subst e2; simp at e3
        exact ⟨[], a, y', u, v'', by simp, by simp [e4], by rw [e1.1]; exact hxy.trans (e3.1 ▸ hxy')⟩
      | cons d q =>
        simp at e1 e2 e3 e4
        subst e2; simp at e3
        exact ⟨[], a, d, u, _, by simp, by simpa using e4, by rw [e1.1, ← e3.1]; exact hxy⟩
    | cons c p =>
      cases q with
      | nil =>
        simp at e1 e2 e3 e4
        subst e2; simp at e3
        exact ⟨[], a, y', u, v'', by simp, by simp [e4], by rw [e1.1, e3.1]; exact hxy'⟩
      | cons d q =>
        simp at e1 e2 e3 e4
        subst e2; simp at e3
        subst e4
        obtain ⟨rfl, e1⟩ := e1
        obtain ⟨rfl, e3⟩ := e3
        exact (ih (v := p ++ y :: v') (w := q ++ y' :: v'')
          ⟨p, x, y, u', v', e1, rfl, hxy⟩ ⟨q, x', y', u'', v'', e3, rfl, hxy'⟩).cons _

/-- First-difference description of `<` by indices. -/
theorem mis_iff_index {u v : List α} :
    Mis u v ↔ ∃ i, ∃ (h1 : i < u.length) (h2 : i < v.length),
      (∀ t, t < i → u[t]? = v[t]?) ∧ u[i] < v[i] := by
  constructor
  · rintro ⟨p, a, b, u', v', rfl, rfl, hab⟩
    refine ⟨p.length, by simp, by simp, ?_, by simpa using hab⟩
    intro t ht
    rw [List.getElem?_append_left ht, List.getElem?_append_left ht]
  · rintro ⟨i, h1, h2, h3, h4⟩
    refine ⟨u.take i, u[i], v[i], u.drop (i + 1), v.drop (i + 1), ?_, ?_, h4⟩
    · rw [List.getElem_cons_drop, List.take_append_drop]
    · have : u.take i = v.take i := by
        apply List.ext_getElem?
        intro t
        by_cases ht : t < i
        · simp [ht, h3 t ht]
        · simp [List.getElem?_take, ht]
      rw [this, List.getElem_cons_drop, List.take_append_drop]

end Verif
