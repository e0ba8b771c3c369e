import Verif.Lemmas.BwtTmD

namespace Verif

open Spec Model

section
variable {w : List UInt8} (hab : ∀ c ∈ w, IsAb c) (hx : NoXXX w)
include hab hx

/-- The beginning of a row from the middle of a block. -/
theorem tmOdd_prefix {v : List UInt8} (hv : v ∈ matrix (w ++ [0])) {z : UInt8} (hz : v.getLastD 0 = z) (hz' : IsAb z) :
    (v.headD 1 = 0 ∧ [compl z, 0] <+: tmOddD v) ∨
    (v.headD 1 = compl z ∧ [compl z, compl z] <+: tmOddD v) ∨
    (v.headD 1 = z ∧ ([compl z, z, compl z, compl z] <+: tmOddD v ∨ [z, z] <:+ w)) := by
  obtain ⟨p, s, hw, rfl, he⟩ := row_odd hab hv hz hz'
  rw [he]
  cases s with
  | nil => exact Or.inl ⟨rfl, ⟨_, rfl⟩⟩
  | cons x s =>
    have hx' : IsAb x := hab x (by rw [hw]; simp)
    by_cases hxz : x = z
    · subst hxz
      refine Or.inr (Or.inr ⟨rfl, ?_⟩)
      cases s with
      | nil => exact Or.inr ⟨p, by rw [hw]⟩
      | cons y s =>
        have hy : IsAb y := hab y (by rw [hw]; simp)
        have hyx : y ≠ x := fun e => hx p x s (by rw [hw, e])
        left
        rcases hz' with rfl | rfl <;> rcases hy with rfl | rfl <;>
          first | exact absurd rfl hyx | exact ⟨_, by simp [tmMor, compl]; rfl⟩
    · refine Or.inr (Or.inl ⟨?_, ?_⟩)
      · rcases hz' with rfl | rfl <;> rcases hx' with rfl | rfl <;> first | rfl | exact absurd rfl hxz
      · rcases hz' with rfl | rfl <;> rcases hx' with rfl | rfl <;>
          first | exact absurd rfl hxz | exact ⟨_, by simp [tmMor, compl]; rfl⟩

omit hx in
/-- The beginning of a row that begins with a block. -/
theorem tmImg_prefix {v : List UInt8} (hv : v ∈ matrix (w ++ [0])) :
    (v.headD 1 = 0 ∧ [0] <+: v.flatMap tmD) ∨
    (v.headD 1 = 97 ∧ ([97, 0] <+: v ∧ [97, 98, 0] <+: v.flatMap tmD ∨
      (∃ y, IsAb y ∧ [97, y] <+: v) ∧ ([97, 98, 97, 98] <+: v.flatMap tmD ∨ [97, 98, 98] <+: v.flatMap tmD))) ∨
    (v.headD 1 = 98 ∧ ([98, 0] <+: v ∧ [98, 97, 0] <+: v.flatMap tmD ∨
      (∃ y, IsAb y ∧ [98, y] <+: v) ∧ ([98, 97, 97] <+: v.flatMap tmD ∨ [98, 97, 98, 97] <+: v.flatMap tmD))) := by
  obtain ⟨p, s, hw, rfl, he⟩ := row_even hab hv
  rw [he]
  cases s with
  | nil => exact Or.inl ⟨rfl, ⟨_, rfl⟩⟩
  | cons x s =>
    rcases hab x (by rw [hw]; simp) with rfl | rfl
    · refine Or.inr (Or.inl ⟨rfl, ?_⟩)
      cases s with
      | nil => exact Or.inl ⟨⟨_, rfl⟩, ⟨_, by simp [tmMor]; rfl⟩⟩
      | cons y s =>
        have hy : IsAb y := hab y (by rw [hw]; simp)
        refine Or.inr ⟨⟨y, hy, ⟨_, rfl⟩⟩, ?_⟩
        rcases hy with rfl | rfl
        · exact Or.inl ⟨_, by simp [tmMor]; rfl⟩
        · exact Or.inr ⟨_, by simp [tmMor]; rfl⟩
    · refine Or.inr (Or.inr ⟨rfl, ?_⟩)
      cases s with
      | nil => exact Or.inl ⟨⟨_, rfl⟩, ⟨_, by simp [tmMor]; rfl⟩⟩
      | cons y s =>
        have hy : IsAb y := hab y (by rw [hw]; simp)
        refine Or.inr ⟨⟨y, hy, ⟨_, rfl⟩⟩, ?_⟩
        rcases hy with rfl | rfl
        · exact Or.inl ⟨_, by simp [tmMor]; rfl⟩
        · exact Or.inr ⟨_, by simp [tmMor]; rfl⟩

end

end Verif
