import Verif.Rust

/-! # Sorting by a key -/

namespace Verif

variable {β κ : Type} [LinearOrder κ]

/-- The sorted version of a list of keys. -/
def sortKeys (l : List κ) : List κ := l.mergeSort (fun a b => decide (a ≤ b))

theorem sortKeys_perm (l : List κ) : (sortKeys l).Perm l := List.mergeSort_perm _ _

theorem sortKeys_sorted (l : List κ) : (sortKeys l).Pairwise (· ≤ ·) := by
  have := List.pairwise_mergeSort (le := fun a b : κ => decide (a ≤ b))
    (fun a b c h1 h2 => by simp only [decide_eq_true_eq] at *; exact h1.trans h2)
    (fun a b => by simp only [Bool.or_eq_true, decide_eq_true_eq]; exact le_total _ _) l
  exact this.imp (by simp)

theorem sorted_perm_unique {l m : List κ} (hp : l.Perm m) (hl : l.Pairwise (· ≤ ·))
    (hm : m.Pairwise (· ≤ ·)) : l = m :=
  List.Perm.eq_of_pairwise (fun _ _ _ _ h h' => le_antisymm h h') hl hm hp

theorem sortKeys_congr {l m : List κ} (hp : l.Perm m) : sortKeys l = sortKeys m :=
  sorted_perm_unique ((sortKeys_perm l).trans (hp.trans (sortKeys_perm m).symm))
    (sortKeys_sorted l) (sortKeys_sorted m)

theorem sortKeys_eq {l m : List κ} (hp : l.Perm m) (hl : l.Pairwise (· ≤ ·)) : sortKeys m = l :=
  sorted_perm_unique ((sortKeys_perm m).trans hp.symm) (sortKeys_sorted m) hl

theorem stableInsert_perm (le : β → β → Bool) (a : β) (l : List β) :
    (stableInsert le a l).Perm (a :: l) := by
  induction l with
  | nil => exact List.Perm.refl _
  | cons b l ih =>
    simp only [stableInsert]
    split
    · exact List.Perm.refl _
    · exact (List.Perm.cons b ih).trans (List.Perm.swap a b l)

theorem stableSort_perm (le : β → β → Bool) (l : List β) : (stableSort le l).Perm l := by
  induction l with
  | nil => exact List.Perm.refl _
  | cons a l ih => exact (stableInsert_perm le a _).trans (List.Perm.cons a ih)

theorem stableInsert_sorted {le : β → β → Bool} {key : β → κ} {a : β} {l : List β}
    (hle : ∀ b ∈ l, le a b = decide (key a ≤ key b))
    (hl : l.Pairwise (fun a b => key a ≤ key b)) :
    (stableInsert le a l).Pairwise (fun a b => key a ≤ key b) := by
  induction l with
  | nil => simp [stableInsert]
  | cons b l ih =>
    rw [List.pairwise_cons] at hl
    simp only [stableInsert]
    rw [hle b (by simp)]
    split
    · rename_i hab
      simp only [decide_eq_true_eq] at hab
      rw [List.pairwise_cons]
      refine ⟨?_, List.pairwise_cons.2 hl⟩
      intro c hc
      rcases List.mem_cons.1 hc with rfl | hc
      · exact hab
      · exact hab.trans (hl.1 c hc)
    · rename_i hab
      simp only [decide_eq_true_eq, not_le] at hab
      rw [List.pairwise_cons]
      refine ⟨?_, ih (fun c hc => hle c (by simp [hc])) hl.2⟩
      intro c hc
      rcases List.mem_cons.1 ((stableInsert_perm le a l).mem_iff.1 hc) with rfl | hc
      · exact hab.le
      · exact hl.1 c hc

theorem stableSort_sorted {le : β → β → Bool} {key : β → κ} {l : List β}
    (hle : ∀ a ∈ l, ∀ b ∈ l, le a b = decide (key a ≤ key b)) :
    (stableSort le l).Pairwise (fun a b => key a ≤ key b) := by
  induction l with
  | nil => exact List.Pairwise.nil
  | cons a l ih =>
    refine stableInsert_sorted ?_ (ih (fun x hx y hy => hle x (by simp [hx]) y (by simp [hy])))
    intro b hb
    exact hle a (by simp) b (by simp [(stableSort_perm le l).mem_iff.1 hb])

/-- `sort_by` with a comparison that orders by a key. -/
theorem sortByR_key {cmp : β → β → Res Ordering} {key : β → κ} {l : List β}
    (h : ∀ a ∈ l, ∀ b ∈ l, cmp a b = .ok (ucmp (key a) (key b))) :
    ∃ s, sortByR cmp l = .ok s ∧ s.Perm l ∧ s.map key = sortKeys (l.map key) ∧
      s.Pairwise (fun a b => key a ≤ key b) := by
  have hle : ∀ a ∈ l, ∀ b ∈ l, notGt (cmp a b) = decide (key a ≤ key b) := by
    intro a ha b hb
    rw [h a ha b hb]
    unfold ucmp
    rcases lt_trichotomy (key a) (key b) with h | h | h
    · simp [h, notGt, h.le]
    · simp [h, notGt]
    · simp [notGt, h, h.not_gt, h.ne']
  have hp := stableSort_perm (fun a b => notGt (cmp a b)) l
  have hs : (stableSort (fun a b => notGt (cmp a b)) l).Pairwise (fun a b => key a ≤ key b) :=
    stableSort_sorted hle
  refine ⟨_, sortByR_ok (fun a ha b hb => by rw [h a ha b hb]; rfl), hp, ?_, hs⟩
  symm
  exact sortKeys_eq (hp.map key) (by rw [List.pairwise_map]; exact hs)

end Verif
