import Verif.Lemmas.TmAttractor
import Mathlib.Data.Finset.Card

/-! # Checking attractors and lower bounds of small texts; the Tribonacci words -/

namespace Verif

open Spec Model

variable {α : Type} [DecidableEq α]

/-- Does `v` stand at position `j` of `T`? -/
def occB (v T : List α) (j : Nat) : Bool := (T.drop j).take v.length == v

theorem occB_iff {v T : List α} {j : Nat} (hv : v ≠ []) : occB v T j = true ↔ OccursAt v T j := by
  unfold occB OccursAt
  rw [beq_iff_eq]
  have h0 := List.length_pos_iff.2 hv
  constructor
  · intro h
    have hl := congrArg List.length h
    rw [List.length_take, List.length_drop] at hl
    exact ⟨by omega, by rw [← h]; exact List.take_prefix _ _⟩
  · rintro ⟨-, h2⟩
    exact (List.prefix_iff_eq_take.1 h2).symm

/-- The check of an attractor. -/
def attractorB (T : List α) (P : List Nat) : Bool :=
  (List.range T.length).all fun i => (List.range (T.length - i)).all fun l =>
    (List.range T.length).any fun j => occB ((T.drop i).take (l + 1)) T j && P.any fun p => j ≤ p && p < j + (l + 1)

theorem attractor_of {T : List α} {P : List Nat} (h : attractorB T P = true) : IsAttractor T P := by
  intro v hv hi
  obtain ⟨i, h1, h2⟩ := infix_slice hi
  have hv' := List.length_pos_iff.2 hv
  have e : (T.drop i).take v.length = v := by
    obtain ⟨-, h4⟩ := occursAt_of h1 h2
    exact (List.prefix_iff_eq_take.1 h4).symm
  unfold attractorB at h
  simp only [List.all_eq_true, List.any_eq_true, Bool.and_eq_true, decide_eq_true_eq, List.mem_range] at h
  obtain ⟨j, -, h3, p, hp, h4⟩ := h i (by omega) (v.length - 1) (by omega)
  rw [show v.length - 1 + 1 = v.length by omega] at h3 h4
  rw [e, occB_iff hv] at h3
  exact ⟨j, h3, p, hp, h4⟩

/-- The positions of `T` inside an occurrence of `v`. -/
def coversOf (T v : List α) : List Nat :=
  (List.range T.length).filter fun p => (List.range (p + 1)).any fun j => p < j + v.length && occB v T j

/-- No `n` positions hit all the sets. -/
def noHit : Nat → List (List Nat) → Bool
  | _, [] => false
  | 0, _ :: _ => true
  | n + 1, F :: Fs => F.all fun p => noHit n (Fs.filter fun G => !G.contains p)

theorem noHit_sound (n : Nat) (Fs : List (List Nat)) (h : noHit n Fs = true) (S : Finset Nat)
    (hS : ∀ G ∈ Fs, ∃ p ∈ S, p ∈ G) : n < S.card := by
  induction n generalizing Fs S with
  | zero =>
    cases Fs with
    | nil => simp [noHit] at h
    | cons F Fs =>
      obtain ⟨p, hp, -⟩ := hS F (by simp)
      exact Finset.card_pos.2 ⟨p, hp⟩
  | succ n ih =>
    cases Fs with
    | nil => simp [noHit] at h
    | cons F Fs =>
      obtain ⟨p, hp, hpF⟩ := hS F (by simp)
      rw [noHit, List.all_eq_true] at h
      have := ih _ (h p hpF) (S.erase p) (fun G hG => by
        rw [List.mem_filter] at hG
        obtain ⟨q, hq, hqG⟩ := hS G (by simp [hG.1])
        refine ⟨q, Finset.mem_erase.2 ⟨?_, hq⟩, hqG⟩
        rintro rfl
        simp [hqG] at hG)
      rw [Finset.card_erase_of_mem hp] at this
      omega

theorem lower_of {T : List α} {n : Nat} (vs : List (List α)) (hvs : ∀ v ∈ vs, v ≠ [] ∧ v <:+: T)
    (h : noHit n (vs.map (coversOf T)) = true) {P : List Nat} (hP : IsAttractor T P) : n < P.toFinset.card := by
  refine noHit_sound n _ h _ fun G hG => ?_
  obtain ⟨v, hv, rfl⟩ := List.mem_map.1 hG
  obtain ⟨h1, h2⟩ := hvs v hv
  obtain ⟨j, h3, p, hp, h4, h5⟩ := hP v h1 h2
  refine ⟨p, List.mem_toFinset.2 hp, ?_⟩
  have := h3.1
  unfold coversOf
  rw [List.mem_filter, List.mem_range, List.any_eq_true]
  exact ⟨by omega, j, List.mem_range.2 (by omega), by rw [Bool.and_eq_true, decide_eq_true_eq, occB_iff h1]; exact ⟨h5, h3⟩⟩

theorem substringCount_prefix (T U : List α) (k : Nat) : substringCount T k ≤ substringCount (T ++ U) k := by
  unfold substringCount
  apply Finset.card_le_card
  intro v hv
  simp only [List.mem_toFinset, List.mem_map, List.mem_range] at hv ⊢
  obtain ⟨i, hi, rfl⟩ := hv
  by_cases hk : i + k ≤ T.length
  · refine ⟨i, by rw [List.length_append]; omega, ?_⟩
    rw [List.drop_append_of_le_length (by omega), List.take_append_of_le_length (by rw [List.length_drop]; omega)]
  · have : k = 0 := by omega
    subst this
    exact ⟨i, by rw [List.length_append]; omega, by simp⟩

omit [DecidableEq α] in
theorem attractor_mono {T : List α} {P Q : List Nat} (h : IsAttractor T P) (hPQ : ∀ p ∈ P, p < T.length → p ∈ Q) : IsAttractor T Q := by
  intro v hv hi
  obtain ⟨j, h1, p, hp, h2, h3⟩ := h v hv hi
  have := h1.1
  exact ⟨j, h1, p, hPQ p hp (by omega), h2, h3⟩

/-! ## Tribonacci words -/

theorem tribWord_step (k : Nat) : tribWord (k + 3) = tribWord (k + 2) ++ tribWord (k + 1) ++ tribWord k := rfl

theorem trib_prefix (k : Nat) : tribWord (k + 1) ++ tribWord k <+: tribWord (k + 2) := by
  cases k with
  | zero => decide
  | succ k => exact ⟨tribWord k, rfl⟩

theorem trib_prefix1 (k : Nat) : tribWord k <+: tribWord (k + 1) := by
  rcases k with _ | _ | k
  · decide
  · decide
  · exact ⟨tribWord (k + 1) ++ tribWord k, by rw [tribWord_step]; simp⟩

theorem trib_pos (k : Nat) : 0 < (tribWord k).length := by
  induction k with
  | zero => decide
  | succ k ih => exact lt_of_lt_of_le ih (trib_prefix1 k).length_le

omit [DecidableEq α] in
theorem occursAt_prefix {v T U : List α} {j : Nat} (h : OccursAt v T j) (hT : T <+: U) : OccursAt v U j := by
  obtain ⟨W, rfl⟩ := hT
  refine ⟨by rw [List.length_append]; have := h.1; omega, h.2.trans ?_⟩
  rw [List.drop_append_of_le_length (by have := h.1; omega)]
  exact List.prefix_append _ _

omit [DecidableEq α] in
theorem occursAt_infix {v T : List α} {j : Nat} (h : OccursAt v T j) : v <:+: T :=
  h.2.isInfix.trans (List.drop_suffix _ _).isInfix

omit [DecidableEq α] in
/-- A factor of a concatenation. -/
theorem infix_append {v A B : List α} (h : v <:+: A ++ B) :
    v <:+: A ∨ v <:+: B ∨ ∃ j, OccursAt v (A ++ B) j ∧ j < A.length ∧ A.length < j + v.length := by
  obtain ⟨i, h1, h2⟩ := infix_slice h
  have h3 := occursAt_of h1 h2
  by_cases ha : i + v.length ≤ A.length
  · left
    refine occursAt_infix (j := i) ⟨ha, ?_⟩
    have := h3.2
    rw [List.drop_append_of_le_length (by omega)] at this
    exact List.prefix_of_prefix_length_le this (List.prefix_append _ _) (by rw [List.length_drop]; omega)
  · by_cases hb : A.length ≤ i
    · right; left
      have := h3.2
      rw [List.drop_append, List.drop_eq_nil_of_le hb, List.nil_append] at this
      exact this.isInfix.trans (List.drop_suffix _ _).isInfix
    · exact Or.inr (Or.inr ⟨i, h3, by omega, by omega⟩)

omit [DecidableEq α] in
theorem occursAt_split {v X Y : List α} {j : Nat} (h : OccursAt v (X ++ Y) j) (hj : j ≤ X.length) (hl : X.length ≤ j + v.length) :
    ∃ s p, v = s ++ p ∧ s <:+ X ∧ s.length = X.length - j ∧ p <+: Y := by
  have h1 := h.2
  rw [List.drop_append_of_le_length hj] at h1
  refine ⟨X.drop j, v.drop (X.length - j), ?_, List.drop_suffix _ _, by rw [List.length_drop], ?_⟩
  · have h2 := List.prefix_iff_eq_take.1 h1
    have h3 : v.take (X.length - j) = X.drop j := by
      rw [h2, List.take_take, min_eq_left (by omega), List.take_append_of_le_length (by rw [List.length_drop]),
        List.take_of_length_le (by rw [List.length_drop])]
    rw [← h3, List.take_append_drop]
  · have h4 := h1.drop (X.length - j)
    rwa [List.drop_append, List.length_drop, Nat.sub_self, List.drop_zero, List.drop_of_length_le (l := X.drop j) (by rw [List.length_drop]), List.nil_append] at h4

theorem trib_attractor (n : Nat) : IsAttractor (tribWord (n + 3))
    [(tribWord n).length - 1, (tribWord (n + 1)).length - 1, (tribWord (n + 2)).length - 1] := by
  induction n using Nat.strong_induction_on with
  | _ n ih =>
    rcases n with _ | _ | _ | n
    · exact attractor_of (by decide +kernel)
    · exact attractor_of (by decide +kernel)
    · exact attractor_of (by decide +kernel)
    · have hp2 := trib_pos (n + 2)
      have hp5 := trib_pos (n + 5)
      intro v hv hi
      have hv' := List.length_pos_iff.2 hv
      -- a factor that is inside the previous word
      have inner : v <:+: tribWord (n + 5) → ∃ j, OccursAt v (tribWord (n + 6)) j ∧
          ∃ p ∈ [(tribWord (n + 3)).length - 1, (tribWord (n + 4)).length - 1, (tribWord (n + 5)).length - 1], j ≤ p ∧ p < j + v.length := by
        intro hi
        obtain ⟨j, h1, p, hp, h2, h3⟩ := ih (n + 2) (by omega) v hv hi
        have h1' := occursAt_prefix h1 (trib_prefix1 (n + 5))
        simp only [List.mem_cons, List.not_mem_nil, or_false] at hp
        rcases hp with rfl | rfl | rfl
        · -- around the end of the word of order n+2
          by_cases hend : (tribWord (n + 3)).length ≤ j + v.length
          · have hle := (trib_prefix1 (n + 2)).length_le
            have hle' : (tribWord (n + 2)).length < (tribWord (n + 3)).length := by
              rw [tribWord_step, List.length_append, List.length_append]
              have := trib_pos n
              omega
            exact ⟨j, h1', _, by simp; left; rfl, by omega, by omega⟩
          · -- the same letters stand around the end of the word of order n+5
            have e3 : tribWord (n + 3) = tribWord (n + 2) ++ (tribWord (n + 1) ++ tribWord n) := by rw [tribWord_step]; simp
            have e3' := congrArg List.length e3
            rw [List.length_append] at e3'
            have h4 : OccursAt v (tribWord (n + 2) ++ (tribWord (n + 1) ++ tribWord n)) j := by
              rw [← e3]
              refine ⟨by omega, ?_⟩
              have hpre : tribWord (n + 3) <+: tribWord (n + 5) := (trib_prefix1 _).trans (trib_prefix1 _)
              obtain ⟨W, hW⟩ := hpre
              have h5 := h1.2
              rw [← hW, List.drop_append_of_le_length (by omega)] at h5
              exact List.prefix_of_prefix_length_le h5 (List.prefix_append _ _) (by rw [List.length_drop]; omega)
            obtain ⟨s, q, rfl, hs, hsl, hq⟩ := occursAt_split h4 (by omega) (by omega)
            obtain ⟨S, hS⟩ := hs
            have hq' : q <+: tribWord (n + 4) ++ tribWord (n + 3) :=
              hq.trans ((trib_prefix n).trans ((trib_prefix1 _).trans ((trib_prefix1 _).trans (List.prefix_append _ _))))
            obtain ⟨Q, hQ⟩ := hq'
            have e6 : tribWord (n + 6) = (tribWord (n + 4) ++ tribWord (n + 3) ++ S) ++ ((s ++ q) ++ Q) := by
              have e5 : tribWord (n + 5) = tribWord (n + 4) ++ tribWord (n + 3) ++ tribWord (n + 2) := tribWord_step _
              have : tribWord (n + 6) = tribWord (n + 5) ++ (tribWord (n + 4) ++ tribWord (n + 3)) := by rw [tribWord_step]; simp
              rw [this, e5, ← hS, ← hQ]; simp
            have e5l : (tribWord (n + 5)).length = (tribWord (n + 4) ++ tribWord (n + 3) ++ S).length + s.length := by
              have e5 : tribWord (n + 5) = tribWord (n + 4) ++ tribWord (n + 3) ++ tribWord (n + 2) := tribWord_step _
              rw [e5, ← hS]; simp; omega
            refine ⟨(tribWord (n + 4) ++ tribWord (n + 3) ++ S).length, ⟨?_, ?_⟩, (tribWord (n + 5)).length - 1, by simp, ?_, ?_⟩
            · rw [e6]; simp; omega
            · rw [e6, List.drop_left]; exact List.prefix_append _ _
            · omega
            · rw [List.length_append (as := s)]; omega
        · exact ⟨j, h1', _, by simp, h2, h3⟩
        · exact ⟨j, h1', _, by simp, h2, h3⟩
      have e : tribWord (n + 6) = tribWord (n + 5) ++ (tribWord (n + 4) ++ tribWord (n + 3)) := by rw [tribWord_step]; simp
      have hi' := hi
      rw [show n + 1 + 1 + 1 + 3 = n + 6 by omega, e] at hi'
      rcases infix_append hi' with h | h | ⟨j, h1, h2, h3⟩
      · exact inner h
      · exact inner (h.trans (trib_prefix _).isInfix)
      · rw [← e] at h1
        exact ⟨j, h1, (tribWord (n + 5)).length - 1, by simp, by omega, by omega⟩

end Verif
