import Verif.Model.Cli
import Mathlib.Tactic.Linarith
import Mathlib.Tactic.Ring

/-! # The value parsers of the command line compute what the texts denote -/

namespace Verif

open Spec.Cli Model.Cli Model

theorem numeral_append (s : List Char) (c : Char) :
    numeral (s ++ [c]) = numeral s * 10 + (c.toNat - 48) := by
  induction s with
  | nil => simp [numeral]
  | cons d s ih =>
    rw [List.cons_append, numeral, ih, numeral, List.length_append, List.length_singleton, pow_succ]
    ring

theorem digitsLoop_iff (bound : Nat) (s : List Char) : ∀ n m, n < bound →
    (digitsLoop bound s n = some m ↔
      (∀ c ∈ s, IsDigit c) ∧ m = n * 10 ^ s.length + numeral s ∧ m < bound) := by
  induction s with
  | nil => intro n m h; simp [digitsLoop, numeral]; constructor
           · rintro rfl; exact ⟨rfl, h⟩
           · rintro ⟨rfl, _⟩; rfl
  | cons c s ih =>
    intro n m h
    have key : (n * 10 + (c.toNat - 48)) * 10 ^ s.length + numeral s =
        n * 10 ^ (c :: s).length + numeral (c :: s) := by
      rw [numeral, List.length_cons, pow_succ]; ring
    rw [digitsLoop]
    by_cases hc : 48 ≤ c.toNat ∧ c.toNat ≤ 57
    · rw [if_pos hc]
      by_cases hb : n * 10 + (c.toNat - 48) < bound
      · rw [if_pos hb, ih _ _ hb, key]
        constructor
        · rintro ⟨h1, h2, h3⟩
          refine ⟨?_, h2, h3⟩
          intro d hd
          rcases List.mem_cons.1 hd with rfl | hd
          · exact hc
          · exact h1 d hd
        · rintro ⟨h1, h2, h3⟩
          exact ⟨fun d hd => h1 d (List.mem_cons_of_mem _ hd), h2, h3⟩
      · rw [if_neg hb]
        constructor
        · intro h; cases h
        · rintro ⟨_, h2, h3⟩
          rw [← key] at h2
          have : n * 10 + (c.toNat - 48) ≤ (n * 10 + (c.toNat - 48)) * 10 ^ s.length :=
            Nat.le_mul_of_pos_right _ (Nat.pow_pos (by norm_num))
          omega
    · rw [if_neg hc]
      constructor
      · intro h; cases h
      · rintro ⟨h1, _⟩
        exact absurd (h1 c List.mem_cons_self) hc

theorem digitsLoop_zero (bound : Nat) (hb : 0 < bound) (s : List Char) (m : Nat) (hs : s ≠ []) :
    digitsLoop bound s 0 = some m ↔ Digits s m ∧ m < bound := by
  rw [digitsLoop_iff bound s 0 m hb]
  unfold Digits
  constructor
  · rintro ⟨h1, h2, h3⟩; exact ⟨⟨hs, h1, by omega⟩, h3⟩
  · rintro ⟨⟨_, h1, h2⟩, h3⟩; exact ⟨h1, by omega, h3⟩

theorem digits_head {s : List Char} {c : Char} {r : List Char} {n : Nat} (h : Digits s n) (hs : s = c :: r) :
    48 ≤ c.toNat ∧ c.toNat ≤ 57 := by
  subst hs; exact h.2.1 c List.mem_cons_self

theorem parseUnsigned_iff (bound : Nat) (hb : 0 < bound) (s : List Char) (n : Nat) :
    parseUnsigned bound s = some n ↔ n < bound ∧ (Digits s n ∨ ∃ r, s = '+' :: r ∧ Digits r n) := by
  unfold parseUnsigned
  split
  · simp [Digits]
  · constructor
    · intro h; cases h
    · rintro ⟨_, h | ⟨r, hr, h⟩⟩
      · exact absurd (digits_head h rfl) (by decide)
      · cases hr; exact absurd rfl h.1
  · rename_i s hs
    have hs' : s ≠ [] := fun h => hs h
    rw [digitsLoop_zero bound hb s n hs']
    constructor
    · rintro ⟨h1, h2⟩; exact ⟨h2, Or.inr ⟨s, rfl, h1⟩⟩
    · rintro ⟨h2, h | ⟨r, hr, h⟩⟩
      · exact absurd (digits_head h rfl) (by decide)
      · cases hr; exact ⟨h, h2⟩
  · rename_i h0 h1 h2
    rw [digitsLoop_zero bound hb s n h0]
    constructor
    · rintro ⟨h, hn⟩; exact ⟨hn, Or.inl h⟩
    · rintro ⟨hn, h | ⟨r, hr, h⟩⟩
      · exact ⟨h, hn⟩
      · exact absurd hr (h2 r)

theorem parseI64_iff (s : List Char) (n : Nat) :
    (∃ i, parseI64 s = some i ∧ 0 ≤ i ∧ i ≤ 255 ∧ i.toNat = n) ↔
      n < 256 ∧ (Digits s n ∨ (∃ r, s = '+' :: r ∧ Digits r n) ∨ (∃ r, s = '-' :: r ∧ Digits r n ∧ n = 0)) := by
  unfold parseI64
  split
  · simp [Digits]
  · constructor
    · rintro ⟨i, h, _⟩; cases h
    · rintro ⟨_, h | ⟨r, hr, h⟩ | ⟨r, hr, h⟩⟩
      · exact absurd (digits_head h rfl) (by decide)
      · cases hr; exact absurd rfl h.1
      · cases hr
  · constructor
    · rintro ⟨i, h, _⟩; cases h
    · rintro ⟨_, h | ⟨r, hr, h⟩ | ⟨r, hr, h⟩⟩
      · exact absurd (digits_head h rfl) (by decide)
      · cases hr
      · cases hr; exact absurd rfl h.1.1
  · rename_i s hs
    have hs' : s ≠ [] := fun h => hs h
    constructor
    · rintro ⟨i, h, h0, h1, rfl⟩
      rw [Option.map_eq_some_iff] at h
      obtain ⟨m, hm, rfl⟩ := h
      rw [digitsLoop_zero _ (by norm_num) s m hs'] at hm
      refine ⟨?_, Or.inr (Or.inl ⟨s, rfl, ?_⟩)⟩
      · simp only [Int.ofNat_eq_natCast] at h1 ⊢; omega
      · simpa using hm.1
    · rintro ⟨hn, h | ⟨r, hr, h⟩ | ⟨r, hr, h⟩⟩
      · exact absurd (digits_head h rfl) (by decide)
      · cases hr
        refine ⟨Int.ofNat n, ?_, by simp, by simp only [Int.ofNat_eq_natCast]; omega, by simp⟩
        rw [(digitsLoop_zero _ (by norm_num) s n hs').2 ⟨h, by omega⟩]; rfl
      · cases hr
  · rename_i s hs
    have hs' : s ≠ [] := fun h => hs h
    constructor
    · rintro ⟨i, h, h0, h1, rfl⟩
      rw [Option.map_eq_some_iff] at h
      obtain ⟨m, hm, rfl⟩ := h
      rw [digitsLoop_zero _ (by norm_num) s m hs'] at hm
      have hm0 : m = 0 := by simp only [Int.ofNat_eq_natCast] at h0; omega
      subst hm0
      exact ⟨by simp, Or.inr (Or.inr ⟨s, rfl, by simpa using hm.1, by simp⟩)⟩
    · rintro ⟨hn, h | ⟨r, hr, h⟩ | ⟨r, hr, h, rfl⟩⟩
      · exact absurd (digits_head h rfl) (by decide)
      · cases hr
      · cases hr
        refine ⟨0, ?_, by simp, by simp, by simp⟩
        rw [(digitsLoop_zero _ (by norm_num) s 0 hs').2 ⟨h, by omega⟩]; rfl
  · rename_i h0 h1 h2 h3 h4
    constructor
    · rintro ⟨i, h, h0', h1, rfl⟩
      rw [Option.map_eq_some_iff] at h
      obtain ⟨m, hm, rfl⟩ := h
      rw [digitsLoop_zero _ (by norm_num) s m h0] at hm
      refine ⟨?_, Or.inl ?_⟩
      · simp only [Int.ofNat_eq_natCast] at h1 ⊢; omega
      · simpa using hm.1
    · rintro ⟨hn, h | ⟨r, hr, h⟩ | ⟨r, hr, h, _⟩⟩
      · refine ⟨Int.ofNat n, ?_, by simp, by simp only [Int.ofNat_eq_natCast]; omega, by simp⟩
        rw [(digitsLoop_zero _ (by norm_num) s n h0).2 ⟨h, by omega⟩]; rfl
      · exact absurd hr (h3 r)
      · exact absurd hr (h4 r)

theorem mem_cliWords (n : WordName) : n ∈ allWords := by cases n <;> decide

theorem wordText_injective {a b : WordName} (h : (wordText a).toList = (wordText b).toList) : a = b := by
  have : ∀ a ∈ allWords, ∀ b ∈ allWords, (wordText a).toList = (wordText b).toList → a = b := by decide +kernel
  exact this a (mem_cliWords a) b (mem_cliWords b) h

/-- The value parsers accept exactly the texts that denote a value. -/
theorem parseVal_iff (k : Kind) (s : List Char) (v : Val) : parseVal k s = some v ↔ Denotes k s v := by
  cases k with
  | str => simp only [parseVal, Denotes, Option.some.injEq]; exact eq_comm
  | usize =>
    simp only [parseVal, Denotes, Option.map_eq_some_iff]
    constructor
    · rintro ⟨n, h, rfl⟩; exact ⟨n, rfl, (parseUnsigned_iff _ (by norm_num) s n).1 h⟩
    · rintro ⟨n, rfl, h⟩; exact ⟨n, (parseUnsigned_iff _ (by norm_num) s n).2 h, rfl⟩
  | u64 =>
    simp only [parseVal, Denotes, Option.map_eq_some_iff]
    constructor
    · rintro ⟨n, h, rfl⟩; exact ⟨n, rfl, (parseUnsigned_iff _ (by norm_num) s n).1 h⟩
    · rintro ⟨n, rfl, h⟩; exact ⟨n, (parseUnsigned_iff _ (by norm_num) s n).2 h, rfl⟩
  | u8 =>
    simp only [parseVal, Denotes]
    constructor
    · intro h
      split at h
      · cases h
      · rename_i i hi
        split at h
        · rename_i hr
          cases h
          exact ⟨_, rfl, (parseI64_iff s _).1 ⟨i, hi, hr.1, hr.2, rfl⟩⟩
        · cases h
    · rintro ⟨n, rfl, h⟩
      obtain ⟨i, hi, h0, h1, rfl⟩ := (parseI64_iff s n).2 h
      rw [hi]
      simp [h0, h1]
  | word =>
    simp only [parseVal, Denotes, Option.map_eq_some_iff]
    constructor
    · rintro ⟨n, h, rfl⟩
      exact ⟨n, rfl, by simpa using List.find?_some h⟩
    · rintro ⟨n, rfl, rfl⟩
      refine ⟨n, ?_, rfl⟩
      cases hf : allWords.find? fun m => decide ((wordText n).toList = (wordText m).toList) with
      | none =>
        have := List.find?_eq_none.1 hf n (mem_cliWords n)
        simp at this
      | some m =>
        have := List.find?_some hf
        rw [decide_eq_true_eq] at this
        rw [wordText_injective this]

end Verif
