import Verif.Lemmas.Lz

/-! # Counting the phrases of a Lempel-Ziv parse

A substring `t[p..q]` without earlier occurrence forces every parse to start a phrase in `(p, q]`; disjoint
intervals of this kind bound the number of phrases from below. -/

namespace Verif

open Spec Model

/-- `t[p..q]` has at least two letters and does not start before `p`. -/
def FirstAt (t : List UInt8) (p q : Nat) : Prop :=
  p < q ∧ q < t.length ∧ ∀ j, j < p → ∃ k, k ≤ q - p ∧ t[j + k]? ≠ t[p + k]?

/-- There are `m` disjoint intervals as above, the last one ending at `e`. -/
inductive Forced (t : List UInt8) : Nat → Nat → Prop
  | zero : Forced t 0 0
  | succ {m e p q : Nat} : Forced t m e → e ≤ p → FirstAt t p q → Forced t (m + 1) q

theorem isParse_append {t : List UInt8} (l1 l2 : List Nat) (i : Nat) :
    IsParse t i (l1 ++ l2) → IsParse t (i + l1.sum) l2 := by
  induction l1 generalizing i with
  | nil => simp
  | cons a l1 ih =>
    rintro ⟨-, -, h⟩
    have := ih _ h
    rwa [List.sum_cons, ← Nat.add_assoc]

theorem FirstAt.cut {t : List UInt8} {p q s l : Nat} (h : FirstAt t p q) (hs : s ≤ p)
    (hl : l = 1 ∨ ∃ j, j < s ∧ Occ t j s l) : s + l ≤ q := by
  obtain ⟨h1, h2, h3⟩ := h
  by_contra hc
  rcases hl with rfl | ⟨j, hj, o1, o2, o3⟩
  · omega
  · obtain ⟨k, hk, hne⟩ := h3 (j + (p - s)) (by omega)
    have := o3 (p - s + k) (by omega)
    rw [← Nat.add_assoc, ← Nat.add_assoc, show s + (p - s) + k = p + k by omega] at this
    exact hne this

theorem Forced.lt {t : List UInt8} {m e : Nat} (h : Forced t m e) (ht : t ≠ []) : e < t.length := by
  cases h with
  | zero => exact List.length_pos_iff.2 ht
  | succ _ _ h => exact h.2.1

theorem Forced.split {t : List UInt8} {m e : Nat} (h : Forced t m e) {ls : List Nat} (hp : IsParse t 0 ls) :
    ∃ l1 l2, ls = l1 ++ l2 ∧ l1.length = m ∧ l1.sum ≤ e := by
  induction h with
  | zero => exact ⟨[], ls, rfl, rfl, Nat.le_refl _⟩
  | @succ m e p q _ hep hf ih =>
    obtain ⟨l1, l2, rfl, h2, h3⟩ := ih
    have h := isParse_append l1 l2 0 hp
    rw [Nat.zero_add] at h
    cases l2 with
    | nil =>
      have : l1.sum = t.length := h
      have := hf.1
      have := hf.2.1
      omega
    | cons l l2 =>
      refine ⟨l1 ++ [l], l2, by simp, by simp [h2], ?_⟩
      have := hf.cut (show l1.sum ≤ p by omega) h.2.1
      simpa using this

/-- Every parse has more phrases than there are disjoint forced intervals. -/
theorem Forced.lower {t : List UInt8} {m e : Nat} (h : Forced t m e) (ht : t ≠ []) {ls : List Nat}
    (hp : IsParse t 0 ls) : m + 1 ≤ ls.length := by
  obtain ⟨l1, l2, rfl, h2, h3⟩ := h.split hp
  cases l2 with
  | nil =>
    have h := isParse_append l1 [] 0 hp
    have : 0 + l1.sum = t.length := h
    have := h
    have := Forced.lt ‹_› ht
    omega
  | cons l l2 => simp; omega

theorem FirstAt.append {t : List UInt8} {p q : Nat} (h : FirstAt t p q) (r : List UInt8) : FirstAt (t ++ r) p q := by
  obtain ⟨h1, h2, h3⟩ := h
  refine ⟨h1, by simp; omega, fun j hj => ?_⟩
  obtain ⟨k, hk, hne⟩ := h3 j hj
  refine ⟨k, hk, ?_⟩
  rwa [List.getElem?_append_left (by omega), List.getElem?_append_left (by omega)]

theorem Forced.append {t : List UInt8} {m e : Nat} (h : Forced t m e) (r : List UInt8) : Forced (t ++ r) m e := by
  induction h with
  | zero => exact .zero
  | succ _ hep hf ih => exact ih.succ hep (hf.append r)

theorem FirstAt.new_letter {t : List UInt8} (ht : t ≠ []) {c : UInt8} (hc : c ∉ t) (r : List UInt8) :
    FirstAt (t ++ c :: r) (t.length - 1) t.length := by
  have h0 : 0 < t.length := List.length_pos_iff.2 ht
  refine ⟨by omega, by simp, fun j hj => ⟨1, by omega, ?_⟩⟩
  rw [List.getElem?_append_left (by omega), show t.length - 1 + 1 = t.length by omega,
    List.getElem?_append_right (Nat.le_refl _), Nat.sub_self, List.getElem?_cons_zero]
  intro h
  exact hc (List.mem_of_getElem? h)

/-- A parse goes on with a copy. -/
theorem isParse_snoc {t u : List UInt8} {ls : List Nat} (i : Nat) (hp : IsParse t i ls)
    (hu : u.length = 1 ∨ ∃ j, j < t.length ∧ Occ (t ++ u) j t.length u.length) :
    IsParse (t ++ u) i (ls ++ [u.length]) := by
  induction ls generalizing i with
  | nil =>
    have : i = t.length := hp
    subst this
    exact ⟨by simp, hu, by simp [IsParse]⟩
  | cons l ls ih =>
    obtain ⟨h1, h2, h3⟩ := hp
    refine ⟨by simp; omega, ?_, ih _ h3⟩
    rcases h2 with rfl | ⟨j, hj, o1, o2, o3⟩
    · exact .inl rfl
    · refine .inr ⟨j, hj, by simp; omega, by simp; omega, fun k hk => ?_⟩
      rw [List.getElem?_append_left (by omega), List.getElem?_append_left (by omega)]
      exact o3 k hk

/-- A word that is a substring can be copied. -/
theorem isParse_copy {t u x y : List UInt8} {ls : List Nat} (hp : IsParse t 0 ls) (h : x ++ u ++ y = t)
    (hu : u ≠ []) : IsParse (t ++ u) 0 (ls ++ [u.length]) := by
  subst h
  have := List.length_pos_iff.2 hu
  refine isParse_snoc 0 hp (.inr ⟨x.length, by simp; omega, by simp, by rw [List.length_append (bs := u)], fun k hk => ?_⟩)
  rw [List.getElem?_append_left (by simp; omega), List.getElem?_append_left (by simp; omega),
    List.getElem?_append_right (by omega), List.getElem?_append_right (by simp)]
  congr 1; simp

/-- The number of factors from matching bounds, for the text alone and followed by the sentinel. -/
theorem countZ_exact {sufsort : List UInt8 → List Nat} (hs : SortsSuffixes sufsort) {t : List UInt8} {m e : Nat}
    (hf : Forced t m e) {ls : List Nat} (hp : IsParse t 0 ls) (hl : ls.length = m + 1) (h0 : ∀ x ∈ t, x ≠ 0)
    (hlen : t.length < 2147483647) :
    (∃ fs, countZFactors sufsort t = .ok fs ∧ fs.length = m + 1) ∧
      ∃ fs, countZFactors sufsort (t ++ [0]) = .ok fs ∧ fs.length = m + 2 := by
  have key : ∀ (t : List UInt8) (m e : Nat) (ls : List Nat), Forced t m e → IsParse t 0 ls → ls.length = m + 1 →
      t ≠ [] → t.length < 2147483648 → ∃ fs, countZFactors sufsort t = .ok fs ∧ fs.length = m + 1 := by
    intro t m e ls hf hp hl ht hlen
    obtain ⟨fs, h1, h2, -⟩ := countZ_ok hs ht hlen
    refine ⟨fs, h1, ?_⟩
    have a := greedy_minimal ls fs 0 0 (Nat.le_refl _) hp h2
    have b := hf.lower ht (greedy_isParse fs 0 h2)
    rw [List.length_map] at b
    omega
  have ht : t ≠ [] := by
    rintro rfl
    cases ls with
    | nil => simp at hl
    | cons l ls =>
      obtain ⟨h1, h2, -⟩ := hp
      simp only [List.length_nil] at h1
      rcases h2 with rfl | ⟨j, hj, -⟩ <;> omega
  refine ⟨key t m e ls hf hp hl ht (by omega), ?_⟩
  refine key (t ++ [0]) (m + 1) t.length (ls ++ [1]) ?_ (isParse_snoc (u := [0]) 0 hp (.inl rfl)) (by simp [hl])
    (by simp) (by simp; omega)
  exact (hf.append [0]).succ (Nat.le_sub_one_of_lt (hf.lt ht)) (FirstAt.new_letter ht (fun h => h0 0 h rfl) [])

end Verif
