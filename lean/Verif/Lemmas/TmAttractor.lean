import Verif.Lemmas.LzWords
import Verif.Spec.Attractor

/-! # Attractors of the Thue–Morse words, by doubling -/

namespace Verif

open Spec Model

/-- Every factor of at least two letters of the first `N` Thue–Morse letters has an occurrence there across one of the
boundaries. -/
def Straddle (N : Nat) (B : List Nat) : Prop :=
  ∀ i l, 0 < l → i + l < N → ∃ j, j + l < N ∧ (∃ b ∈ B, j < b ∧ b ≤ j + l) ∧ ∀ d, d ≤ l → tmb (j + d) = tmb (i + d)

/-- All four pairs of letters stand at boundaries inside the first `N` letters. -/
def AllPairs (N : Nat) (B : List Nat) : Prop :=
  ∀ x y, ∃ b ∈ B, 0 < b ∧ b < N ∧ tmb (b - 1) = x ∧ tmb b = y

theorem tmb_half {i j d : Nat} (h : tmb (j + (i % 2 + d) / 2) = tmb (i / 2 + (i % 2 + d) / 2)) :
    tmb (2 * j + i % 2 + d) = tmb (i + d) := by
  have e1 : 2 * j + i % 2 + d = 2 * (j + (i % 2 + d) / 2) + (i % 2 + d) % 2 := by omega
  have e2 : i + d = 2 * (i / 2 + (i % 2 + d) / 2) + (i % 2 + d) % 2 := by omega
  rw [e1, e2]
  rcases Nat.mod_two_eq_zero_or_one (i % 2 + d) with h0 | h0 <;> rw [h0]
  · rw [Nat.add_zero, Nat.add_zero, tmb_even, tmb_even, h]
  · rw [tmb_odd, tmb_odd, h]

theorem AllPairs.double {N : Nat} {B : List Nat} (h : AllPairs N B) {M : Nat} (hM : 2 * N ≤ M + 1) :
    AllPairs M (B.map (2 * ·)) := by
  intro x y
  obtain ⟨b, hb, h0, h1, h2, h3⟩ := h (!x) y
  refine ⟨2 * b, List.mem_map.2 ⟨b, hb, rfl⟩, by omega, by omega, ?_, by rw [tmb_even, h3]⟩
  rw [show 2 * b - 1 = 2 * (b - 1) + 1 by omega, tmb_odd, h2, Bool.not_not]

/-- The doubling step, for a factor that ends before `M`. -/
theorem straddle_step {N : Nat} {B : List Nat} (hS : Straddle N B) (hP : AllPairs N B) {i l : Nat} (hl : 0 < l)
    (hN : (i + l) / 2 < N) :
    ∃ j, j + l ≤ 2 * (N - 1) + (i + l) % 2 ∧ (∃ b ∈ B.map (2 * ·), j < b ∧ b ≤ j + l) ∧ ∀ d, d ≤ l → tmb (j + d) = tmb (i + d) := by
  by_cases h1 : (i + l) / 2 = i / 2
  · have hi : i % 2 = 0 := by omega
    have hl1 : l = 1 := by omega
    subst hl1
    obtain ⟨b, hb, h2, h3, h4, h5⟩ := hP (!tmb i) (tmb (i + 1))
    refine ⟨2 * b - 1, by omega, ⟨2 * b, List.mem_map.2 ⟨b, hb, rfl⟩, by omega, by omega⟩, fun d hd => ?_⟩
    rcases (by omega : d = 0 ∨ d = 1) with rfl | rfl
    · rw [Nat.add_zero, Nat.add_zero, show 2 * b - 1 = 2 * (b - 1) + 1 by omega, tmb_odd, h4, Bool.not_not]
    · rw [show 2 * b - 1 + 1 = 2 * b by omega, tmb_even, h5]
  · obtain ⟨j, g1, ⟨b, hb, g2, g3⟩, g4⟩ := hS (i / 2) ((i + l) / 2 - i / 2) (by omega) (by omega)
    refine ⟨2 * j + i % 2, by omega, ⟨2 * b, List.mem_map.2 ⟨b, hb, rfl⟩, by omega, by omega⟩, fun d hd => ?_⟩
    exact tmb_half (g4 _ (by omega))

theorem Straddle.double {N : Nat} {B : List Nat} (hS : Straddle N B) (hP : AllPairs N B) : Straddle (2 * N) (B.map (2 * ·)) := by
  intro i l hl h
  obtain ⟨j, h1, h2, h3⟩ := straddle_step hS hP hl (by omega : (i + l) / 2 < N)
  exact ⟨j, by omega, h2, h3⟩

theorem Straddle.double' {N : Nat} {B : List Nat} (hS : Straddle N B) (hP : AllPairs N B) (hS' : Straddle (N + 1) B)
    (hP' : AllPairs (N + 1) B) : Straddle (2 * N + 1) (B.map (2 * ·)) := by
  intro i l hl h
  by_cases h0 : i + l < 2 * N
  · obtain ⟨j, h1, h2, h3⟩ := straddle_step hS hP hl (by omega : (i + l) / 2 < N)
    exact ⟨j, by omega, h2, h3⟩
  · obtain ⟨j, h1, h2, h3⟩ := straddle_step hS' hP' hl (by omega : (i + l) / 2 < N + 1)
    exact ⟨j, by omega, h2, h3⟩

/-! ## the first letters -/

/-- The letters, by structural recursion. -/
def tmf : Nat → Nat → Bool
  | 0, _ => false
  | f + 1, i => if i % 2 = 0 then tmf f (i / 2) else !tmf f (i / 2)

theorem tmf_eq (f i : Nat) (h : i < 2 ^ f) : tmf f i = tmb i := by
  induction f generalizing i with
  | zero =>
    have : i = 0 := by simpa using h
    rw [this, tmb_zero]; rfl
  | succ f ih =>
    have h1 : i / 2 < 2 ^ f := by rw [Nat.pow_succ] at h; omega
    rw [tmf, ih _ h1]
    split
    · rename_i h2
      conv_rhs => rw [show i = 2 * (i / 2) by omega, tmb_even]
    · rename_i h2
      conv_rhs => rw [show i = 2 * (i / 2) + 1 by omega, tmb_odd]

/-- The check of a base case. -/
def straddleB (N : Nat) (B : List Nat) : Bool :=
  (List.range N).all fun i => (List.range N).all fun l => l == 0 || N ≤ i + l ||
    (List.range N).any fun j => j + l < N && (B.any fun b => j < b && b ≤ j + l) &&
      (List.range (l + 1)).all fun d => tmf 5 (j + d) == tmf 5 (i + d)

theorem straddle_of {N : Nat} {B : List Nat} (hN : N ≤ 32) (h : straddleB N B = true) : Straddle N B := by
  intro i l hl hi
  unfold straddleB at h
  rw [List.all_eq_true] at h
  have h1 := h i (List.mem_range.2 (by omega))
  rw [List.all_eq_true] at h1
  have h2 := h1 l (List.mem_range.2 (by omega))
  simp only [Bool.or_eq_true, beq_iff_eq, decide_eq_true_eq, List.any_eq_true, Bool.and_eq_true, List.all_eq_true, List.mem_range] at h2
  rcases h2 with (h2 | h2) | ⟨j, -, ⟨h3, b, hb, h4⟩, h5⟩
  · omega
  · omega
  · refine ⟨j, h3, ⟨b, hb, h4⟩, fun d hd => ?_⟩
    have := h5 d (by omega)
    rwa [tmf_eq 5 _ (by omega), tmf_eq 5 _ (by omega)] at this

/-- The check of the pairs. -/
def pairsB (N : Nat) (B : List Nat) : Bool :=
  [false, true].all fun x => [false, true].all fun y => B.any fun b => 0 < b && b < N && tmf 5 (b - 1) == x && tmf 5 b == y

theorem pairs_of {N : Nat} {B : List Nat} (hN : N ≤ 32) (h : pairsB N B = true) : AllPairs N B := by
  intro x y
  unfold pairsB at h
  simp only [List.all_eq_true, List.any_eq_true, Bool.and_eq_true, decide_eq_true_eq, beq_iff_eq] at h
  obtain ⟨b, hb, ⟨⟨h1, h2⟩, h3⟩, h4⟩ := h x (by cases x <;> simp) y (by cases y <;> simp)
  rw [tmf_eq 5 _ (by omega)] at h3 h4
  exact ⟨b, hb, h1, h2, h3, h4⟩

theorem tm_straddle (m : Nat) : Straddle (8 * 2 ^ m) [2 * 2 ^ m, 3 * 2 ^ m, 4 * 2 ^ m, 6 * 2 ^ m] ∧
    AllPairs (8 * 2 ^ m) [2 * 2 ^ m, 3 * 2 ^ m, 4 * 2 ^ m, 6 * 2 ^ m] := by
  induction m with
  | zero => exact ⟨straddle_of (by decide) (by decide +kernel), pairs_of (by decide) (by decide +kernel)⟩
  | succ m ih =>
    have h1 := ih.1.double ih.2
    have h2 := ih.2.double (M := 2 * (8 * 2 ^ m)) (by omega)
    simp only [List.map_cons, List.map_nil] at h1 h2
    have e : ∀ c, c * 2 ^ (m + 1) = 2 * (c * 2 ^ m) := fun c => by rw [Nat.pow_succ]; ring
    rw [e, e, e, e, e]
    exact ⟨h1, h2⟩

theorem vtm_straddle (m : Nat) : Straddle (24 * 2 ^ m) [6 * 2 ^ m, 8 * 2 ^ m, 16 * 2 ^ m, 20 * 2 ^ m] ∧
    Straddle (24 * 2 ^ m + 1) [6 * 2 ^ m, 8 * 2 ^ m, 16 * 2 ^ m, 20 * 2 ^ m] ∧
    AllPairs (24 * 2 ^ m) [6 * 2 ^ m, 8 * 2 ^ m, 16 * 2 ^ m, 20 * 2 ^ m] ∧
    AllPairs (24 * 2 ^ m + 1) [6 * 2 ^ m, 8 * 2 ^ m, 16 * 2 ^ m, 20 * 2 ^ m] := by
  induction m with
  | zero => exact ⟨straddle_of (by decide) (by decide +kernel), straddle_of (by decide) (by decide +kernel),
      pairs_of (by decide) (by decide +kernel), pairs_of (by decide) (by decide +kernel)⟩
  | succ m ih =>
    obtain ⟨a1, a2, a3, a4⟩ := ih
    have h1 := a1.double a3
    have h2 := a1.double' a3 a2 a4
    have h3 := a3.double (M := 2 * (24 * 2 ^ m)) (by omega)
    have h4 := a3.double (M := 2 * (24 * 2 ^ m) + 1) (by omega)
    simp only [List.map_cons, List.map_nil] at h1 h2 h3 h4
    have e : ∀ c, c * 2 ^ (m + 1) = 2 * (c * 2 ^ m) := fun c => by rw [Nat.pow_succ]; ring
    rw [e, e, e, e, e]
    exact ⟨h1, h2, h3, h4⟩

/-! ## attractors -/

theorem infix_slice {α : Type} {v T : List α} (h : v <:+: T) : ∃ i, i + v.length ≤ T.length ∧ ∀ d, d < v.length → v[d]? = T[i + d]? := by
  obtain ⟨a, b, rfl⟩ := h
  refine ⟨a.length, by simp, fun d hd => ?_⟩
  rw [List.append_assoc, List.getElem?_append_right (by omega), List.getElem?_append_left (by omega)]
  congr 1; omega

theorem occursAt_of {α : Type} {v T : List α} {j : Nat} (h1 : j + v.length ≤ T.length) (h2 : ∀ d, d < v.length → v[d]? = T[j + d]?) :
    OccursAt v T j := by
  refine ⟨h1, ?_⟩
  rw [List.prefix_iff_eq_take]
  apply List.ext_getElem?
  intro d
  by_cases hd : d < v.length
  · rw [List.getElem?_take_of_lt hd, List.getElem?_drop, h2 d hd]
  · rw [List.getElem?_eq_none (by omega), List.getElem?_eq_none (by rw [List.length_take]; omega)]

theorem tm_attractor (m : Nat) :
    IsAttractor ((List.range (8 * 2 ^ m)).map tm) [2 * 2 ^ m - 1, 3 * 2 ^ m - 1, 4 * 2 ^ m - 1, 6 * 2 ^ m - 1] := by
  obtain ⟨hS, hP⟩ := tm_straddle m
  have hp := Nat.two_pow_pos m
  intro v hv hi
  obtain ⟨i, h1, h2⟩ := infix_slice hi
  have hv' := List.length_pos_iff.2 hv
  rw [List.length_map, List.length_range] at h1
  have hget : ∀ k, k < 8 * 2 ^ m → ((List.range (8 * 2 ^ m)).map tm)[k]? = some (tm k) := fun k hk => by
    rw [List.getElem?_map, List.getElem?_range hk]; rfl
  have key : ∀ j, j + v.length ≤ 8 * 2 ^ m → (∀ d, d < v.length → tmb (j + d) = tmb (i + d)) →
      OccursAt v ((List.range (8 * 2 ^ m)).map tm) j := fun j hj hd => by
    refine occursAt_of (by rw [List.length_map, List.length_range]; exact hj) fun d hd' => ?_
    rw [h2 d hd', hget _ (by omega), hget _ (by omega), tm_inj.2 (hd d hd')]
  have hpos : ∀ b, b ∈ [2 * 2 ^ m, 3 * 2 ^ m, 4 * 2 ^ m, 6 * 2 ^ m] →
      b - 1 ∈ [2 * 2 ^ m - 1, 3 * 2 ^ m - 1, 4 * 2 ^ m - 1, 6 * 2 ^ m - 1] := fun b hb => by
    simp only [List.mem_cons, List.not_mem_nil, or_false] at hb ⊢
    omega
  by_cases h : v.length = 1
  · obtain ⟨b, hb, g1, g2, g3, -⟩ := hP (tmb i) false
    refine ⟨b - 1, key _ (by omega) fun d hd => ?_, b - 1, hpos b hb, le_refl _, by omega⟩
    rw [show d = 0 by omega, Nat.add_zero, Nat.add_zero, g3]
  · obtain ⟨j, g1, ⟨b, hb, g2, g3⟩, g4⟩ := hS i (v.length - 1) (by omega) (by omega)
    exact ⟨j, key j (by omega) fun d hd => g4 d (by omega), b - 1, hpos b hb, by omega, by omega⟩

theorem vtm_attractor (m : Nat) :
    IsAttractor ((List.range (24 * 2 ^ m)).map vtmLetter) [6 * 2 ^ m - 1, 8 * 2 ^ m - 1, 16 * 2 ^ m - 1, 20 * 2 ^ m - 1] := by
  obtain ⟨-, hS, -, -⟩ := vtm_straddle m
  intro v hv hi
  obtain ⟨i, h1, h2⟩ := infix_slice hi
  have hv' := List.length_pos_iff.2 hv
  rw [List.length_map, List.length_range] at h1
  have hget : ∀ k, k < 24 * 2 ^ m → ((List.range (24 * 2 ^ m)).map vtmLetter)[k]? = some (vtmLetter k) := fun k hk => by
    rw [List.getElem?_map, List.getElem?_range hk]; rfl
  obtain ⟨j, g1, ⟨b, hb, g2, g3⟩, g4⟩ := hS i v.length hv' (by omega)
  refine ⟨j, occursAt_of (by rw [List.length_map, List.length_range]; omega) fun d hd => ?_, b - 1, ?_, by omega, by omega⟩
  · rw [h2 d hd, hget _ (by omega), hget _ (by omega)]
    unfold vtmLetter
    rw [g4 d hd.le, Nat.add_assoc, Nat.add_assoc, g4 (d + 1) (by omega)]
  · simp only [List.mem_cons, List.not_mem_nil, or_false] at hb ⊢
    omega

end Verif
