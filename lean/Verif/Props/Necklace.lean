import Verif.Lemmas.DeBruijnOdd
import Verif.Lemmas.Power2
import Verif.Spec.DeBruijn

/-! # C47–C49: de Bruijn words, the necklace test, the powers of two -/

namespace Verif.Props
open Spec Model

/-! ### C48 -/

/-- What `is_necklace(text, |text|)` decides, for every non-empty text: it returns true exactly if every
suffix is at least the prefix of the same length, equivalently if the text is a prefix of a power of a Lyndon
word (a "prenecklace").  Missing from C48: the text need not be a necklace, see `C48_refuted`. -/
theorem C48_is_necklace_partial (text : List UInt8) (ht : text ≠ []) :
    ∃ b, isNecklace text text.length = .ok b ∧
      (b = true ↔ ∀ d, text.take (text.length - d) ≤ text.drop d) ∧
      (b = true ↔ ∃ u m, IsLyndon u ∧ u <+: text ∧ text <+: power u m) := by
  obtain ⟨b, hb, h⟩ := isNecklace_ok ht
  refine ⟨b, hb, ?_, ?_⟩
  · rcases h with ⟨rfl, _, h⟩ | ⟨rfl, _, d, h⟩
    · simp only [true_iff]
      exact fun d => (no_mis_iff d).1 (h d)
    · simp only [Bool.false_eq_true, false_iff, not_forall]
      exact ⟨d, fun h' => (no_mis_iff d).2 h' h⟩
  · rcases h with ⟨rfl, ⟨u, hu, hp⟩, _⟩ | ⟨rfl, h, _⟩
    · simp only [true_iff]
      obtain ⟨m, hm⟩ := ppow_prefix_power hp
      exact ⟨u, m, hu, hp.prefix, hm⟩
    · simp only [Bool.false_eq_true, false_iff]
      rintro ⟨u, m, hu, h1, h2⟩
      apply h
      refine ⟨u, hu, hu.1, h1.length_le, ?_⟩
      have hget : ∀ m i, i < (power u m).length → (power u m)[i]? = u[i % u.length]? := by
        intro m
        induction m with
        | zero => intro i hi; simp [power] at hi
        | succ m ih =>
          intro i hi
          rw [power] at hi ⊢
          by_cases hlt : i < u.length
          · rw [List.getElem?_append_left hlt, Nat.mod_eq_of_lt hlt]
          · rw [List.getElem?_append_right (by omega), ih _ (by simp at hi; omega)]
            congr 1
            rw [← Nat.mod_eq_sub_mod (by omega)]
      intro i hi
      have hle := h2.length_le
      rw [← hget m i (by omega)]
      obtain ⟨t, ht⟩ := h2
      rw [← ht, List.getElem?_append_left hi]

example := C48_is_necklace_partial [97, 97, 98, 97, 98] (by decide)

/-- C48, one direction: the test never rejects a necklace. -/
theorem C48_accepts_necklaces_partial (text : List UInt8) (ht : text ≠ []) (h : IsNecklace text) :
    isNecklace text text.length = .ok true := by
  obtain ⟨b, hb, h' | h'⟩ := isNecklace_ok ht
  · rw [hb, h'.1]
  · exfalso
    obtain ⟨_, _, d, hm⟩ := h'
    have hd : d < text.length := by
      obtain ⟨i, h1, _⟩ := mis_iff_index.1 hm
      rw [List.length_drop] at h1; omega
    have h1 := h d hd
    have h2 : Mis (rot d text) text := by
      have := hm.append (text.take d) []
      rwa [List.append_nil] at this
    exact absurd h2.lt (not_lt.2 h1)

example : isNecklace [97, 98, 97, 98] 4 = .ok true := C48_accepts_necklaces_partial [97, 98, 97, 98] (by decide)
  (by show ∀ i, _ → _; decide)

/-- C48, the direction that fails: `aba` is accepted although its rotation `aab` is smaller. -/
theorem C48_refuted :
    ∃ text : List UInt8, text ≠ [] ∧ isNecklace text text.length = .ok true ∧ ¬ IsNecklace text := by
  refine ⟨[97, 98, 97], by simp, by decide +kernel, ?_⟩
  intro h
  exact absurd (h 2 (by decide)) (by decide +kernel)

example : isNecklace [97, 97, 98, 97, 98] 5 = .ok true ∧ isNecklace [97, 98, 97, 97] 4 = .ok false := by
  decide +kernel

/-! ### C47 -/

/-- C47, the part that holds for every `k`: `binary_debruijn_word(k)` terminates (within `2^(k+1)` rounds)
and returns a word over `a`, `b` of length between `k + 2` and `2^(k+1)` in which, read cyclically, no word
of length `k + 1` occurs twice.  Missing: that every word occurs; see `C47_refuted`. -/
theorem C47_binary_debruijn_partial (k : Nat) :
    ∃ w, (∀ fuel, 2 ^ (k + 1) ≤ fuel → binaryDebruijnWord fuel k = .ok w) ∧
      (∀ c ∈ w, c = 97 ∨ c = 98) ∧ k + 2 ≤ w.length ∧ w.length ≤ 2 ^ (k + 1) ∧
      ∀ i j, i < w.length → j < w.length → (rot i w).take (k + 1) = (rot j w).take (k + 1) → i = j := by
  obtain ⟨P, h1, h2, h3, h4⟩ := debruijn_ok k
  have hlen : (dbOut (k + 1) P).length = P := by simp [dbOut]
  refine ⟨dbOut (k + 1) P, fun fuel hf => h3 fuel (by omega), ?_, by omega, by omega, ?_⟩
  · intro c hc
    obtain ⟨t, _, rfl⟩ := List.mem_map.1 hc
    exact (reg_reg (n := k + 1) (by omega) (t + 1)).2 _ (by simp [reg, dbNext])
  · intro i j hi hj
    rw [hlen] at hi hj
    exact h4 i j hi hj

/-- A word all of whose cyclic windows differ is a de Bruijn word as soon as it is long enough. -/
theorem C47_by_length_partial (k : Nat) (w : List UInt8)
    (hrun : ∃ fuel, binaryDebruijnWord fuel k = .ok w) : IsDeBruijn (k + 1) w ↔ w.length = 2 ^ (k + 1) := by
  refine ⟨fun h => h.1, fun hlen => ⟨hlen, ?_⟩⟩
  obtain ⟨fuel, hfuel⟩ := hrun
  obtain ⟨w', g1, g2, g3, g4, g5⟩ := C47_binary_debruijn_partial k
  -- the result does not depend on the fuel
  have hmono : ∀ n f w o r d, debruijnLoop n f w o = .ok r → debruijnLoop n (f + d) w o = .ok r := by
    intro n f
    induction f with
    | zero => intro w o r d h; simp [debruijnLoop] at h
    | succ f ih =>
      intro w o r d h
      rw [show f + 1 + d = f + d + 1 by omega]
      rw [debruijnLoop] at h ⊢
      cases hs : debruijnStep w with
      | error e => simp [hs] at h
      | ok x =>
        obtain ⟨c, w2⟩ := x
        simp only [hs, ok_bind] at h ⊢
        split
        · next hd => rw [if_pos hd] at h; exact h
        · next hd => rw [if_neg hd] at h; exact ih _ _ _ _ h
  have hw : w = w' := by
    have a1 := g1 (fuel + 2 ^ (k + 1)) (by omega)
    have a2 : binaryDebruijnWord (fuel + 2 ^ (k + 1)) k = .ok w := hmono _ _ _ _ _ _ hfuel
    rw [a2] at a1; injection a1
  subst hw
  intro v hv1 hv2
  have hmem : ∀ i, (rot i w).take (k + 1) ∈ (allReg (k + 1)).toFinset ∨ w.length ≤ i := by
    intro i
    by_cases hi : i < w.length
    · left
      rw [List.mem_toFinset, mem_allReg]
      refine ⟨by rw [List.length_take, rot_length]; omega, fun c hc => g2 c ?_⟩
      have := List.mem_of_mem_take hc
      rcases List.mem_append.1 this with h | h
      · exact List.mem_of_mem_drop h
      · exact List.mem_of_mem_take h
    · right; omega
  have hsub : (Finset.range w.length).image (fun i => (rot i w).take (k + 1)) ⊆ (allReg (k + 1)).toFinset := by
    intro x hx
    obtain ⟨i, hi, rfl⟩ := Finset.mem_image.1 hx
    exact (hmem i).resolve_right (by have := Finset.mem_range.1 hi; omega)
  have hcard : ((Finset.range w.length).image (fun i => (rot i w).take (k + 1))).card = 2 ^ (k + 1) := by
    rw [Finset.card_image_of_injOn, Finset.card_range, hlen]
    intro i hi j hj h
    exact g5 i j (by simpa using hi) (by simpa using hj) h
  have heq := Finset.eq_of_subset_of_card_le hsub (by
    rw [hcard]; exact le_trans (List.toFinset_card_le _) (allReg_length _).le)
  have hv : v ∈ (allReg (k + 1)).toFinset := by
    rw [List.mem_toFinset, mem_allReg]; exact ⟨hv1, hv2⟩
  rw [← heq] at hv
  obtain ⟨i, hi, hiv⟩ := Finset.mem_image.1 hv
  have hi' := Finset.mem_range.1 hi
  exact ⟨i, ⟨hi', hiv⟩, fun j ⟨hj, hjv⟩ => g5 j i hj hi' (by rw [hjv]; exact hiv.symm)⟩

example : IsDeBruijn 3 [98, 98, 98, 97, 98, 97, 97, 97] ↔ ([98, 98, 98, 97, 98, 97, 97, 97] : List UInt8).length = 2 ^ 3 :=
  C47_by_length_partial 2 _ ⟨16, by decide +kernel⟩

/-- C47 holds for the orders 0 to 3. -/
theorem C47_small_partial (k : Nat) (hk : k ≤ 3) :
    ∃ w, binaryDebruijnWord 16 k = .ok w ∧ IsDeBruijn (k + 1) w := by
  have h : ∀ k : Fin 4, ∃ w, binaryDebruijnWord 16 k = .ok w ∧ w.length = 2 ^ (k.1 + 1) := by
    intro k
    match k with
    | 0 => exact ⟨[98, 97], by decide +kernel, rfl⟩
    | 1 => exact ⟨[98, 98, 97, 97], by decide +kernel, rfl⟩
    | 2 => exact ⟨[98, 98, 98, 97, 98, 97, 97, 97], by decide +kernel, rfl⟩
    | 3 => exact ⟨[98, 98, 98, 98, 97, 98, 98, 97, 97, 98, 97, 98, 97, 97, 97, 97], by decide +kernel, rfl⟩
  obtain ⟨w, h1, h2⟩ := h ⟨k, by omega⟩
  exact ⟨w, h1, (C47_by_length_partial k w ⟨16, h1⟩).2 h2⟩

example := C47_small_partial 3 (by decide)

/-- C47 is false as stated: for `k = 4` the function returns a word of length 25, so some words of length 5
(for instance `aaaba`) do not occur. -/
theorem C47_refuted :
    ∃ w, binaryDebruijnWord 32 4 = .ok w ∧ w.length = 25 ∧ ¬ IsDeBruijn 5 w ∧
      ∀ i, i < w.length → (rot i w).take 5 ≠ [97, 97, 97, 98, 97] := by
  refine ⟨[98, 98, 98, 98, 98, 97, 98, 98, 98, 97, 97, 98, 98, 97, 98, 97, 98, 97, 97, 98, 97, 97, 97, 97, 97], ?_,
    rfl, fun h => absurd h.1 (by decide), by decide +kernel⟩
  decide +kernel

/-- C47 fails for every even order from 4 on: `a a a (ba)^(k/2 - 1)` never occurs, the word is too short. -/
theorem C47_even_orders_refuted (m : Nat) :
    ∃ w, (∀ fuel, 2 ^ (2 * m + 5) ≤ fuel → binaryDebruijnWord fuel (2 * m + 4) = .ok w) ∧
      w.length < 2 ^ (2 * m + 5) ∧ ¬ IsDeBruijn (2 * m + 5) w ∧
      ∀ i, i < w.length → (rot i w).take (2 * m + 5) ≠ [97, 97, 97] ++ (List.replicate (m + 1) [98, 97]).flatten := by
  obtain ⟨P, h1, h2, h3, h4, h5⟩ := debruijn_ok' (2 * m + 4)
  have hlen : (dbOut (2 * m + 4 + 1) P).length = P := by simp [dbOut]
  have hb : ∀ m, (List.replicate m ([98, 97] : List UInt8)).flatten = bas m := by
    intro m
    induction m with
    | zero => rfl
    | succ m ih => rw [List.replicate_succ, List.flatten_cons, ih]; rfl
  have hmiss : ∀ i, i < (dbOut (2 * m + 4 + 1) P).length →
      (rot i (dbOut (2 * m + 4 + 1) P)).take (2 * m + 5) ≠
        [97, 97, 97] ++ (List.replicate (m + 1) [98, 97]).flatten := by
    intro i hi e
    rw [hlen] at hi
    rw [cyclic_window (n := 2 * m + 5) (by omega) (by omega) h5 hi, hb] at e
    exact not_oddCycle m _ (by rw [e]; exact OddCycle.w1)
  have hdb : ¬ IsDeBruijn (2 * m + 5) (dbOut (2 * m + 4 + 1) P) := by
    intro h
    obtain ⟨i, ⟨hi, hw⟩, _⟩ := h.2 ([97, 97, 97] ++ bas (m + 1)) (by simp [bas_length]; omega)
      (fun c hc => (OddCycle.w1 (m := m)).reg.2 c (by simpa using hc))
    exact hmiss i hi (by rw [hb]; exact hw)
  refine ⟨_, fun fuel hf => h3 fuel (le_trans h2 hf), ?_, hdb, hmiss⟩
  rw [hlen]
  rcases Nat.lt_or_ge P (2 ^ (2 * m + 5)) with h | h
  · exact h
  · exact absurd ((C47_by_length_partial (2 * m + 4) _ ⟨P, h3 P (le_refl _)⟩).2 (by
      rw [hlen]; exact le_antisymm h2 h)) hdb

/-- the first of these orders, by evaluation: order 6 gives 102 of the 128 letters -/
example : ∃ w, binaryDebruijnWord 128 6 = .ok w ∧ w.length = 102 := by
  have h : ((binaryDebruijnWord 128 6).toOption.map List.length) = some 102 := by decide +kernel
  cases e : binaryDebruijnWord 128 6 with
  | error x => rw [e] at h; simp [Except.toOption] at h
  | ok w => rw [e] at h; exact ⟨w, rfl, by simpa [Except.toOption] using h⟩

/-! ### C49 -/

/-- C49 for all positions but the last: `power2_sequence(k)`, `k ≤ 62`, has length `2^k`, and its symbol
number `j < 2^k` (counting from 1) is `b` if `j` is a power of two and `a` otherwise.  Missing: the last
symbol, see `C49_refuted`. -/
theorem C49_power2_partial (k : Nat) (hk : k ≤ 62) :
    ∃ w, power2Sequence k = .ok w ∧ w.length = 2 ^ k ∧
      ∀ j, 1 ≤ j → j < 2 ^ k → (w[j - 1]? = some 97 ∨ w[j - 1]? = some 98) ∧ (w[j - 1]? = some 98 ↔ ∃ e, j = 2 ^ e) := by
  have hn1 : 1 ≤ 2 ^ k := Nat.one_le_two_pow
  refine ⟨_, power2_ok hk, by simp; omega, ?_⟩
  intro j h1 h2
  rw [List.getElem?_append_left (by simp; omega), List.getElem?_map, List.getElem?_range (by omega), Option.map_some,
    pow2Letter, show j - 1 + 1 = j by omega]
  by_cases he : ∃ e, j = 2 ^ e
  · rw [if_pos he]; exact ⟨Or.inr rfl, fun _ => he, fun _ => rfl⟩
  · rw [if_neg he]; exact ⟨Or.inl rfl, fun h => absurd h (by decide), fun h => absurd h he⟩

example := C49_power2_partial 62 (by decide)

/-- C49 is false as stated, for every order: the last symbol (number `2^k`, a power of two) is never written
and stays the byte 0. -/
theorem C49_refuted (k : Nat) (hk : k ≤ 62) :
    ∃ w, power2Sequence k = .ok w ∧ w[2 ^ k - 1]? = some 0 := by
  refine ⟨_, power2_ok hk, ?_⟩
  rw [List.getElem?_append_right (by simp)]
  simp

example := C49_refuted 62 (by decide)

example : power2Sequence 3 = .ok [98, 98, 97, 98, 97, 97, 97, 0] := by decide +kernel

end Verif.Props
