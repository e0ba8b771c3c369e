import Verif.Lemmas.DigitSum

/-! # C43, C45, C46: words generated by 2-uniform morphisms, and the general morphism iteration -/

namespace Verif.Props
open Spec Model

/-- C43: for `k ≤ 62`, `thuemorse_word(k)` does not panic and is the word of length `2^k` whose letter `i`
is `a` if the number of one bits of `i` (the sum of its binary digits) is even, and `b` otherwise. -/
theorem C43_thuemorse_letters (k : Nat) (hk : k ≤ 62) :
    thuemorseWord k =
      .ok ((List.range (2 ^ k)).map (fun i => if (Nat.digits 2 i).sum % 2 = 0 then 97 else 98)) := by
  rw [thuemorse_ok hk]
  congr 1
  exact List.map_congr_left (fun i _ => tm_digits i)

example := C43_thuemorse_letters 62 (by decide)

/-- C43: it is the `k`-fold iterate of `a -> ab, b -> ba`, and `iterate_2morphism` gives the same word. -/
theorem C43_thuemorse_morphism (k : Nat) (hk : k ≤ 62) :
    thuemorseWord k = .ok (iter tmMor k [97]) ∧
      iterate2morphism k thuemorseMorphism = .ok (iter tmMor k [97]) := by
  refine ⟨?_, iterate2_ok tmMor_eq rfl hk⟩
  rw [thuemorse_ok hk, iter_fixLetter tmMor_eq rfl]

example := C43_thuemorse_morphism 62 (by decide)

/-- C43: consequently the word of order `k+1` is the word of order `k` followed by its complement. -/
theorem C43_thuemorse_complement (k : Nat) (hk : k ≤ 61) :
    ∃ w, thuemorseWord k = .ok w ∧
      thuemorseWord (k + 1) = .ok (w ++ w.map (fun c => if c = 97 then 98 else 97)) := by
  refine ⟨_, thuemorse_ok (by omega), ?_⟩
  rw [thuemorse_ok (by omega), Nat.pow_succ, Nat.mul_two, List.range_add, List.map_append, List.map_map,
    List.map_map]
  congr 2
  apply List.map_congr_left
  intro i hi
  exact tm_two k i (List.mem_range.1 hi)

example := C43_thuemorse_complement 61 (by decide)

example : thuemorseWord 4 = .ok [97, 98, 98, 97, 98, 97, 97, 98, 98, 97, 97, 98, 97, 98, 98, 97] := by
  decide +kernel

/-- C43, limit: from `k = 63` on the function panics (a buffer of `2^63` bytes is a capacity overflow,
larger shifts overflow). -/
theorem C43_limit (k : Nat) (hk : 63 ≤ k) : thuemorseWord k = .error .alloc ∨ thuemorseWord k = .error .arith := by
  unfold thuemorseWord
  by_cases h : k < 64
  · left
    have : k = 63 := by omega
    subst this
    rfl
  · right
    rw [shl1, if_neg h]; rfl

example := C43_limit 63 (by decide)

/-- C45: for every morphism that maps each letter to two letters and `a` to `ab`, `iterate_2morphism`
returns the `rounds`-fold iterate of the morphism on `a` (up to 62 rounds). -/
theorem C45_iterate2 (f : UInt8 → List UInt8) (h2 : ∀ c, (f c).length = 2) (ha : f 97 = [97, 98])
    (rounds : Nat) (hr : rounds ≤ 62) : iterate2morphism rounds f = .ok (iter f rounds [97]) := by
  refine iterate2_ok (f0 := fun c => (f c)[0]'(by have := h2 c; omega))
    (f1 := fun c => (f c)[1]'(by have := h2 c; omega)) ?_ ha hr
  intro c
  obtain ⟨x, y, hxy⟩ := List.length_eq_two.1 (h2 c)
  simp [hxy]

example := C45_iterate2 (fun c => [97, if c = 97 then 98 else 97]) (fun _ => rfl) rfl 62 (by decide)

/-- C45: for every non-erasing morphism whose image of `a` starts with `a` and has more letters,
`iterate_general_morphism` returns the `rounds`-fold iterate on `a`, provided the initial allocation is
possible (`sizehint` positive and below `2^63`, or `sizehint = 0` and at most 62 rounds) and the loop is
allowed as many rounds as the length of the previous iterate. -/
theorem C45_general (f : UInt8 → List UInt8) (hne : ∀ c, f c ≠ []) (r : List UInt8) (ha : f 97 = 97 :: r)
    (hr : r ≠ []) (rounds sizehint : Nat)
    (hcap : 0 < sizehint ∧ sizehint < 2 ^ 63 ∨ sizehint = 0 ∧ rounds ≤ 62)
    (fuel : Nat) (hfuel : (iter f (rounds - 1) [97]).length < fuel) :
    iterateGeneralMorphism fuel rounds f sizehint = .ok (iter f rounds [97]) := by
  refine general_ok ⟨ha, hr, hne⟩ (Or.inr ?_) hfuel
  unfold initialCapacity withCapacity shl1
  rcases hcap with ⟨h1, h2⟩ | ⟨rfl, h2⟩
  · rw [if_pos h1, pure_bind', if_pos (by omega)]
  · have hn : 2 ^ rounds ≤ 2 ^ 62 := Nat.pow_le_pow_right (by omega) h2
    rw [if_neg (by omega), if_pos (by omega), ok_bind, if_pos (by omega)]

example := C45_general (fun c => if c = 97 then [97, 98] else [97]) (fun c => by split <;> simp) [98] rfl (by simp) 6 0
  (.inr ⟨rfl, by decide⟩) 50 (by decide +kernel)

/-- C45: `iterate_general_morphism_with_startsymbol` iterates every morphism on every start word. -/
theorem C45_with_start (f : UInt8 → List UInt8) (start : List UInt8) (rounds sizehint : Nat)
    (hcap : 0 < sizehint ∧ sizehint < 2 ^ 63 ∨ sizehint = 0 ∧ rounds ≤ 62) :
    iterateGeneralMorphismWithStartsymbol rounds f sizehint start = .ok (iter f rounds start) := by
  refine withStart_ok ?_
  unfold initialCapacity withCapacity shl1
  rcases hcap with ⟨h1, h2⟩ | ⟨rfl, h2⟩
  · rw [if_pos h1, pure_bind', if_pos (by omega)]
  · have hn : 2 ^ rounds ≤ 2 ^ 62 := Nat.pow_le_pow_right (by omega) h2
    rw [if_neg (by omega), if_pos (by omega), ok_bind, if_pos (by omega)]

example := C45_with_start (fun c => if c = 97 then [97, 98] else []) [98, 97] 6 5 (.inl (by decide))

/-- C45, limit: in all other cases the initial allocation fails: both functions panic, whatever the morphism. -/
theorem C45_limit (f : UInt8 → List UInt8) (start : List UInt8) (rounds sizehint fuel : Nat)
    (hcap : ¬ (0 < sizehint ∧ sizehint < 2 ^ 63 ∨ sizehint = 0 ∧ rounds ≤ 62)) (hr : rounds ≠ 0) :
    ∃ e, iterateGeneralMorphismWithStartsymbol rounds f sizehint start = .error e ∧
      iterateGeneralMorphism fuel rounds f sizehint = .error e := by
  have h : ∃ e, initialCapacity rounds sizehint = .error e := by
    unfold initialCapacity withCapacity shl1
    by_cases h1 : sizehint > 0
    · rw [if_pos h1, pure_bind', if_neg (by omega)]
      exact ⟨_, rfl⟩
    · rw [if_neg h1]
      by_cases h2 : rounds < 64
      · have : rounds = 63 := by omega
        subst this
        rw [if_pos (by omega), ok_bind, if_neg (by omega)]
        exact ⟨_, rfl⟩
      · rw [if_neg h2]; exact ⟨_, rfl⟩
  obtain ⟨e, he⟩ := h
  refine ⟨e, ?_, ?_⟩
  · rw [iterateGeneralMorphismWithStartsymbol, he]; rfl
  · rw [iterateGeneralMorphism, if_neg hr, he]; rfl

example := C45_limit (fun c => if c = 97 then [97, 98] else []) [98, 97] 63 0 9 (by decide) (by decide)

/-- C45: `period_doubling_word(k)`, `k ≤ 62`, is the `k`-fold iterate of `a -> ab, b -> aa`; it has length
`2^k`, all letters are `a` or `b`, and letter `i` is `b` exactly if the exponent of 2 in `i+1` is odd. -/
theorem C45_period_doubling (k : Nat) (hk : k ≤ 62) :
    ∃ w, periodDoublingWord k = .ok w ∧ w = iter pdMor k [97] ∧ w.length = 2 ^ k ∧
      ∀ i (h : i < w.length), (w[i] = 97 ∨ w[i] = 98) ∧
        (w[i] = 98 ↔ ∃ e, e % 2 = 1 ∧ 2 ^ e ∣ i + 1 ∧ ¬ 2 ^ (e + 1) ∣ i + 1) := by
  refine ⟨_, iterate2_ok pdMor_eq rfl hk, rfl, ?_, ?_⟩
  · rw [iter_fixLetter pdMor_eq rfl]; simp
  · intro i h
    have e : (iter pdMor k [97])[i] = pd i := by
      have : iter pdMor k [97] = (List.range (2 ^ k)).map pd := iter_fixLetter pdMor_eq rfl k
      simp only [this]; simp
    rw [e]
    exact pd_spec i

example := C45_period_doubling 62 (by decide)

example : periodDoublingWord 3 = .ok [97, 98, 97, 97, 97, 98, 97, 98] := by decide +kernel
example : iterateGeneralMorphism 10 3 vtmMorphism 0 =
    .ok [97, 98, 99, 97, 99, 98, 97, 98, 99, 98, 97, 99] := by decide +kernel

/-- C46: `quaternary_paperfolding_word(i)` never reaches its `panic!` branch and is the `i`-fold iterate of
`d -> db, b -> cb, c -> da, a -> ca` on `d`. -/
theorem C46_quaternary (i : Nat) (hi : i ≤ 62) :
    quaternaryPaperfoldingWord i = .ok (iter paperMor i [100]) := by
  rw [quaternary_ok hi, iter_fixLetter paperMor_eq rfl]

example := C46_quaternary 62 (by decide)

/-- C46: `paperfolding_word(i)` has length `2^(i+1)`, consists of `0` and `1`, and its symbol number `j`
(counting from 1) is `1` exactly if the odd part of `j` is 1 modulo 4. -/
theorem C46_paperfolding (i : Nat) (hi : i ≤ 61) :
    ∃ w, paperfoldingWord i = .ok w ∧ w.length = 2 ^ (i + 1) ∧
      ∀ p (h : p < w.length), (w[p] = 49 ∨ w[p] = 48) ∧
        (w[p] = 49 ↔ ∃ e m, p + 1 = 2 ^ e * (4 * m + 1)) := by
  refine ⟨_, paperfolding_ok hi, by simp, ?_⟩
  intro p h
  simp only [List.getElem_map, List.getElem_range]
  exact paper_spec p

example := C46_paperfolding 61 (by decide)

/-- C46, the fold: the symbol at an even position `2j` repeats the symbol at position `j` (counting from 1),
and those at odd positions alternate `1, 0, 1, 0, ...`. -/
theorem C46_fold (i : Nat) (hi : i ≤ 61) :
    ∃ w, paperfoldingWord i = .ok w ∧
      (∀ p, 2 * p + 1 < w.length → w[2 * p + 1]? = w[p]?) ∧
      (∀ p, 2 * p < w.length → w[2 * p]? = some (if p % 2 = 0 then 49 else 48)) := by
  refine ⟨_, paperfolding_ok hi, ?_, ?_⟩
  · intro p hp
    simp only [List.length_map, List.length_range] at hp
    rw [List.getElem?_map, List.getElem?_map, List.getElem?_range hp, List.getElem?_range (by omega)]
    simp only [Option.map_some, Option.some.injEq]
    have h1 := paper_spec (2 * p + 1)
    have h2 := paper_spec p
    have : paper (2 * p + 1) = 49 ↔ paper p = 49 := by
      rw [h1.2, h2.2]
      constructor
      · rintro ⟨e, m, he⟩
        rcases Nat.eq_zero_or_pos e with rfl | he0
        · rw [Nat.pow_zero, Nat.one_mul] at he; omega
        · refine ⟨e - 1, m, ?_⟩
          rw [show e = e - 1 + 1 by omega, Nat.pow_succ', Nat.mul_assoc] at he
          omega
      · rintro ⟨e, m, he⟩
        exact ⟨e + 1, m, by rw [Nat.pow_succ', Nat.mul_assoc, ← he]; omega⟩
    rcases h1.1 with h | h <;> rcases h2.1 with h' | h' <;> rw [h, h'] at this ⊢ <;> simp at this
  · intro p hp
    simp only [List.length_map, List.length_range] at hp
    rw [List.getElem?_map, List.getElem?_range hp]
    simp only [Option.map_some, Option.some.injEq]
    have h1 := paper_spec (2 * p)
    rcases Nat.mod_two_eq_zero_or_one p with h | h
    · rw [if_pos h, h1.2]
      exact ⟨0, p / 2, by rw [Nat.pow_zero, Nat.one_mul]; omega⟩
    · rw [if_neg (by omega)]
      refine h1.1.resolve_left (fun h' => ?_)
      obtain ⟨e, m, he⟩ := h1.2.1 h'
      rcases Nat.eq_zero_or_pos e with rfl | he0
      · rw [Nat.pow_zero, Nat.one_mul] at he; omega
      · have : 2 ∣ 2 ^ e * (4 * m + 1) := (dvd_pow_self 2 (by omega)).mul_right _
        omega

example := C46_fold 61 (by decide)

example : paperfoldingWord 3 = .ok [49, 49, 48, 49, 49, 48, 48, 49, 49, 49, 48, 48, 49, 48, 48, 49] := by
  decide +kernel

end Verif.Props
