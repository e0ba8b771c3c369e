import Verif.Lemmas.LyndonPaper
import Verif.Lemmas.LyndonPow2
import Verif.Props.BwtWords
import Verif.Props.Necklace
import Verif.Props.Lyndon

/-! # C122: the number of Lyndon factors of the words of the generators

`LyndonFactors` and `IsLyndonFactorization` are in `Verif/Spec/Words.lean`; the words in `Verif/Spec/Morphism.lean`. -/

namespace Verif.Props

open Verif Spec Spec.Cli Model Model.Cli

theorem lyndonFactors_of {t : List UInt8} {fs : List (List UInt8)} {n : Nat} (h : IsLyndonFactorization fs t) (hn : fs.length = n) :
    LyndonFactors t n :=
  ⟨⟨fs, h⟩, fun gs hg => by rw [hg.unique h, hn]⟩

theorem lyndonFactors_one {t : List UInt8} (h : IsLyndon t) : LyndonFactors t 1 :=
  lyndonFactors_of (fs := [t]) ⟨by simp, by simpa using h, by simp⟩ rfl

/-- C122: what the number of Lyndon factors means for `duval`: it is the number of end positions `duval` returns. -/
theorem C122_duval (t : List UInt8) (n : Nat) : LyndonFactors t n ↔ ∃ es, duval t = .ok es ∧ es.length = n := by
  obtain ⟨fs, hfs⟩ := exists_factorization t
  have hd := duval_of_factorization hfs
  constructor
  · intro h
    exact ⟨_, hd, by rw [ends_length]; exact h.2 fs hfs⟩
  · rintro ⟨es, h1, h2⟩
    rw [hd] at h1
    injection h1 with h1
    subst h1
    rw [ends_length] at h2
    exact lyndonFactors_of hfs h2

example : ∃ es, duval [97, 98, 98, 97] = .ok es ∧ es.length = 2 := ⟨[2, 3], by decide +kernel, rfl⟩

/-- C122, ternary Thue–Morse words: every one is a Lyndon word, so it is its only factor. -/
theorem C122_vtm (k : Nat) : IsLyndon (iter vtmMor k [97]) ∧ LyndonFactors (iter vtmMor k [97]) 1 := by
  obtain ⟨r, h1, h2, -⟩ := vtm_lyndon k
  rw [h1]
  exact ⟨h2, lyndonFactors_one h2⟩

/-- C122, Fibonacci words: `k / 2 + 1` factors for even orders `k`, `k - 1` factors for odd orders from 3 on, one for order 1. -/
theorem C122_fibonacci (k : Nat) :
    LyndonFactors (fibWord k) (if k % 2 = 0 then k / 2 + 1 else if k = 1 then 1 else k - 1) := by
  rw [fibWord_eq]
  rcases Nat.even_or_odd' k with ⟨j, rfl | rfl⟩
  · refine lyndonFactors_of (fib_factors_even j) ?_
    rw [if_pos (by omega)]
    simp
  · rcases j with _ | j
    · exact lyndonFactors_one (ab_lyn.1)
    · refine lyndonFactors_of (fib_factors_odd j) ?_
      rw [if_neg (by omega), if_neg (by omega)]
      simp [fibFacOdd_length]
      omega

/-- C122: the Fibonacci word of order `2 j` is the concatenation of the words of `fibonacci_lyndonfactor` of the orders `0`
to `j - 1` and the letter `a`, and this is its Lyndon factorization. -/
theorem C122_fibonacci_even (j : Nat) (hj : j ≤ 30) :
    ∃ w : Nat → List UInt8, (∀ i < j, fibonacciLyndonfactor i = .ok (w i)) ∧
      IsLyndonFactorization ((List.range j).map w ++ [[97]]) (fibWord (2 * j)) := by
  refine ⟨lfac, fun i hi => lyndonfactor_ok (by omega), ?_⟩
  rw [fibWord_eq]
  exact fib_factors_even j

example := C122_fibonacci_even 30 (by decide)

/-- C122, period-doubling words: `k + 1` factors for even orders `k`, `(k + 1) / 2` factors for odd orders. -/
theorem C122_period_doubling (k : Nat) :
    LyndonFactors (iter pdMor k [97]) (if k % 2 = 0 then k + 1 else (k + 1) / 2) := by
  rcases Nat.even_or_odd' k with ⟨j, rfl | rfl⟩
  · refine lyndonFactors_of (pd_factors_even j) ?_
    rw [if_pos (by omega)]
    simp [pdFacEven_length]
  · refine lyndonFactors_of (pd_factors_odd j) ?_
    rw [if_neg (by omega)]
    simp [pdFacOdd_length]
    omega

/-- C122, Thue–Morse words: `k - 1 + ⌊k / 2⌋` factors from order 2 on, one for the orders 0 and 1. -/
theorem C122_thuemorse (k : Nat) : LyndonFactors (iter tmMor k [97]) (if k ≤ 1 then 1 else k - 1 + k / 2) := by
  rcases k with _ | _ | m
  · exact lyndonFactors_one (isLyndon_singleton _)
  · exact lyndonFactors_one ab_lyn.1
  · refine lyndonFactors_of (tm_factors m) ?_
    rw [if_neg (show ¬ m + 1 + 1 ≤ 1 by omega)]
    by_cases h : m % 2 = 0
    · rw [if_pos h, List.length_append, List.length_cons, tmFac_length, List.length_singleton]; omega
    · rw [if_neg h, List.length_append, List.length_cons, tmFac_length, List.length_nil]; omega

/-- C122, paperfolding words over four letters: `⌊k / 2⌋ + 2` factors from order 1 on, one for order 0. -/
theorem C122_quaternary_paperfolding (k : Nat) :
    LyndonFactors (iter paperMor k [100]) (if k = 0 then 1 else k / 2 + 2) := by
  rcases k with _ | k
  · exact lyndonFactors_one (isLyndon_singleton _)
  · obtain ⟨fs, h1, h2⟩ := pf_factors k
    refine lyndonFactors_of h2 ?_
    rw [if_neg (by omega), h1]

/-- C122, binary paperfolding words: `⌈k / 2⌉ + 4` factors from order 4 on (and 2, 3, 4, 6 factors for the orders before). -/
theorem C122_paperfolding (k : Nat) (hk : k ≤ 61) :
    ∃ w, paperfoldingWord k = .ok w ∧
      LyndonFactors w (if k ≤ 2 then k + 2 else if k = 3 then 6 else (k + 1) / 2 + 4) := by
  refine ⟨_, paperfolding_ok hk, ?_⟩
  rcases k with _ | _ | _ | _ | m
  · exact lyndonFactors_of (fs := [[49], [49]]) (by decide +kernel) rfl
  · exact lyndonFactors_of (fs := [[49], [49], [48, 49]]) (by decide +kernel) rfl
  · exact lyndonFactors_of (fs := [[49], [49], [48, 49, 49], [48, 48, 49]]) (by decide +kernel) rfl
  · exact lyndonFactors_of (fs := [[49], [49], [48, 49, 49], [48, 48, 49, 49, 49], [48, 48, 49], [48, 48, 49]]) (by decide +kernel) rfl
  · obtain ⟨fs, h1, h2⟩ := paper_factors m
    refine lyndonFactors_of h2 ?_
    rw [if_neg (by omega), if_neg (by omega), h1]
    omega

example := C122_paperfolding 61 (by decide)

/-- C122, the characteristic word of the powers of two: `k + 2^(k-1)` factors from order 1 on (the last one is the zero byte
that should not be there, C49), one for order 0. -/
theorem C122_power2 (k : Nat) (hk : k ≤ 62) :
    ∃ w, power2Sequence k = .ok w ∧ LyndonFactors w (if k = 0 then 1 else k + 2 ^ (k - 1)) := by
  refine ⟨_, power2_ok hk, ?_⟩
  rcases k with _ | k
  · exact lyndonFactors_one (isLyndon_singleton _)
  · refine lyndonFactors_of (pow2_factors k) ?_
    rw [if_neg (by omega)]
    have := Nat.two_pow_pos k
    simp [p2Fac]
    omega

example := C122_power2 62 (by decide)

/-- `lyndonfactorization`, run on the file (or the standard input) that holds what a generator wrote, prints `factors=` as
given and writes the report on a Lyndon factorization with that many factors. -/
def ReportsFactors (word : Res (List UInt8)) (factors : Nat) : Prop :=
  ∃ t, word = .ok t ∧ ∀ (E : Env) (argv : List (List Char)) (occ : List (Field × Val)) (inn out : Option String) (w : World),
    Line lyndonfactorizationArgs argv occ → StrIs occ .infilename inn → StrIs occ .outfilename out →
    NumIs occ .prefixlength 0 0 → Input inn 0 (delivered E.stdin) w t → PlainName inn →
    (∀ o, out = some o → E.creatable o = true) →
      ∃ w' line f fs, lyndonfactorizationCmd E.m E.usage E.creatable E.time argv (delivered E.stdin) w = (w', .ok 0) ∧
        IsLyndonFactorization (f :: fs) t ∧ fs.length + 1 = factors ∧ PrintedWrote w line out (report f fs) w' ∧
        resultFields line = some
          [(ascii "file", printedName inn), (ascii "length", decimal 0), (ascii "algo", ascii "duval"),
            (ascii "time_ms", decimal E.time), (ascii "factors", decimal factors)]

theorem reportsFactors_of {word : Res (List UInt8)} {t : List UInt8} {n : Nat} (hw : word = .ok t) (h0 : t ≠ [])
    (hr : LyndonFactors t n) : ReportsFactors word n := by
  refine ⟨t, hw, fun E argv occ inn out w hl hi ho hp hin hname hc => ?_⟩
  obtain ⟨w', line, f, fs, g1, g2, g3, g4⟩ := C108_lyndonfactorization E argv occ hl inn out hi ho 0 hp w t hin hname hc h0
  have := hr.2 _ g2
  rw [List.length_cons] at this
  rw [this] at g4
  exact ⟨w', line, f, fs, g1, g2, this, g3, g4⟩

/-- C122, the commands: what `lyndonfactorization` prints for the word of each generator, for every order the generator can
produce. -/
theorem C122_commands :
    (∀ k, k ≤ 90 → ReportsFactors (fibonacciWord (binet (k + 2)) k)
      (if k % 2 = 0 then k / 2 + 1 else if k = 1 then 1 else k - 1)) ∧
    (∀ k, k ≤ 62 → ReportsFactors (thuemorseWord k) (if k ≤ 1 then 1 else k - 1 + k / 2)) ∧
    (∀ k, k ≤ 62 → ReportsFactors (periodDoublingWord k) (if k % 2 = 0 then k + 1 else (k + 1) / 2)) ∧
    (∀ k fuel, k ≤ 29 → 3 * 2 ^ k < fuel → ReportsFactors (vtmWord fuel k) 1) ∧
    (∀ k, k ≤ 29 → ReportsFactors (fibonacciLyndonfactor k) 1) ∧
    (∀ k, k ≤ 62 → ReportsFactors (quaternaryPaperfoldingWord k) (if k = 0 then 1 else k / 2 + 2)) ∧
    (∀ k, k ≤ 61 → ReportsFactors (paperfoldingWord k) (if k ≤ 2 then k + 2 else if k = 3 then 6 else (k + 1) / 2 + 4)) ∧
    (∀ k, k ≤ 62 → ReportsFactors (power2Sequence k) (if k = 0 then 1 else k + 2 ^ (k - 1))) := by
  have ne : ∀ {w : List UInt8} {n : Nat}, LyndonFactors w n → n ≠ 0 → w ≠ [] := by
    rintro w n ⟨-, h⟩ hn rfl
    exact hn (h [] ⟨rfl, by simp, by simp⟩).symm
  refine ⟨?_, ?_, ?_, ?_, ?_, ?_, ?_, ?_⟩
  · intro k hk
    refine reportsFactors_of (C42_fibonacci_word_exact k hk) (ne (C122_fibonacci k) ?_) (C122_fibonacci k)
    split
    · omega
    · split <;> omega
  · intro k hk
    refine reportsFactors_of (C43_thuemorse_morphism k hk).1 (ne (C122_thuemorse k) ?_) (C122_thuemorse k)
    split <;> omega
  · intro k hk
    obtain ⟨w, h2, rfl, -⟩ := C45_period_doubling k hk
    refine reportsFactors_of h2 (ne (C122_period_doubling k) ?_) (C122_period_doubling k)
    split <;> omega
  · intro k fuel hk hfuel
    refine reportsFactors_of (C51_vtm_word_partial k hk fuel ?_) (C122_vtm k).1.1 (C122_vtm k).2
    rw [vtm_iter, List.length_map, List.length_range]
    have : 2 ^ (k - 1) ≤ 2 ^ k := Nat.pow_le_pow_right (by omega) (by omega)
    have := Nat.two_pow_pos k
    split <;> omega
  · intro k hk
    exact reportsFactors_of (lyndonfactor_ok hk) (lfac_lyndon k).1 (lyndonFactors_one (lfac_lyndon k))
  · intro k hk
    refine reportsFactors_of (C46_quaternary k hk) (ne (C122_quaternary_paperfolding k) ?_) (C122_quaternary_paperfolding k)
    split <;> omega
  · intro k hk
    obtain ⟨w, h1, h2⟩ := C122_paperfolding k hk
    refine reportsFactors_of h1 (ne h2 ?_) h2
    split
    · omega
    · split <;> omega
  · intro k hk
    obtain ⟨w, h1, h2⟩ := C122_power2 k hk
    refine reportsFactors_of h1 (ne h2 ?_) h2
    have := Nat.two_pow_pos (k - 1)
    split <;> omega

/-- Concrete cases: five factors `abb, ab, aabb, aababb, a`; three factors `ab, a, a`; four factors `ab, aabab, aab, aab`. -/
example : iter tmMor 4 [97] = [97, 98, 98, 97, 98, 97, 97, 98, 98, 97, 97, 98, 97, 98, 98, 97] ∧
    duval (iter tmMor 4 [97]) = .ok [2, 4, 8, 14, 15] ∧ duval (iter pdMor 2 [97]) = .ok [1, 2, 3] ∧
    duval (fibWord 5) = .ok [1, 6, 9, 12] := by decide +kernel

/-- A command line that meets the hypotheses of `ReportsFactors`. -/
example : ∃ occ, Line lyndonfactorizationArgs (["-i", "f"].map String.toList) occ ∧ StrIs occ .infilename (some "f") ∧
    NumIs occ .prefixlength 0 0 ∧ StrIs occ .outfilename none := by
  refine ⟨[(.infilename, .str ['f'])],
    (C100_command_lines (by simp [tools]) (tool_ne (by decide +kernel)) _ _).1 rfl, ?_⟩
  simp [StrIs, NumIs]

end Verif.Props
