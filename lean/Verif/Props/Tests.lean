import Verif.Lemmas.Tests
import Verif.Props.LyndonMore
import Verif.Props.Borders
import Verif.Props.Bwt
import Verif.Props.Lz
import Verif.Props.FibMore
import Verif.Props.PdMore
import Verif.Props.WordUniform
import Verif.Props.Necklace

/-! # C123: the project's own tests, with every bound

The tests of the repository run the functions on the first few thousand test strings or the first few
orders.  Here the test programs themselves are modelled, with their bounds as parameters, and shown to pass
with every bound that fits into the machine types; and what their assertions accept is determined exactly. -/

namespace Verif.Props

open Verif Spec Model

/-- The texts of the tests: after the first round the generator has handed out non-empty texts of at most
64 bytes, zero at the end and nowhere else.  (A loop of bound `b` visits `⌈b/2⌉` of them.) -/
theorem C123_loop (bound log : Nat) (h1 : 1 ≤ log) (h7 : log ≤ 7) (hb : bound < 18446744073709551615)
    (body : List UInt8 → Res Unit)
    (hbody : ∀ text, text ≠ [] → text.length ≤ 64 → (∀ x ∈ text.take (text.length - 1), x ≠ 0) →
      body text = .ok ()) : forTestStrings bound log body = .ok () := by
  refine (forTestStrings_iff h1 h7 hb body).2 fun r hr1 hr2 => ?_
  obtain ⟨g1, g2, g3⟩ := rsgText_facts (log := log) (r := r) h7 (by omega)
  exact hbody _ g1 g2 g3

example := C123_loop 10 2 (by decide) (by decide) (by decide) (fun t => assertR (decide (t.length ≤ 64)))
  (fun t _ h _ => by simp [assertR, h])

/-- C123, `test_duval`: for every bound and alphabet width. -/
theorem C123_test_duval (sufsort : List UInt8 → List Nat) (hs : SortsSuffixes sufsort) (bound log : Nat)
    (h1 : 1 ≤ log) (h7 : log ≤ 7) (hb : bound < 18446744073709551615) :
    testDuval sufsort bound log = .ok () := by
  refine C123_loop bound log h1 h7 hb _ fun text hne hlen h0 => ?_
  obtain ⟨isa, es, g1, g2, g3⟩ := C03_duval_eq_isa text hne (by omega) (sufsort text) (hs text (by omega))
  have hpos := List.length_pos_iff.2 hne
  unfold checkDuval
  rw [g3, ok_bind, usub_ok (by omega), ok_bind]
  rw [assertR_iff.2 (by
    rw [Bool.not_eq_true', List.any_eq_false]
    intro x hx
    simpa using h0 x hx), ok_bind]
  simp only [g1, g2, ok_bind]
  simp [assertR]

example := C123_test_duval naiveSufsort naiveSufsort_sorts 4096 1 (by decide) (by decide) (by decide)

/-- C123, `test_bwt_by_matrix`. -/
theorem C123_test_bwt_by_matrix (sufsort : List UInt8 → List Nat) (hs : SortsSuffixes sufsort) (bound log : Nat)
    (h1 : 1 ≤ log) (h7 : log ≤ 7) (hb : bound < 18446744073709551615) :
    testBwtByMatrix sufsort bound log = .ok () := by
  refine C123_loop bound log h1 h7 hb _ fun text hne hlen h0 => ?_
  unfold checkMatrix
  split
  · rfl
  next h2 =>
    obtain ⟨b, g1, g2, -⟩ := C15_fast_matrix_eq_naive sufsort hs (text.take (text.length - 1))
      (by rw [← List.length_pos_iff]; simp; omega) h0 (by simp; omega)
    rw [usub_ok (by omega), ok_bind, g2, ok_bind, g1, ok_bind, if_neg (by simp)]
    simp [assertR]

example := C123_test_bwt_by_matrix naiveSufsort naiveSufsort_sorts 4096 1 (by decide) (by decide) (by decide)

/-- C123, `test_lyndon_conjugate`. -/
theorem C123_test_lyndon_conjugate (bound log : Nat)
    (h1 : 1 ≤ log) (h7 : log ≤ 7) (hb : bound < 18446744073709551615) :
    testLyndonConjugate bound log = .ok () := by
  refine C123_loop bound log h1 h7 hb _ fun text hne hlen h0 => ?_
  obtain ⟨p, g1, g2, g3, -⟩ := C04_lyndon_conjugate text hne
  rw [g1, ok_bind, conjugateOracle_iff]
  exact ⟨g2, g3⟩

example := C123_test_lyndon_conjugate 4096 1 (by decide) (by decide) (by decide)

/-- C123, `test_border_array`. -/
theorem C123_test_border_array (bound log : Nat)
    (h1 : 1 ≤ log) (h7 : log ≤ 7) (hb : bound < 18446744073709551615) :
    testBorderArray bound log = .ok () := by
  refine C123_loop bound log h1 h7 hb _ fun text hne hlen h0 => ?_
  obtain ⟨ba, g1, g2, g3, g4⟩ := C05_border_array text
  have hpos := List.length_pos_iff.2 hne
  rw [g1, ok_bind, borderOracle_iff]
  refine ⟨g3, ?_, fun i hi1 hi2 => ?_⟩
  · obtain ⟨b, e1, e2, -⟩ := g4 1 (by omega) (by omega)
    have := e2.1
    simp at this
    rw [e1, this.1]
  · obtain ⟨b, e1, e2, -⟩ := g4 i (by omega) (by omega)
    have hl : (text.take i).length = i := by simp; omega
    have e3 := e2.1
    have e4 := e2.2
    rw [hl] at e3 e4
    exact ⟨b, e1, e3.le, e4⟩

example := C123_test_border_array 4096 1 (by decide) (by decide) (by decide)

/-- C123, `test_period`. -/
theorem C123_test_period (bound log : Nat)
    (h1 : 1 ≤ log) (h7 : log ≤ 7) (hb : bound < 18446744073709551615) :
    testPeriod bound log = .ok () := by
  refine C123_loop bound log h1 h7 hb _ fun text hne hlen h0 => ?_
  obtain ⟨ba, p, g1, g2, g3, g4, g5⟩ := C06_smallest_period text hne
  rw [g1, ok_bind, g2, ok_bind, periodOracle_iff]
  refine ⟨g5 _ (List.length_pos_iff.2 hne) (fun i hi => by omega), g4⟩

example := C123_test_period 4096 1 (by decide) (by decide) (by decide)

/-- C123, `test_compute_lz77`. -/
theorem C123_test_compute_lz77 (sufsort : List UInt8 → List Nat) (hs : SortsSuffixes sufsort) (bound log : Nat)
    (h1 : 1 ≤ log) (h7 : log ≤ 7) (hb : bound < 18446744073709551615) :
    testComputeLz77 sufsort bound log = .ok () := by
  refine C123_loop bound log h1 h7 hb _ fun text hne hlen h0 => ?_
  obtain ⟨fs, g1, -⟩ := C19_lz77_decodes sufsort hs text hne (by omega)
  unfold countZFactors at g1
  simp only [] at g1 ⊢
  revert g1
  cases inversePermutation 2147483647 (sufsort text) <;> simp only [ok_bind, error_bind, reduceCtorEq, false_implies]
  cases computePsv (sufsort text) <;> simp only [ok_bind, error_bind, reduceCtorEq, false_implies]
  cases computeNsv (sufsort text) <;> simp only [ok_bind, error_bind, reduceCtorEq, false_implies]
  cases computePhi (sufsort text) <;> simp only [ok_bind, error_bind, reduceCtorEq, false_implies]
  next phi =>
  cases computePlcp text phi <;> simp only [ok_bind, error_bind, reduceCtorEq, false_implies]
  next plcp =>
  cases computeLcp plcp (sufsort text) <;> simp only [ok_bind, error_bind, reduceCtorEq, false_implies]
  next isa psv nsv lcp =>
  cases computeLz77 text (sufsort text) isa lcp nsv psv <;>
    simp only [ok_bind, error_bind, reduceCtorEq, false_implies]
  next fs' =>
  cases decodeLz77 fs' <;> simp only [ok_bind, error_bind, reduceCtorEq, false_implies]
  next dec =>
  by_cases hd : text = dec <;> simp [assertR, hd]

example := C123_test_compute_lz77 naiveSufsort naiveSufsort_sorts 4096 1 (by decide) (by decide) (by decide)

/-- C123, `test_bwt_from_text_by_sa`: for every bound up to 23 (the word of order 46 exceeds the 2^31 - 1
bytes that the suffix sorter takes). -/
theorem C123_test_bwt_from_text_by_sa (sufsort : List UInt8 → List Nat) (hs : SortsSuffixes sufsort) (hi : Nat)
    (h : hi ≤ 23) : testBwtFromTextBySa sufsort hi = .ok () := by
  unfold testBwtFromTextBySa
  rw [forRange_unit]
  intro i h1 h2
  obtain ⟨T, b, g1, g2, -, g3⟩ := C61_even_two_runs sufsort hs i h1 (by omega)
  rw [g1, ok_bind, g2, ok_bind, g3]
  rfl

example := C123_test_bwt_from_text_by_sa naiveSufsort naiveSufsort_sorts 8 (by decide)

/-- C123, `test_fibonacci_number` and `test_fibonacci_morphism`: for every bound up to 91, the orders whose
word can be allocated. -/
theorem C123_test_fibonacci (hi : Nat) (h : hi ≤ 91) :
    testFibonacciNumber hi = .ok () ∧ testFibonacciMorphism hi = .ok () := by
  unfold testFibonacciNumber testFibonacciMorphism
  rw [forRange_unit, forRange_unit]
  refine ⟨fun k _ hk => ?_, fun k _ hk => ?_⟩ <;>
  · obtain ⟨w, g1, g2, g3⟩ := C42_agree k (by omega) (Nat.fib (k + 2) + 1) (by omega)
    have hw : w.length = Nat.fib (k + 2) := by
      have := (C42_fibonacci_number k).1 (by omega)
      rw [g2] at this
      exact Except.ok.inj this
    rw [← hw] at g3
    simp only [g1, g2, g3, ok_bind]
    simp [assertR]

example := C123_test_fibonacci 16 (by decide)

/-- C123, `test_thue_morse_morphism`: for every bound up to 63. -/
theorem C123_test_thue_morse (hi : Nat) (h : hi ≤ 63) : testThueMorseMorphism hi = .ok () := by
  unfold testThueMorseMorphism
  rw [forRange_unit]
  intro k _ hk
  obtain ⟨g1, g2⟩ := C43_thuemorse_morphism k (by omega)
  rw [g1, g2]
  simp [assertR]

example := C123_test_thue_morse 10 (by decide)

/-- C123, `test_binary_debrujin_word`: for every bound — although the words are not de Bruijn words from
order 4 on (`C47_refuted`), so that no bound makes this test find the defect. -/
theorem C123_test_binary_debruijn (hi : Nat) : testBinaryDebruijnWord hi = .ok () := by
  unfold testBinaryDebruijnWord
  rw [forRange_unit]
  intro k _ _
  obtain ⟨w, g1, g2, g3, g4, g5⟩ := C47_binary_debruijn_partial k
  rw [g1 _ (le_refl _), ok_bind, debruijnOracle_iff]
  · refine ⟨by omega, fun i j hij hj he => ?_⟩
    have := g5 i j (by omega) (by omega) (by
      unfold rot
      rw [List.take_append_of_le_length (by simp; omega), List.take_append_of_le_length (by simp; omega), he])
    omega
  · intro c hc
    rcases g2 c hc with rfl | rfl <;> decide

example := C123_test_binary_debruijn 10

/-- C123, `test_mus_fibonacci`: for every bound up to 45. -/
theorem C123_test_mus_fibonacci (sufsort : List UInt8 → List Nat) (hs : SortsSuffixes sufsort) (hi : Nat)
    (h : hi ≤ 45) : testMusFibonacci sufsort hi = .ok () := by
  unfold testMusFibonacci
  rw [forRange_unit]
  intro i h1 h2
  obtain ⟨T, F1, F2, F3, g1, g2, g3, g4, g5⟩ := C62_test_holds sufsort hs i h1 (by omega)
  have e1 : 1 ≤ F1 := by
    rw [(C42_fibonacci_number _).1 (by omega)] at g2
    have := Nat.fib_pos.2 (show 0 < i - 1 + 2 by omega)
    have := Except.ok.inj g2
    omega
  have e2 : 1 ≤ F2 := by
    rw [(C42_fibonacci_number _).1 (by omega)] at g3
    have := Nat.fib_pos.2 (show 0 < i - 2 + 2 by omega)
    have := Except.ok.inj g3
    omega
  simp only [g1, g2, g3, g4, g5, ok_bind, usub_ok e1, usub_ok e2]
  simp [assertR, rd]

example := C123_test_mus_fibonacci naiveSufsort naiveSufsort_sorts 16 (by decide)

/-- C123, the attractor tests of the period-doubling words (every bound up to 32) and of the Fibonacci words
(every bound up to 45). -/
theorem C123_test_attractors (sufsort : List UInt8 → List Nat) (hs : SortsSuffixes sufsort) :
    (∀ hi, hi ≤ 32 → testAttractorPeriodDoubling sufsort hi = .ok ()) ∧
      ∀ hi, hi ≤ 45 → testAttractorFibonacci sufsort hi = .ok () := by
  unfold testAttractorPeriodDoubling testAttractorFibonacci
  refine ⟨fun hi h => forRange_unit.2 fun i h1 h2 => ?_, fun hi h => forRange_unit.2 fun i h1 h2 => ?_⟩
  · obtain ⟨T, g1, g2⟩ := C63_test_holds sufsort hs i (by omega) (by omega)
    have p1 := Nat.two_pow_pos (i - 4)
    have p2 := Nat.two_pow_pos (i - 3)
    rw [g1, ok_bind, shl1, if_pos (by omega), ok_bind, usub_ok (by omega), ok_bind, shl1, if_pos (by omega), ok_bind,
      usub_ok (by omega), ok_bind, g2, ok_bind]
    rfl
  · obtain ⟨T, F, g1, g2, g3, g4⟩ := C64_test_holds sufsort hs i h1 (by omega)
    rw [g2, ok_bind, usub_ok (by omega), ok_bind, usub_ok g3, ok_bind, g1, ok_bind, g4, ok_bind]
    rfl

example := C123_test_attractors naiveSufsort naiveSufsort_sorts

/-! ### What the assertions of the tests accept -/

/-- C123: the assertions of `test_lyndon_conjugate` are exact: they accept a start position iff the rotation
there is the least one. -/
theorem C123_conjugate_assertions (text : List UInt8) (p : Nat) :
    conjugateOracle text p = .ok () ↔ p < text.length ∧ ∀ q, q < text.length → rot p text ≤ rot q text :=
  conjugateOracle_iff text p

example : conjugateOracle [2, 1, 2, 1] 1 = .ok () ∧ conjugateOracle [2, 1, 2, 1] 3 = .ok () ∧
    conjugateOracle [2, 1, 2, 1] 0 = .error .assert := by decide

/-- C123: the assertions of `test_period` accept exactly the periods up to the length, not only the smallest. -/
theorem C123_period_assertions (text : List UInt8) (p : Nat) :
    periodOracle text p = .ok () ↔ p ≤ text.length ∧ IsPeriod p text :=
  periodOracle_iff text p

example : periodOracle [1, 2, 1, 2, 1] 2 = .ok () ∧ periodOracle [1, 2, 1, 2, 1] 4 = .ok () ∧
    periodOracle [1, 2, 1, 2, 1] 3 = .error .assert := by decide

/-- C123: the assertions of `test_border_array` accept exactly the arrays that start with two zeros and whose
entry `i`, `2 ≤ i < n`, is the length of a border of the prefix of length `i` — possibly the prefix itself,
and not necessarily the longest; the last entry is not looked at. -/
theorem C123_border_assertions (text : List UInt8) (border : List Nat) :
    borderOracle text border = .ok () ↔ border[0]? = some 0 ∧ border[1]? = some 0 ∧
      ∀ i, 2 ≤ i → i < text.length → ∃ b, border[i]? = some b ∧ b ≤ i ∧
        (text.take i).take b = (text.take i).drop (i - b) :=
  borderOracle_iff text border

/-- C123: in particular an array of zeros passes, whatever the text. -/
theorem C123_border_zeros_pass (text : List UInt8) (hne : text ≠ []) :
    borderOracle text (List.replicate (text.length + 1) 0) = .ok () := by
  have hpos := List.length_pos_iff.2 hne
  rw [borderOracle_iff]
  refine ⟨by simp, by rw [List.getElem?_replicate, if_pos (by omega)], fun i h1 h2 =>
    ⟨0, by rw [List.getElem?_replicate, if_pos (by omega)], by omega, ?_⟩⟩
  rw [List.take_zero, List.drop_of_length_le (by simp)]

example := C123_border_zeros_pass [1, 1, 1, 0] (by decide)

example : borderOracle [1, 1, 1, 0] [0, 0, 0, 0, 0] = .ok () ∧ borderOracle [1, 1, 1, 0] [0, 0, 2, 3, 9] = .ok () ∧
    borderOracle [1, 2, 1, 0] [0, 0, 1, 1, 0] = .error .assert := by decide

/-- C123: the assertions of `test_binary_debrujin_word` accept a word of one-byte letters iff it has at least
`k` letters and no two windows of length `k + 1` agree; that every word of length `k + 1` occurs is not
asked. -/
theorem C123_debruijn_assertions (k : Nat) (word : List UInt8) (hab : ∀ c ∈ word, c < 128) :
    debruijnOracle k word = .ok () ↔ k ≤ word.length ∧
      ∀ i j, i < j → j + k < word.length → (word.drop i).take (k + 1) ≠ (word.drop j).take (k + 1) :=
  debruijnOracle_iff k word hab

example := C123_debruijn_assertions 2 [98, 98, 98, 97, 98, 97, 97, 97] (by decide)

example : debruijnOracle 2 [98, 98, 98, 97, 98, 97, 97, 97] = .ok () ∧ debruijnOracle 2 [97, 97] = .ok () ∧
    debruijnOracle 2 [97, 97, 97, 97] = .error .assert := by decide

end Verif.Props
