import Verif.Lemmas.LzTrib
import Verif.Lemmas.LzPaper
import Verif.Props.ResultLines
import Verif.Props.Fibonacci
import Verif.Props.WordMore
import Verif.Props.WordUniform

/-! # C107: the number of Lempel-Ziv factors of the words of the generators

`MinParse` (in `Verif/Spec/Lz.lean`): the smallest number of phrases of a parse into single letters and copies from
earlier starts.  The words themselves are described in `Verif/Spec/Morphism.lean`. -/

namespace Verif.Props

open Verif Spec Model

theorem minParse_of {t : List UInt8} {m e : Nat} (hf : Forced t m e) {ls : List Nat} (hp : IsParse t 0 ls)
    (hl : ls.length = m + 1) : MinParse t (m + 1) := by
  refine ⟨⟨ls, hp, hl⟩, fun ls' h' => hf.lower ?_ h'⟩
  rintro rfl
  cases ls with
  | nil => simp at hl
  | cons l ls =>
    obtain ⟨h1, h2, -⟩ := hp
    simp only [List.length_nil] at h1
    rcases h2 with rfl | ⟨j, hj, -⟩ <;> omega

/-- C107, Fibonacci words, every order: `k + 1` phrases. -/
theorem C107_fibonacci (k : Nat) : MinParse (fibWord k) (k + 1) := by
  obtain ⟨e, hf⟩ := fib_forced_all k
  obtain ⟨ls, h1, h2⟩ := fib_parse k
  exact minParse_of hf h1 h2

/-- C107, Thue–Morse words, every order from 1 on: `2 k` phrases. -/
theorem C107_thuemorse (k : Nat) (hk : 1 ≤ k) : MinParse (iter tmMor k [97]) (2 * k) := by
  obtain ⟨n, rfl⟩ := Nat.exists_eq_add_of_le' hk
  rw [iter_fixLetter tmMor_eq rfl]
  obtain ⟨e, hf⟩ := tm_forced n
  obtain ⟨ls, h1, h2⟩ := tm_parse n
  exact minParse_of hf h1 h2

example := C107_thuemorse 10 (by decide)

/-- C107, period-doubling words, every order from 1 on: `2 k` phrases. -/
theorem C107_period_doubling (k : Nat) (hk : 1 ≤ k) : MinParse (iter pdMor k [97]) (2 * k) := by
  obtain ⟨n, rfl⟩ := Nat.exists_eq_add_of_le' hk
  rw [iter_fixLetter pdMor_eq rfl]
  obtain ⟨ls, h1, h2⟩ := pd_parse n
  exact minParse_of (pd_forced n _ (Nat.le_refl _)) h1 h2

example := C107_period_doubling 10 (by decide)

/-- C107, ternary Thue–Morse words, every order from 1 on: `3 k` phrases. -/
theorem C107_vtm (k : Nat) (hk : 1 ≤ k) : MinParse (iter vtmMor k [97]) (3 * k) := by
  rw [vtm_iter]
  match k, hk with
  | 1, _ =>
    exact minParse_of (vtm_forced_small 3 2 (by omega) (by omega)) (isParse_singles _ 0 3 (by simp)) (by simp)
  | m + 2, _ =>
    obtain ⟨ls, h1, h2⟩ := vtm_parse m
    rw [if_neg (by omega), show 3 * 2 ^ (m + 2 - 1) = 6 * 2 ^ m by
      rw [show m + 2 - 1 = m + 1 from rfl, Nat.pow_succ]; omega]
    exact minParse_of (vtm_forced_big m _ (Nat.le_refl _)) h1 h2

example := C107_vtm 10 (by decide)

/-- C107, tribonacci words, every order from 2 on: `k + 2` phrases. -/
theorem C107_tribonacci (k : Nat) (hk : 2 ≤ k) : MinParse (tribWord k) (k + 2) := by
  obtain ⟨n, rfl⟩ := Nat.exists_eq_add_of_le' hk
  obtain ⟨ls, h1, h2⟩ := trib_parse n
  match n, h1, h2 with
  | 0, h1, h2 =>
    refine minParse_of (m := 3) (e := 3) ?_ h1 h2
    have f : ∀ p, p < 3 → ∀ j, j < p → ∃ k, k ≤ p + 1 - p ∧ (tribWord 2)[j + k]? ≠ (tribWord 2)[p + k]? := by
      decide +kernel
    have g : ∀ p, p < 3 → FirstAt (tribWord 2) p (p + 1) := fun p hp =>
      ⟨by omega, by have : (tribWord 2).length = 4 := by decide
                    omega, f p hp⟩
    exact ((Forced.zero.succ (Nat.le_refl _) (g 0 (by omega))).succ (Nat.le_refl _) (g 1 (by omega))).succ
      (Nat.le_refl _) (g 2 (by omega))
  | m + 1, h1, h2 =>
    obtain ⟨e, hf, -⟩ := trib_forced m
    exact minParse_of hf h1 (by omega)

example := C107_tribonacci 10 (by decide)

/-- C107, paperfolding words over four letters, every order from 2 on: `3 k - 2` phrases. -/
theorem C107_quaternary_paperfolding (k : Nat) (hk : 2 ≤ k) : MinParse (iter paperMor k [100]) (3 * k - 2) := by
  rw [iter_fixLetter paperMor_eq rfl]
  match k, hk with
  | 2, _ =>
    obtain ⟨ls, h1, h2⟩ := pf_parse_small.1
    exact minParse_of (pf_forced_small 4 3 (by omega) (by omega)) h1 h2
  | 3, _ =>
    obtain ⟨ls, h1, h2⟩ := pf_parse_small.2
    exact minParse_of (pf_forced_small 8 6 (by omega) (by omega)) h1 h2
  | m + 4, _ =>
    obtain ⟨ls, h1, h2⟩ := pf_parse m
    have hp : 2 ^ (m + 4) = 16 * 2 ^ m := by rw [Nat.pow_add]; omega
    obtain ⟨e, -, hf⟩ := pf_forced_big (m + 1) (16 * 2 ^ m) (by rw [Nat.pow_succ]; omega)
    rw [hp, show 3 * (m + 4) - 2 = 3 * (m + 1) + 6 + 1 by omega]
    exact minParse_of hf h1 (by omega)

example := C107_quaternary_paperfolding 10 (by decide)

/-- C107, binary paperfolding words, every order from 3 on: `3 k - 2` phrases. -/
theorem C107_paperfolding (k : Nat) (hk : 3 ≤ k) (hk' : k ≤ 61) :
    ∃ w, paperfoldingWord k = .ok w ∧ MinParse w (3 * k - 2) := by
  refine ⟨_, paperfolding_ok hk', ?_⟩
  match k, hk with
  | 3, _ =>
    obtain ⟨ls, h1, h2⟩ := paper_parse_small.1
    exact minParse_of ((paper_forced_small 16).1 (by omega)) h1 h2
  | 4, _ =>
    obtain ⟨ls, h1, h2⟩ := paper_parse_small.2
    exact minParse_of ((paper_forced_small 32).2.1 (by omega)) h1 h2
  | m + 5, _ =>
    obtain ⟨ls, h1, h2⟩ := paper_parse (m + 1)
    have hp : 2 ^ (m + 5 + 1) = 32 * 2 ^ (m + 1) := by rw [show m + 5 + 1 = m + 1 + 5 from rfl, Nat.pow_add]; omega
    obtain ⟨e, -, hf⟩ := paper_forced_big m (32 * 2 ^ (m + 1)) (by rw [Nat.pow_succ]; omega)
    rw [hp, show 3 * (m + 5) - 2 = 3 * m + 12 + 1 by omega]
    exact minParse_of hf h1 (by omega)

example := C107_paperfolding 10 (by decide) (by decide)

/-- Whatever the text, `count_z` reports the smallest number of phrases. -/
theorem C107_count_z (sufsort : List UInt8 → List Nat) (hs : SortsSuffixes sufsort) (inn : Option String)
    (stdin : List UInt8) (w : World) (t : List UInt8) (z : Nat) (hz : MinParse t z) (h0 : t ≠ [])
    (hlen : t.length < 2147483648) (hin : Contains inn stdin w t) (hname : PlainName inn) (time : Nat) :
    ∃ line, countZOut sufsort inn 0 stdin time w = .ok line ∧ resultFields line = some
      [(ascii "file", printedName inn), (ascii "length", decimal t.length), (ascii "algo", ascii "lz77"),
        (ascii "time_ms", decimal time), (ascii "factors", decimal z)] := by
  obtain ⟨line, fs, h1, h2, h3⟩ := C89_count_z_partial sufsort hs inn stdin w t hin h0 hlen hname time
  have : fs.length = z := by
    obtain ⟨⟨ls, h4, rfl⟩, h5⟩ := hz
    have a := greedy_minimal ls fs 0 0 (Nat.le_refl _) h4 h1
    have b := h5 _ (greedy_isParse fs 0 h1)
    rw [List.length_map] at b
    omega
  exact ⟨line, h2, this ▸ h3⟩

example (w : World) := C107_count_z naiveSufsort naiveSufsort_sorts none (iter tmMor 3 [97]) w _ _ (C107_thuemorse 3 (by decide)) (by decide)
  (by decide) rfl (fun n hn => by cases hn) 5

/-- `count_z`, reading from a file (or the standard input) what a generator wrote, prints `length=` and `factors=`. -/
def Reports (sufsort : List UInt8 → List Nat) (word : Res (List UInt8)) (length factors : Nat) : Prop :=
  ∃ t, word = .ok t ∧ ∀ (inn : Option String) (stdin : List UInt8) (w : World) (time : Nat),
    Contains inn stdin w t → PlainName inn →
      ∃ line, countZOut sufsort inn 0 stdin time w = .ok line ∧ resultFields line = some
        [(ascii "file", printedName inn), (ascii "length", decimal length), (ascii "algo", ascii "lz77"),
          (ascii "time_ms", decimal time), (ascii "factors", decimal factors)]

theorem reports_of {sufsort : List UInt8 → List Nat} (hs : SortsSuffixes sufsort) {word : Res (List UInt8)}
    {t : List UInt8} {n z : Nat} (hw : word = .ok t) (hn : t.length = n) (h0 : 0 < n) (hlen : n < 2147483648)
    (hz : MinParse t z) : Reports sufsort word n z := by
  subst hn
  exact ⟨t, hw, fun inn stdin w time hin hname =>
    C107_count_z sufsort hs inn stdin w t z hz (List.length_pos_iff.1 h0) hlen hin hname time⟩

/-- C107, the commands: what `count_z` prints for the word of each generator, for every order whose word fits the
suffix sorter's 2^31 - 1 bytes. -/
theorem C107_commands (sufsort : List UInt8 → List Nat) (hs : SortsSuffixes sufsort) :
    (∀ k ≤ 44, Reports sufsort (fibonacciWord (binet (k + 2)) k) (Nat.fib (k + 2)) (k + 1)) ∧
    (∀ k, 1 ≤ k → k ≤ 30 → Reports sufsort (thuemorseWord k) (2 ^ k) (2 * k)) ∧
    (∀ k, 1 ≤ k → k ≤ 30 → Reports sufsort (periodDoublingWord k) (2 ^ k) (2 * k)) ∧
    (∀ k fuel, 1 ≤ k → k ≤ 29 → 3 * 2 ^ k < fuel → Reports sufsort (vtmWord fuel k) (3 * 2 ^ (k - 1)) (3 * k)) ∧
    (∀ k fuel, 2 ≤ k → k ≤ 34 → tribNum k < fuel → Reports sufsort (tribonacciWord fuel k) (tribNum k) (k + 2)) ∧
    (∀ k, 2 ≤ k → k ≤ 30 → Reports sufsort (quaternaryPaperfoldingWord k) (2 ^ k) (3 * k - 2)) ∧
    (∀ k, 3 ≤ k → k ≤ 29 → Reports sufsort (paperfoldingWord k) (2 ^ (k + 1)) (3 * k - 2)) := by
  have pow : ∀ {k : Nat}, k ≤ 30 → 2 ^ k < 2147483648 := fun {k} h => by
    have := Nat.pow_le_pow_right (show 0 < 2 by omega) h
    omega
  refine ⟨?_, ?_, ?_, ?_, ?_, ?_, ?_⟩
  · intro k hk
    refine reports_of hs (C42_fibonacci_word_exact k (by omega)) (fibWord_length k) (Nat.fib_pos.2 (by omega)) ?_
      (C107_fibonacci k)
    have h46 : Nat.fib 46 = 1836311903 := by decide +kernel
    have : Nat.fib (k + 2) ≤ Nat.fib 46 := Nat.fib_mono (by omega)
    omega
  · intro k h1 hk
    refine reports_of hs (C43_thuemorse_morphism k (by omega)).1 ?_ (Nat.two_pow_pos k) (pow hk) (C107_thuemorse k h1)
    rw [iter_fixLetter tmMor_eq rfl]; simp
  · intro k h1 hk
    obtain ⟨w, h2, rfl, h4, -⟩ := C45_period_doubling k (by omega)
    exact reports_of hs h2 h4 (Nat.two_pow_pos k) (pow hk) (C107_period_doubling k h1)
  · intro k fuel h1 hk hfuel
    have hl : (iter vtmMor k [97]).length = 3 * 2 ^ (k - 1) := by
      rw [vtm_iter, if_neg (by omega)]; simp
    have h2 : 2 ^ (k - 1) ≤ 2 ^ 28 := Nat.pow_le_pow_right (by omega) (by omega)
    have h3 : 2 ^ (k - 1) ≤ 2 ^ k := Nat.pow_le_pow_right (by omega) (by omega)
    have := Nat.two_pow_pos (k - 1)
    exact reports_of hs (C51_vtm_word_partial k hk fuel (by omega)) hl (by omega) (by omega) (C107_vtm k h1)
  · intro k fuel h1 hk hfuel
    have mono : Monotone tribNum := by
      refine monotone_nat_of_le_succ fun n => ?_
      rw [← tribWord_length, ← tribWord_length]
      exact (tribWord_prefix (Nat.le_succ n)).length_le
    have h2 : tribNum 34 = 1132436852 := by decide +kernel
    have h3 := mono hk
    have h4 : tribNum 0 ≤ tribNum k := mono (Nat.zero_le k)
    have h5 : tribNum 0 = 1 := rfl
    exact reports_of hs (C50_tribonacci_word k (by omega) fuel hfuel).1 (tribWord_length k) (by omega) (by omega)
      (C107_tribonacci k h1)
  · intro k h1 hk
    refine reports_of hs (C46_quaternary k (by omega)) ?_ (Nat.two_pow_pos k) (pow hk)
      (C107_quaternary_paperfolding k h1)
    rw [iter_fixLetter paperMor_eq rfl]; simp
  · intro k h1 hk
    obtain ⟨w, h2, h3⟩ := C107_paperfolding k h1 (by omega)
    obtain ⟨w', h4, h5, -⟩ := C46_paperfolding k (by omega)
    rw [h2] at h4
    cases h4
    exact reports_of hs h2 h5 (Nat.two_pow_pos _) (pow (by omega)) h3

example := C107_commands naiveSufsort naiveSufsort_sorts

/-- Concrete cases: the parse of the Thue–Morse word of order 3 has 6 factors, that of `abaababa` has 5. -/
example : (countZFactors naiveSufsort [97, 98, 98, 97, 98, 97, 97, 98]).map List.length = .ok 6 ∧
    (countZFactors naiveSufsort [97, 98, 97, 97, 98, 97, 98, 97]).map List.length = .ok 5 ∧
    fibWord 4 = [97, 98, 97, 97, 98, 97, 98, 97] := by decide

/-- The bounds on the orders are needed: `a` has one phrase, `db` two and `dbcb`, in binary `11011001`, five. -/
example : (countZFactors naiveSufsort [97]).map List.length = .ok 1 ∧
    (countZFactors naiveSufsort [100, 98]).map List.length = .ok 2 ∧
    (countZFactors naiveSufsort [49, 49, 48, 49, 49, 48, 48, 49]).map List.length = .ok 5 := by decide

end Verif.Props
