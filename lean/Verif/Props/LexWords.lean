import Verif.Lemmas.LexFibOdd
import Verif.Lemmas.LexPow2
import Verif.Lemmas.LexPd
import Verif.Props.BwtWords
import Verif.Props.LzWords
import Verif.Props.Necklace

/-! # C126: the number of lexicographic parse factors of the words of the generators

`LexFactors` (in `Verif/Spec/LexWords.lean`): each phrase is the longest prefix of the rest that also starts a smaller suffix,
or a single letter.  The words themselves are described in `Verif/Spec/Morphism.lean`. -/

namespace Verif.Props

open Verif Spec Model

/-- There is exactly one lexicographic parse. -/
theorem C126_unique (t : List UInt8) : ∃ m, LexFactors t m ∧ ∀ m', LexFactors t m' → m' = m := by
  have hex : ∀ v : List UInt8, ∃ l, LexLen t v l ∧ l ≤ v.length := by
    intro v
    by_cases h : ∃ u, SmallerSuffix t u v
    · obtain ⟨u, hu⟩ := h
      have : ∃ l, (∃ u, SmallerSuffix t u v ∧ lcpLen u v = l) ∧ ∀ l', (∃ u, SmallerSuffix t u v ∧ lcpLen u v = l') → l' ≤ l := by
        classical
        let P : Nat → Prop := fun l => ∃ u, SmallerSuffix t u v ∧ lcpLen u v = l
        have h0 : P (lcpLen u v) := ⟨u, hu, rfl⟩
        have hb : ∀ l, P l → l ≤ v.length := by rintro l ⟨u, -, rfl⟩; exact lcpLen_le_right _ _
        refine ⟨Nat.findGreatest P v.length, Nat.findGreatest_spec (P := P) (hb _ h0) h0, fun l' h' => ?_⟩
        exact Nat.le_findGreatest (hb _ h') h'
      obtain ⟨l, ⟨u', h1, h2⟩, h3⟩ := this
      exact ⟨l, ⟨fun u hu => h3 _ ⟨u, hu, rfl⟩, .inr ⟨u', h1, h2⟩⟩, h2 ▸ lcpLen_le_right _ _⟩
    · exact ⟨0, ⟨fun u hu => absurd ⟨u, hu⟩ h, .inl rfl⟩, Nat.zero_le _⟩
  have main : ∀ n (v : List UInt8), v.length = n → ∃ m, LexPhrases t v m ∧ ∀ m', LexPhrases t v m' → m' = m := by
    intro n
    induction n using Nat.strong_induction_on with
    | _ n ih =>
      intro v hv
      rcases v with _ | ⟨c, v⟩
      · refine ⟨0, .nil, fun m' h => ?_⟩
        cases h with
        | nil => rfl
        | cons h => exact absurd rfl h
      · obtain ⟨l, h1, -⟩ := hex (c :: v)
        obtain ⟨m, h2, h3⟩ := ih _ (by rw [← hv, List.length_drop, List.length_cons]; omega) ((c :: v).drop (max 1 l)) rfl
        refine ⟨m + 1, .cons (by simp) h1 h2, fun m' h => ?_⟩
        cases h with
        | cons _ g1 g2 =>
          rw [lexLen_unique g1 h1] at g2
          rw [h3 _ g2]
  exact main _ t rfl

/-- C126, Thue–Morse words, every order from 3 on. -/
theorem C126_thuemorse (k : Nat) (hk : 3 ≤ k) : LexFactors (iter tmMor k [97]) ((3 * k + 3) / 2) := tm_lexFactors hk

example := C126_thuemorse 10 (by decide)

/-- C126, power-of-two words (with their last byte 0, C49), every order from 3 on. -/
theorem C126_power2 (k : Nat) (hk : 3 ≤ k) (hk' : k ≤ 62) : ∃ w, power2Sequence k = .ok w ∧ LexFactors w (k + 3) :=
  ⟨_, power2_ok hk', pow2_lexFactors hk⟩

example := C126_power2 10 (by decide) (by decide)

/-- C126, Fibonacci words of even order from 4 on: four phrases, whatever the length. -/
theorem C126_fibonacci_even (i : Nat) (hi : 2 ≤ i) : LexFactors (fibWord (2 * i)) 4 := by
  obtain ⟨i, rfl⟩ := Nat.exists_eq_add_of_le' hi
  rw [show 2 * (i + 2) = 2 * i + 4 by omega]
  exact (fe_inv i).phrases

example := C126_fibonacci_even 10 (by decide)

/-- C126, Fibonacci words of odd order from 3 on: the number of phrases grows with the order. -/
theorem C126_fibonacci_odd (i : Nat) (hi : 1 ≤ i) : LexFactors (fibWord (2 * i + 1)) (i + 3) := by
  obtain ⟨i, rfl⟩ := Nat.exists_eq_add_of_le' hi
  rcases i with _ | i
  · exact fo_three
  · exact fo_lexFactors i

example := C126_fibonacci_odd 10 (by decide)

/-- C126, Lyndon factors of the Fibonacci words, every order from 1 on: four phrases, whatever the length. -/
theorem C126_fibonacci_lyndon (k : Nat) (hk : 1 ≤ k) : LexFactors (iter lyndonMor k [97, 98]) 4 := by
  obtain ⟨k, rfl⟩ := Nat.exists_eq_add_of_le' hk
  exact (fl_inv k).phrases

example := C126_fibonacci_lyndon 10 (by decide)

/-- C126, period-doubling words, every order from 2 on: about three phrases for two orders if the order is even, two if it is odd. -/
theorem C126_perioddoubling (i : Nat) (hi : 1 ≤ i) :
    LexFactors (iter pdMor (2 * i) [97]) (3 * i + 1) ∧ LexFactors (iter pdMor (2 * i + 1) [97]) (2 * i + 3) := by
  obtain ⟨i, rfl⟩ := Nat.exists_eq_add_of_le' hi
  exact ⟨pd_lexFactors_even i, pd_lexFactors_odd i⟩

example := C126_perioddoubling 5 (by decide)

/-- Whatever the non-empty text, `count_lexparse` reports the number of its phrases. -/
theorem C126_count_lexparse (sufsort : List UInt8 → List Nat) (hs : SortsSuffixes sufsort) (inn : Option String)
    (stdin : List UInt8) (w : World) (t : List UInt8) (m : Nat) (hm : LexFactors t m) (h0 : t ≠ [])
    (hlen : t.length < 2147483648) (hin : Contains inn stdin w t) (hname : PlainName inn) (time : Nat) :
    ∃ line, countLexparseOut sufsort inn 0 stdin time w = .ok line ∧ resultFields line = some
      [(ascii "file", printedName inn), (ascii "length", decimal t.length), (ascii "algo", ascii "lexparse"),
        (ascii "time_ms", decimal time), (ascii "factors", decimal m)] := by
  obtain ⟨line, fs, h1, -, -, h3, h4⟩ := C89_count_lexparse_partial sufsort hs inn stdin w t hin h0 hlen hname time
  obtain ⟨fs', g1, g2⟩ := lexFactors_count hs hlen h0 hm
  rw [h1] at g1
  cases g1
  exact ⟨line, h3, g2 ▸ h4⟩

example (w : World) := C126_count_lexparse naiveSufsort naiveSufsort_sorts none (iter tmMor 3 [97]) w _ _ (C126_thuemorse 3 (by decide))
  (by decide) (by decide) rfl (fun n hn => by cases hn) 5

/-- `count_lexparse`, reading from a file (or the standard input) what a generator wrote, prints `length=` and `factors=`. -/
def ReportsLex (sufsort : List UInt8 → List Nat) (word : Res (List UInt8)) (length factors : Nat) : Prop :=
  ∃ t, word = .ok t ∧ ∀ (inn : Option String) (stdin : List UInt8) (w : World) (time : Nat),
    Contains inn stdin w t → PlainName inn →
      ∃ line, countLexparseOut sufsort inn 0 stdin time w = .ok line ∧ resultFields line = some
        [(ascii "file", printedName inn), (ascii "length", decimal length), (ascii "algo", ascii "lexparse"),
          (ascii "time_ms", decimal time), (ascii "factors", decimal factors)]

theorem reportsLex_of {sufsort : List UInt8 → List Nat} (hs : SortsSuffixes sufsort) {word : Res (List UInt8)}
    {t : List UInt8} {n m : Nat} (hw : word = .ok t) (hn : t.length = n) (hpos : 0 < n) (hlen : n < 2147483648)
    (hm : LexFactors t m) : ReportsLex sufsort word n m := by
  subst hn
  exact ⟨t, hw, fun inn stdin w time hin hname =>
    C126_count_lexparse sufsort hs inn stdin w t m hm (List.length_pos_iff.1 hpos) hlen hin hname time⟩

/-- C126, the commands: what `count_lexparse` prints for the word of each generator, for every order whose word fits the
suffix sorter's 2^31 - 1 bytes. -/
theorem C126_commands (sufsort : List UInt8 → List Nat) (hs : SortsSuffixes sufsort) :
    (∀ k, 3 ≤ k → k ≤ 30 → ReportsLex sufsort (thuemorseWord k) (2 ^ k) ((3 * k + 3) / 2)) ∧
    (∀ k, 3 ≤ k → k ≤ 30 → ReportsLex sufsort (power2Sequence k) (2 ^ k) (k + 3)) ∧
    (∀ i, 2 ≤ i → i ≤ 22 → ReportsLex sufsort (fibonacciWord (binet (2 * i + 2)) (2 * i)) (Nat.fib (2 * i + 2)) 4) ∧
    (∀ i, 1 ≤ i → i ≤ 21 → ReportsLex sufsort (fibonacciWord (binet (2 * i + 3)) (2 * i + 1)) (Nat.fib (2 * i + 3)) (i + 3)) ∧
    (∀ k, 1 ≤ k → k ≤ 21 → ReportsLex sufsort (fibonacciLyndonfactor k) (Nat.fib (2 * k + 3)) 4) ∧
    (∀ i, 1 ≤ i → i ≤ 15 → ReportsLex sufsort (periodDoublingWord (2 * i)) (2 ^ (2 * i)) (3 * i + 1)) ∧
    (∀ i, 1 ≤ i → i ≤ 14 → ReportsLex sufsort (periodDoublingWord (2 * i + 1)) (2 ^ (2 * i + 1)) (2 * i + 3)) := by
  have pow : ∀ {k : Nat}, k ≤ 30 → 2 ^ k < 2147483648 := fun {k} h => by
    have := Nat.pow_le_pow_right (show 0 < 2 by omega) h
    omega
  have fib : ∀ {k : Nat}, k ≤ 46 → Nat.fib k < 2147483648 := fun {k} h => by
    have h46 : Nat.fib 46 = 1836311903 := by decide +kernel
    have : Nat.fib k ≤ Nat.fib 46 := Nat.fib_mono h
    omega
  refine ⟨?_, ?_, ?_, ?_, ?_, ?_, ?_⟩
  · intro k h1 hk
    refine reportsLex_of hs (C43_thuemorse_morphism k (by omega)).1 ?_ (by positivity) (pow hk) (C126_thuemorse k h1)
    rw [iter_fixLetter tmMor_eq rfl]; simp
  · intro k h1 hk
    obtain ⟨w, h3, h4, h5⟩ := C49_power2_partial k (by omega)
    obtain ⟨w', h6, h7⟩ := C126_power2 k h1 (by omega)
    rw [h3] at h6
    cases h6
    exact reportsLex_of hs h3 h4 (by positivity) (pow hk) h7
  · intro i h1 hi
    exact reportsLex_of hs (C42_fibonacci_word_exact _ (by omega)) (fibWord_length _) (Nat.fib_pos.2 (by omega)) (fib (by omega))
      (C126_fibonacci_even i h1)
  · intro i h1 hi
    exact reportsLex_of hs (C42_fibonacci_word_exact _ (by omega)) (fibWord_length _) (Nat.fib_pos.2 (by omega)) (fib (by omega))
      (C126_fibonacci_odd i h1)
  · intro k h1 hk
    refine reportsLex_of hs (lyndonfactor_ok (by omega)) ?_ (Nat.fib_pos.2 (by omega)) (fib (by omega)) (C126_fibonacci_lyndon k h1)
    obtain ⟨u, v, h1, h2⟩ := lyndon_conj k
    have hp : (iter lyndonMor k [97, 98]).Perm (fibWord (2 * k + 1)) := by rw [h1, h2]; exact List.perm_append_comm
    rw [hp.length_eq, fibWord_length]
  · intro i h1 hi
    obtain ⟨w, g1, rfl, g3, -⟩ := C45_period_doubling (2 * i) (by omega)
    exact reportsLex_of hs g1 g3 (by positivity) (pow (by omega)) (C126_perioddoubling i h1).1
  · intro i h1 hi
    obtain ⟨w, g1, rfl, g3, -⟩ := C45_period_doubling (2 * i + 1) (by omega)
    exact reportsLex_of hs g1 g3 (by positivity) (pow (by omega)) (C126_perioddoubling i h1).2

example := C126_commands naiveSufsort naiveSufsort_sorts

end Verif.Props
