import Verif.Lemmas.ReleaseWords
import Verif.Props.BinaryExact
import Verif.Props.Necklace
import Verif.Props.WordMore
import Verif.Props.Kolakoski
import Verif.Props.WordUniform
import Verif.Props.CliInstances

/-! # C115: the generators in the release build

`Build.checked` is the build with overflow checks, `Build.wrapping` the release build. -/

namespace Verif.Props

open Verif Spec Model

/-- C115: with overflow checks, the generators of `Verif/Model/Release.lean` are those of the other claims. -/
theorem C115_checked :
    (∀ (est : Nat → ℝ) fuel name k, wordOfB .checked est fuel name k = wordOf (est (k + 2)) fuel name k) ∧
    fibonacciNumberB .checked = fibonacciNumber ∧ tribonacciNumberB .checked = tribonacciNumber ∧
    (∀ g : LyndonWordGenerator, g.nextB .checked = g.next) ∧ (∀ g : BinaryStringGenerator, g.nextB .checked = g.next) ∧
    (∀ fuel g, lyndonwordsLoopB .checked fuel g = lyndonwordsLoop fuel g) :=
  ⟨wordOfB_checked, rfl, rfl, lwgNextB_checked, bsgNextB_checked, lyndonwordsLoopB_checked⟩

/-- C115: what the build with overflow checks returns, the release build returns too (for every generator, every order and
every length estimate). -/
theorem C115_release_extends (est : Nat → ℝ) (fuel : Nat) (name : WordName) (k : Nat) (w : List UInt8)
    (h : wordOfB .checked est fuel name k = .ok w) : wordOfB .wrapping est fuel name k = .ok w :=
  Res.Le.wordOfB est fuel name k w h

example : wordOfB .wrapping (fun _ => 0) 0 .thueMorse 2 = .ok [97, 98, 98, 97] :=
  C115_release_extends _ _ .thueMorse 2 _ (by show thuemorseWordB .checked 2 = _; decide +kernel)

/-- C115 for six of the generators (missing: the others, see `C115_wrong_words_refuted`): without overflow checks they
return the word of their name and order, or panic, for every order a `u8` can hold (below 255 for `fibonacci_word`) and
whatever the length estimate is; the fuel only bounds the number of rounds. -/
theorem C115_right_word_partial (est : Nat → ℝ) (fuel k : Nat) (hk : k < 256) (w : List UInt8) :
    (wordOfB .wrapping est fuel .fibonacci k = .ok w → k ≠ 255 → w = fibWord k) ∧
    (wordOfB .wrapping est fuel .thueMorse k = .ok w → w = iter tmMor k [97] ∧ k ≤ 62) ∧
    (wordOfB .wrapping est fuel .kolakoski k = .ok w → kolakoskiWord k = .ok w ∧ k ≤ 60) ∧
    (wordOfB .wrapping est fuel .tribonacci k = .ok w → w = tribWord k) ∧
    (wordOfB .wrapping est fuel .vtm k = .ok w → w = iter vtmMor k [97]) ∧
    (wordOfB .wrapping est fuel .fibonacciLyndonFactor k = .ok w →
      ∃ M, ∀ m, M ≤ m → ∀ fs, IsLyndonFactorization fs (fibWord m) → fs[k]? = some w) := by
  refine ⟨fun h h255 => ?_, fun h => ?_, fun h => ?_, fun h => ?_, fun h => ?_, fun h => ?_⟩
  · change fibonacciWordB .wrapping est k = .ok w at h
    unfold fibonacciWordB at h
    obtain ⟨_, _, h⟩ := bind_eq_ok h
    obtain ⟨L, _, h⟩ := bind_eq_ok h
    rw [fibBufB_ret (by omega) h, fibWord_eq]
  · change thuemorseWordB .wrapping k = .ok w at h
    rcases Nat.lt_or_ge k 63 with h1 | h1
    · have := Res.Le.thuemorseWordB k _ (C43_thuemorse_morphism k (by omega)).1
      rw [h] at this
      injection this with this
      exact ⟨this, by omega⟩
    · exact absurd h (thuemorse_large h1)
  · change kolakoskiWordB .wrapping k = .ok w at h
    rcases Nat.lt_or_ge k 61 with h1 | h1
    · have := Res.Le.kolakoskiWordB k _ (kolakoski_ok (by omega))
      rw [h] at this
      injection this with this
      exact ⟨by rw [this]; exact kolakoski_ok (by omega), by omega⟩
    · exact absurd h (kolakoski_large h1 hk)
  · change tribonacciWordB .wrapping fuel k = .ok w at h
    obtain ⟨_, _, h⟩ := bind_eq_ok h
    rw [tribWord_eq]
    exact generalB_ret tribMor_prolongable h
  · change vtmWordB .wrapping fuel k = .ok w at h
    obtain ⟨_, _, h⟩ := bind_eq_ok h
    exact generalB_ret vtmMor_prolongable h
  · change fibonacciLyndonfactorB .wrapping k = .ok w at h
    obtain ⟨_, _, h⟩ := bind_eq_ok h
    have e : w = lfac k := withStartB_ret h
    obtain ⟨M, hM⟩ := fib_kth_factor k
    exact ⟨M, fun m hm fs hfs => by rw [e]; exact hM m hm fs (by rw [← fibWord_eq]; exact hfs)⟩

example := (C115_right_word_partial (fun _ => 0) 100 4 (by decide) [97, 98, 98, 97, 98, 97, 97, 98, 98, 97, 97, 98, 97, 98, 98, 97]).2.1
  (by show thuemorseWordB .wrapping 4 = _; decide +kernel)

theorem i32SizeHintB_wrap {k : Nat} (hk : k % 32 ≤ 29) : i32SizeHintB .wrapping k = .ok (3 * 2 ^ (k % 32) + 1) := by
  have hp : 2 ^ (k % 32) ≤ 2 ^ 29 := Nat.pow_le_pow_right (by omega) hk
  have e : (3 * 2 ^ (k % 32)) % 4294967296 = 3 * 2 ^ (k % 32) := Nat.mod_eq_of_lt (by omega)
  unfold i32SizeHintB
  split
  · next h =>
    rw [Nat.mod_eq_of_lt h] at e hp ⊢
    simp only [e]
    rw [if_pos (by omega), if_pos (by omega)]
  · simp only [e]
    rw [if_pos (by omega), if_pos (by omega)]

theorem capacityB_ok {k e : Nat} (hk : e ≤ 29) : initialCapacityB .wrapping k (3 * 2 ^ e + 1) = .ok () := by
  have hp : 2 ^ e ≤ 2 ^ 29 := Nat.pow_le_pow_right (by omega) hk
  unfold initialCapacityB withCapacity
  rw [if_pos (by omega), pure_bind', if_pos (by omega)]

/-- C115: where the build with overflow checks panics (orders 32 to 61 and so on), the release build does return the word of
`vtm_word` and of `fibonacci_lyndonfactor`, because the size hint wraps to a small number. -/
theorem C115_more_orders (k : Nat) (hk : k % 32 ≤ 29) (h32 : 32 ≤ k) :
    (∀ fuel, (iter vtmMor k [97]).length < fuel →
      vtmWordB .wrapping fuel k = .ok (iter vtmMor k [97]) ∧ ∃ e, vtmWordB .checked fuel k = .error e) ∧
    (∃ w, fibonacciLyndonfactorB .wrapping k = .ok w ∧
      (∃ M, ∀ m, M ≤ m → ∀ fs, IsLyndonFactorization fs (fibWord m) → fs[k]? = some w) ∧
      ∃ e, fibonacciLyndonfactorB .checked k = .error e) := by
  constructor
  · intro fuel hfuel
    constructor
    · have e := general_ok (rounds := k) (hint := 1) (fuel := fuel) vtmMor_prolongable (Or.inr rfl)
        (lt_of_le_of_lt (vtmMor_prolongable.prefix_le (show k - 1 ≤ k by omega)).length_le hfuel)
      have e2 : iterateGeneralMorphismB .wrapping fuel k vtmMorphism 1 = .ok (iter vtmMor k [97]) :=
        Res.Le.generalB _ k _ 1 _ e
      unfold vtmWordB
      rw [i32SizeHintB_wrap hk, ok_bind]
      unfold iterateGeneralMorphismB at e2 ⊢
      rw [if_neg (by omega)] at e2 ⊢
      rw [initialCapacityB_one, ok_bind] at e2
      rw [capacityB_ok hk, ok_bind]
      exact e2
    · have := C51_refuted k (by omega) fuel
      rcases this with h | h
      · exact ⟨_, h⟩
      · exact ⟨_, h⟩
  · refine ⟨lfac k, ?_, ?_, ?_⟩
    · unfold fibonacciLyndonfactorB
      rw [i32SizeHintB_wrap hk, ok_bind]
      unfold iterateGeneralMorphismWithStartsymbolB
      rw [capacityB_ok hk, ok_bind]
      have e := withStart_ok (rounds := k) (hint := 1) (f := fibonacciLyndonfactorMorphism) (start := [97, 98]) rfl
      unfold iterateGeneralMorphismWithStartsymbol at e
      rw [show initialCapacity k 1 = .ok () from rfl, ok_bind] at e
      exact e
    · obtain ⟨M, hM⟩ := fib_kth_factor k
      exact ⟨M, fun m hm fs hfs => hM m hm fs (by rw [← fibWord_eq]; exact hfs)⟩
    · rcases C52_limit k (by omega) with h | h
      · exact ⟨_, h⟩
      · exact ⟨_, h⟩

example := (C115_more_orders 34 (by decide) (by decide)).1 _ (Nat.lt_succ_self _)

theorem shl1B_wrapping (k : Nat) : shl1B .wrapping k = .ok (2 ^ (k % 64)) := by
  unfold shl1B
  split
  · rw [Nat.mod_eq_of_lt (by assumption)]
  · rfl

/-- C115 is false as stated for the other generators: the shift `1 << k` takes `k` modulo 64, so that from order 65 on
`period_doubling_word` silently returns the word of order `k % 64`, and from order 64 on so do the two paper-folding words and
`power2_sequence`; `fibonacci_word(255)` returns `a` as soon as the length estimate is not negative and less than `2^62`. -/
theorem C115_wrong_words_refuted (k : Nat) (hk : 64 ≤ k) :
    (k % 64 ≠ 0 → k % 64 ≤ 62 → periodDoublingWordB .wrapping k = .ok (iter pdMor (k % 64) [97])) ∧
    (k % 64 ≤ 62 → quaternaryPaperfoldingWordB .wrapping k = .ok (iter paperMor (k % 64) [100])) ∧
    (k % 64 ≤ 61 → ∃ w, paperfoldingWordB .wrapping k = .ok w ∧ paperfoldingWord (k % 64) = .ok w ∧ w.length = 2 ^ (k % 64 + 1)) ∧
    (k % 64 ≤ 62 → ∃ w, power2SequenceB .wrapping k = .ok w ∧ power2Sequence (k % 64) = .ok w ∧ w.length = 2 ^ (k % 64)) ∧
    (∀ est : Nat → ℝ, 0 ≤ est 1 → est 1 < 2 ^ 62 → fibonacciWordB .wrapping est 255 = .ok [97]) := by
  refine ⟨fun h0 h1 => ?_, fun h1 => ?_, fun h1 => ?_, fun h1 => ?_, fun est h0 h1 => ?_⟩
  · have e := Res.Le.iterate2morphismB (k % 64) periodDoublingMorphism _ (iterate2_ok pdMor_eq rfl h1)
    rw [← e]
    unfold periodDoublingWordB iterate2morphismB
    rw [if_neg (by omega), if_neg (by omega), shl1B_wrapping, shl1B_wrapping, Nat.mod_mod]
  · have e := Res.Le.quaternaryB (k % 64) _ (C46_quaternary _ h1)
    rw [← e]
    unfold quaternaryPaperfoldingWordB
    rw [shl1B_wrapping, shl1B_wrapping, Nat.mod_mod]
  · obtain ⟨w, hw, hl, _⟩ := C46_paperfolding (k % 64) h1
    refine ⟨w, ?_, hw, hl⟩
    rw [← Res.Le.paperfoldingWordB (k % 64) _ hw]
    unfold paperfoldingWordB quaternaryPaperfoldingWordB
    rw [shl1B_wrapping, shl1B_wrapping, Nat.mod_mod]
  · obtain ⟨w, hw, hl, _⟩ := C49_power2_partial (k % 64) h1
    refine ⟨w, ?_, hw, hl⟩
    rw [← Res.Le.power2SequenceB (k % 64) _ hw]
    unfold power2SequenceB
    rw [shl1B_wrapping, shl1B_wrapping, Nat.mod_mod]
  · unfold fibonacciWordB
    rw [u8addB, if_neg (by omega)]
    rw [ok_bind]
    have hf : ⌊est 1 + 1⌋₊ < 4611686018427387906 := by
      rw [Nat.floor_lt (by linarith)]
      norm_num at h1 ⊢
      linarith
    rw [uaddB, if_pos (by have := Nat.min_le_left ⌊est ((255 + 2) % 256) + 1⌋₊ 18446744073709551615; norm_num at this ⊢; omega), ok_bind]
    generalize hL : min ⌊est ((255 + 2) % 256) + 1⌋₊ 18446744073709551615 = L
    have hL' : L < 4611686018427387906 := by
      rw [← hL]; exact lt_of_le_of_lt (Nat.min_le_left _ _) hf
    unfold fibonacciWordBufB
    rw [zeroed, if_pos (by omega), ok_bind, wr_ok (by simp), ok_bind]
    rfl

example : periodDoublingWordB .wrapping 66 = .ok [97, 98, 97, 97] := (C115_wrong_words_refuted 66 (by decide)).1 (by decide) (by decide)

example : fibonacciWordB .wrapping (fun _ => 1) 255 = .ok [97] :=
  (C115_wrong_words_refuted 64 (by decide)).2.2.2.2 _ (by norm_num) (by norm_num)

/-- C115: from order 65 on, what `period_doubling_word` returns is not the word asked for, and the same for the other shift
generators from order 64 on: the length is wrong. -/
theorem C115_wrong_length (k : Nat) (hk : 64 ≤ k) (w : List UInt8) :
    (periodDoublingWordB .wrapping k = .ok w → w.length < 2 ^ k) ∧
    (quaternaryPaperfoldingWordB .wrapping k = .ok w → w.length < 2 ^ k) ∧
    (power2SequenceB .wrapping k = .ok w → w.length < 2 ^ k) := by
  have hlt : 2 ^ (k % 64) < 2 ^ k := Nat.pow_lt_pow_right (by omega) (by omega)
  have h63 : k % 64 ≤ 62 ∨ k % 64 = 63 := by omega
  refine ⟨fun h => ?_, fun h => ?_, fun h => ?_⟩
  · rcases h63 with h62 | h63
    · by_cases h0 : k % 64 = 0
      · exfalso
        unfold periodDoublingWordB iterate2morphismB at h
        rw [if_neg (by omega), shl1B_wrapping, h0] at h
        revert h
        simp only [ok_bind]
        rw [show zeroed (2 ^ 0) = .ok [0] by decide, ok_bind, show wr [(0 : UInt8)] 0 97 = .ok [97] by decide, ok_bind,
          show wr [(97 : UInt8)] 1 98 = .error .index by decide]
        intro h; cases h
      · rw [(C115_wrong_words_refuted k hk).1 h0 h62] at h
        injection h with h
        rw [← h, iter_fixLetter pdMor_eq rfl]
        simpa using hlt
    · exfalso
      unfold periodDoublingWordB iterate2morphismB at h
      rw [if_neg (by omega), shl1B_wrapping, h63, ok_bind, zeroed, if_neg (by omega)] at h
      cases h
  · rcases h63 with h62 | h63
    · rw [(C115_wrong_words_refuted k hk).2.1 h62] at h
      injection h with h
      rw [← h, iter_fixLetter paperMor_eq rfl]
      simpa using hlt
    · exfalso
      unfold quaternaryPaperfoldingWordB at h
      rw [shl1B_wrapping, h63, ok_bind, zeroed, if_neg (by omega)] at h
      cases h
  · rcases h63 with h62 | h63
    · obtain ⟨v, h1, _, h3⟩ := (C115_wrong_words_refuted k hk).2.2.2.1 h62
      rw [h1] at h
      injection h with h
      rw [← h, h3]; exact hlt
    · exfalso
      unfold power2SequenceB at h
      rw [shl1B_wrapping, h63, ok_bind, zeroed, if_neg (by omega)] at h
      cases h

example := (C115_wrong_length 64 (by decide) [100]).2.1 ((C115_wrong_words_refuted 64 (by decide)).2.1 (by decide))

/-! ## The numbers -/

theorem uaddB_wrapping (a b : Nat) : uaddB .wrapping a b = .ok ((a + b) % 2 ^ 64) := by
  unfold uaddB
  split
  · rw [Nat.mod_eq_of_lt (by omega)]
  · rfl

/-- C115: without overflow checks `fibonacci_number` and `tribonacci_number` return the number modulo `2^64`. -/
theorem C115_numbers (k : Nat) :
    (k < 255 → fibonacciNumberB .wrapping k = .ok (Nat.fib (k + 2) % 2 ^ 64)) ∧ fibonacciNumberB .wrapping 255 = .ok 1 ∧
    tribonacciNumberB .wrapping k = .ok (tribNum k % 2 ^ 64) := by
  refine ⟨fun hk => ?_, by decide +kernel, ?_⟩
  · unfold fibonacciNumberB
    rcases Nat.eq_zero_or_pos k with rfl | h0
    · rfl
    · rw [if_neg (by omega), u8addB, if_pos (by omega), ok_bind]
      obtain ⟨s, hs, h1, h2, h3⟩ := forRange_inv
        (fun i (st : Nat × Nat × Nat) => st.2.1 = Nat.fib (i + 1) % 2 ^ 64 ∧ st.2.2 = Nat.fib i % 2 ^ 64 ∧
          (0 < i → st.1 = Nat.fib (i + 1) % 2 ^ 64))
        (lo := 0) (hi := k + 1) (s := (1, 1, 0)) (body := fun _ (st : Nat × Nat × Nat) => do
          let sum ← uaddB .wrapping st.2.1 st.2.2
          pure (sum, sum, st.2.1)) (by omega) ⟨rfl, rfl, by omega⟩ (by
          rintro i ⟨a, b, c⟩ _ hi ⟨h1, h2, h3⟩
          simp only at h1 h2 h3
          subst h1 h2
          have e : (Nat.fib (i + 1) % 2 ^ 64 + Nat.fib i % 2 ^ 64) % 2 ^ 64 = Nat.fib (i + 1 + 1) % 2 ^ 64 := by
            rw [← Nat.add_mod, Nat.fib_add_two (n := i), Nat.add_comm]
          simp only [uaddB_wrapping, ok_bind, pure_ok]
          exact ⟨_, rfl, e, rfl, fun _ => e⟩)
      rw [hs, ok_bind, h3 (by omega)]; rfl
  · unfold tribonacciNumberB
    rcases Nat.eq_zero_or_pos k with rfl | h0
    · rfl
    · rw [if_neg (by omega)]
      obtain ⟨s, hs, h1, h2, h3, h4⟩ := forRange_inv
        (fun i (st : Nat × Nat × Nat × Nat) => st.2.1 = trib0 (i + 2) % 2 ^ 64 ∧ st.2.2.1 = trib0 (i + 1) % 2 ^ 64 ∧
          st.2.2.2 = trib0 i % 2 ^ 64 ∧ (0 < i → st.1 = trib0 (i + 2) % 2 ^ 64))
        (lo := 0) (hi := k) (s := (0, 1, 1, 0)) (body := fun _ (st : Nat × Nat × Nat × Nat) => do
          let x ← uaddB .wrapping st.2.1 st.2.2.1
          let sum ← uaddB .wrapping x st.2.2.2
          pure (sum, sum, st.2.1, st.2.2.1)) (by omega) ⟨rfl, rfl, rfl, by omega⟩ (by
          rintro i ⟨a, b, c, d⟩ _ hi ⟨h1, h2, h3, h4⟩
          simp only at h1 h2 h3 h4
          subst h1 h2 h3
          have e : ((trib0 (i + 2) % 2 ^ 64 + trib0 (i + 1) % 2 ^ 64) % 2 ^ 64 + trib0 i % 2 ^ 64) % 2 ^ 64 =
              trib0 (i + 1 + 2) % 2 ^ 64 := by
            rw [show i + 1 + 2 = i + 3 by omega, trib0_succ]
            omega
          simp only [uaddB_wrapping, ok_bind, pure_ok]
          exact ⟨_, rfl, e, rfl, rfl, fun _ => e⟩)
      rw [hs, ok_bind, h4 h0]; rfl

example := (C115_numbers 200).1 (by decide)

/-! ## Enumerations -/

/-- C115: `LyndonWordGenerator` over an alphabet of 1 to 256 letters gives in the release build exactly what it gives with
overflow checks: the Lyndon words up to the length, in increasing order, then nothing. -/
theorem C115_lyndon_generator_partial (n s : Nat) (hs : 0 < s) (hs' : s ≤ 256) :
    ∃ ws : List (List Nat), ws.Pairwise (· < ·) ∧
      (∀ w, w ∈ ws ↔ IsLyndon w ∧ w.length ≤ n ∧ ∀ c ∈ w, c < s) ∧
      ∀ k, runIter (LyndonWordGenerator.nextB .wrapping) k (LyndonWordGenerator.new n s) =
        .ok ((ws.map some ++ List.replicate k none).take k) := by
  obtain ⟨ws, h1, h2, h3⟩ := lwg_all (n := n) hs hs'
  refine ⟨ws, h1, h2, fun k => ?_⟩
  have hle : ∀ k (g : LyndonWordGenerator), Res.Le (runIter LyndonWordGenerator.next k g)
      (runIter (LyndonWordGenerator.nextB .wrapping) k g) := by
    intro k
    induction k with
    | zero => intro g; exact Res.Le.refl _
    | succ k ih =>
      intro g
      unfold runIter
      refine Res.Le.bind (lwgNextB_checked g ▸ Res.Le.lwgNextB g) fun p => ?_
      exact Res.Le.bind (ih _) fun _ => Res.Le.refl _
  exact hle k _ _ (h3 k)

example := C115_lyndon_generator_partial 5 256 (by decide) (by decide)

theorem lwgFill_zeros (n : Nat) (hn : 1 ≤ n) : lwgFill n 1 [0] = .ok (List.replicate n 0) := by
  obtain ⟨x, h1, h2, h3⟩ := whileLoop_inv
    (cond := fun stack : List Nat => (pure (decide (stack.length < n)) : Res Bool))
    (body := fun stack => do
      let p ← usub stack.length 1
      let c ← rd stack p
      pure (stack ++ [c]))
    (fun x : List Nat => ∃ j, x = List.replicate (j + 1) 0 ∧ j + 1 ≤ n) (fun x => n - x.length)
    (fuel := n + 1) (s := [0]) ⟨0, rfl, by omega⟩ (by simp) (by
      rintro _ ⟨j, rfl, hj⟩
      by_cases hc : j + 1 < n
      · right
        refine ⟨by simp [hc, pure_ok], List.replicate (j + 1 + 1) 0, ?_, ⟨j + 1, rfl, by omega⟩, by simp; omega⟩
        rw [usub_ok (by simp), ok_bind, rd_ok (by simp), ok_bind, pure_ok]
        simp only [List.getElem_replicate]
        rw [List.replicate_succ' (n := j + 1)]
      · left; simp [hc, pure_ok])
  obtain ⟨j, rfl, hj⟩ := h2
  simp [pure_ok] at h3
  unfold lwgFill
  rw [h1, show j + 1 = n by omega]

theorem lwgFill_full {n : Nat} {w : List Nat} (hw : w.length = n) (c : Nat) : lwgFill n c w = .ok w := by
  unfold lwgFill whileLoop
  simp [hw, pure_ok]

theorem lwgPopB_none {s : Nat} (hs : s = 0 ∨ 256 < s) {p : List Nat} {c : Nat} (hc : c < 256) :
    lwgPopB .wrapping s (p ++ [c]) = .ok (p ++ [c]) := by
  unfold lwgPopB whileLoop
  have hz : ∃ z, usubB .wrapping s 1 = .ok z ∧ c ≠ z := by
    unfold usubB
    split
    · exact ⟨_, rfl, by omega⟩
    · exact ⟨_, rfl, by omega⟩
  obtain ⟨z, h1, h2⟩ := hz
  simp only [List.getLast?_append, List.getLast?_singleton, Option.some_or, h1, ok_bind, pure_ok, h2, decide_false]
  rfl

/-- C115 is false as stated for the enumeration of Lyndon words without an alphabet or over more than 256 letters: in the
release build the iterator never ends, and from the second result on it counts through the bytes in the last position for ever
(so its results are not increasing and, from the 257th on, not all Lyndon words). -/
theorem C115_lyndon_generator_refuted (n s : Nat) (hn : 1 ≤ n) (hs : s = 0 ∨ 256 < s) (k : Nat) :
    runIter (LyndonWordGenerator.nextB .wrapping) (k + 1) (LyndonWordGenerator.new n s) =
      .ok (some [0] :: (List.range k).map fun t => some (List.replicate (n - 1) 0 ++ [(t + 1) % 256])) := by
  have step : ∀ t, LyndonWordGenerator.nextB .wrapping ⟨n, s, List.replicate (n - 1) 0 ++ [t % 256]⟩ =
      .ok (some (List.replicate (n - 1) 0 ++ [(t + 1) % 256]), ⟨n, s, List.replicate (n - 1) 0 ++ [(t + 1) % 256]⟩) := by
    intro t
    unfold LyndonWordGenerator.nextB
    rw [if_neg (by simp only; omega), if_neg (by simp)]
    simp only
    rw [lwgFill_full (by simp; omega), ok_bind, lwgPopB_none hs (Nat.mod_lt _ (by decide)), ok_bind]
    simp only [List.getLast?_append, List.getLast?_singleton, Option.some_or, List.dropLast_concat]
    have : u8addB .wrapping (t % 256) 1 = .ok ((t + 1) % 256) := by
      unfold u8addB
      split
      · congr 1; omega
      · simp only; congr 1; omega
    rw [this]; rfl
  have steps : ∀ k t, runIter (LyndonWordGenerator.nextB .wrapping) k ⟨n, s, List.replicate (n - 1) 0 ++ [t % 256]⟩ =
      .ok ((List.range' t k).map fun t => some (List.replicate (n - 1) 0 ++ [(t + 1) % 256])) := by
    intro k
    induction k with
    | zero => intro t; rfl
    | succ k ih =>
      intro t
      simp only [runIter, step, ok_bind, ih (t + 1), pure_ok, List.range'_succ, List.map_cons]
  have first : LyndonWordGenerator.nextB .wrapping (LyndonWordGenerator.new n s) = .ok (some [0], ⟨n, s, [0]⟩) := by
    unfold LyndonWordGenerator.nextB LyndonWordGenerator.new
    rw [if_neg (by simp only; omega), if_pos rfl]; rfl
  have second : LyndonWordGenerator.nextB .wrapping ⟨n, s, [0]⟩ =
      LyndonWordGenerator.nextB .wrapping ⟨n, s, List.replicate (n - 1) 0 ++ [0 % 256]⟩ := by
    have e : List.replicate n 0 = List.replicate (n - 1) 0 ++ [0 % 256] := by
      obtain ⟨n, rfl⟩ : ∃ m, n = m + 1 := ⟨n - 1, by omega⟩
      rw [List.replicate_succ']; rfl
    unfold LyndonWordGenerator.nextB
    rw [if_neg (by simp only; omega), if_neg (by simp), if_neg (by simp only; omega), if_neg (by simp)]
    simp only [List.length_singleton]
    rw [lwgFill_zeros n hn, lwgFill_full (by simp; omega), e]
  have := steps k 0
  cases k with
  | zero => simp only [runIter, first, ok_bind, pure_ok]; rfl
  | succ k =>
    simp only [runIter, step] at this
    simp only [runIter, first, ok_bind, second, step]
    rw [List.range_eq_range']
    simp only [ok_bind] at this
    cases hr : runIter (LyndonWordGenerator.nextB .wrapping) k ⟨n, s, List.replicate (n - 1) 0 ++ [(0 + 1) % 256]⟩ with
    | error e => rw [hr] at this; cases this
    | ok r =>
      rw [hr, ok_bind, pure_ok] at this
      injection this with this
      rw [ok_bind, pure_ok, ok_bind, pure_ok, this]

example := C115_lyndon_generator_refuted 3 0 (by decide) (Or.inl rfl) 300

theorem bsgB_next {len r : Nat} (hr : r < 18446744073709551615) :
    (⟨len, r⟩ : BinaryStringGenerator).nextB .wrapping =
      .ok (some ((List.range len).map (fun i => if r.testBit (i % 64) then (49 : UInt8) else 48)), ⟨len, r + 1⟩) := by
  unfold BinaryStringGenerator.nextB
  rw [if_neg (show ¬ r = 18446744073709551615 by omega)]
  rw [forRange_push0 (g := fun i => if r.testBit (i % 64) then (49 : UInt8) else 48)]
  · simp [pure_ok]
  · intro i w hi
    rw [shl1B_wrapping, ok_bind]
    simp only [pure_ok]
    congr 3
    rw [Nat.testBit_eq_decide_div_mod_eq]
    have h1 : r &&& 2 ^ (i % 64) = if r / 2 ^ (i % 64) % 2 = 1 then 2 ^ (i % 64) else 0 := by
      rw [Nat.and_two_pow, Nat.testBit_eq_decide_div_mod_eq]
      by_cases h : r / 2 ^ (i % 64) % 2 = 1 <;> simp [h]
    rw [h1]
    by_cases h : r / 2 ^ (i % 64) % 2 = 1
    · have := Nat.two_pow_pos (i % 64)
      simp [h]
    · simp [h]

/-- C115: what `BinaryStringGenerator` gives in the release build, for every length: call number `q` gives the string whose
symbol `i` is bit `i % 64` of `q`. -/
theorem C115_binary (len k : Nat) (hk : k ≤ 2 ^ 64 - 1) :
    runIter (BinaryStringGenerator.nextB .wrapping) k (BinaryStringGenerator.new len) =
      .ok ((List.range k).map fun q => some ((List.range len).map fun i => if q.testBit (i % 64) then 49 else 48)) := by
  have all : ∀ k r, r + k ≤ 18446744073709551615 → runIter (BinaryStringGenerator.nextB .wrapping) k ⟨len, r⟩ =
      .ok ((List.range' r k).map fun q => some ((List.range len).map fun i => if q.testBit (i % 64) then (49 : UInt8) else 48)) := by
    intro k
    induction k with
    | zero => intro r _; rfl
    | succ k ih =>
      intro r hr
      simp only [runIter, bsgB_next (show r < 18446744073709551615 by omega), ok_bind, ih (r + 1) (by omega), pure_ok,
        List.range'_succ, List.map_cons]
  rw [List.range_eq_range' (n := k)]
  exact all k 0 (by omega)

example := C115_binary 100 5 (by decide)

/-- C115 is false as stated for `BinaryStringGenerator` with a length above 64: in the release build every result repeats
its first 64 symbols, so that most strings of that length never appear (with overflow checks the first call panics, C37). -/
theorem C115_binary_refuted (len k : Nat) (hk : k ≤ 2 ^ 64 - 1) :
    ∃ ws, runIter (BinaryStringGenerator.nextB .wrapping) k (BinaryStringGenerator.new len) = .ok ws ∧ ws.length = k ∧
      ∀ o ∈ ws, ∃ w, o = some w ∧ w.length = len ∧ ∀ i, i + 64 < len → w[i + 64]? = w[i]? := by
  refine ⟨_, C115_binary len k hk, by simp, ?_⟩
  intro o ho
  obtain ⟨q, _, rfl⟩ := List.mem_map.1 ho
  refine ⟨_, rfl, by simp, ?_⟩
  intro i hi
  rw [List.getElem?_map, List.getElem?_map, List.getElem?_range hi, List.getElem?_range (by omega)]
  simp

example := C115_binary_refuted 100 5 (by decide)

/-- C115 is false as stated for the tool `lyndonwords` with more than 159 letters: in the release build the bytes printed wrap
around, and the lines are not increasing (with overflow checks the tool panics, C38). -/
theorem C115_lyndonwords_refuted :
    ∃ before after, (lyndonwordsLoopB .wrapping 161 (LyndonWordGenerator.new 1 160)) =
      (before ++ [255, 10, 0, 10] ++ after, .ok ()) := by
  refine ⟨(List.range 158).flatMap fun i => [UInt8.ofNat (97 + i), 10], [], ?_⟩
  decide +kernel

open Spec.Cli Model.Cli in
/-- C115 is false as stated for the tool `word`: built for release, `word -n period-doubling -k 66 -o F` succeeds and writes the
word of order 2, and in general `-k` with a number from 65 on writes the word of order `k % 64`, however the command line is
written. -/
theorem C115_word_tool_refuted (E : Env) (hm : E.m = .wrapping) (argv : List (List Char)) (occ : List (Field × Val))
    (h : Line wordArgs argv occ) (o : String) (ho : (Field.outfilename, Val.str o.toList) ∈ occ) (hc : E.creatable o = true)
    (k : Nat) (hk : (Field.k, Val.num k) ∈ occ) (hn : (Field.name, Val.word .periodDoubling) ∈ occ) (h64 : 64 ≤ k)
    (h1 : k % 64 ≠ 0) (h2 : k % 64 ≤ 62) (w : World) :
    ∃ w', wordCmd E.m E.usage E.creatable E.est E.fuel argv w = (w', .ok 0) ∧ Wrote w o (iter pdMor (k % 64) [97]) w' := by
  have run := wordCmd_line E h (out := some o) ho hk hn w
  have hw : wordOfB E.m E.est E.fuel .periodDoubling k = .ok (iter pdMor (k % 64) [97]) := by
    rw [hm]; exact (C115_wrong_words_refuted k h64).1 h1 h2
  refine ⟨(w.set o []).set o (iter pdMor (k % 64) [97]), ?_, rfl, by simp [World.set], fun n hn => by simp [World.set, hn]⟩
  rw [run]
  simp only [wordMainB, openOut, hc, if_true, hw, writeOut]
  simp [World.set, finish, Except.map]

open Spec.Cli Model.Cli in
example := C115_word_tool_refuted { demoEnv with m := .wrapping } rfl
  (cliWords ["-n", "period-doubling", "-k", "66", "-o", "out"]) [(.name, .word .periodDoubling), (.k, .num 66), (.outfilename, .str "out".toList)]
  ((C100_command_lines (by simp [tools]) (tool_ne (by decide +kernel)) _ _).1 rfl) "out" (by simp) rfl 66 (by simp) (by simp) (by decide) (by decide) (by decide) demoWorld

end Verif.Props
