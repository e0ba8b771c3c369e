import Verif.Spec.BwtRuns
import Verif.Lemmas.BwtFibWord
import Verif.Props.CliCommands
import Verif.Props.Fibonacci
import Verif.Props.WordMore
import Verif.Props.WordUniform
import Verif.Lemmas.Overlap

/-! # C109: the number of runs of the Burrows-Wheeler transform of the words of the generators

`BwtRuns` is in `Verif/Spec/BwtRuns.lean`; the words are described in `Verif/Spec/Morphism.lean`. -/

namespace Verif.Props

open Verif Spec Spec.Cli Model Model.Cli

theorem bwtRuns_of {t : List UInt8} {r : Nat} (h0 : t ≠ []) (h : nr (bw t) = r) : BwtRuns t r := by
  have hb := bw_spec h0
  have hne : bw t ≠ [] := by
    intro e
    rw [isMatrixBwt_iff] at hb
    have := congrArg List.length hb
    rw [e] at this
    simp only [List.map_nil, List.length_nil, List.length_map] at this
    rw [(matrix_spec t).1.length_eq, List.length_map, List.length_range] at this
    exact h0 (List.eq_nil_of_length_eq_zero this.symm)
  have hr : (runsOf (bw t)).length = r := by rw [runsOf_length hne, ← nr_eq_changes hne, h]
  refine ⟨⟨bw t, runsOf (bw t), hb, runsOf_isRuns _, hr⟩, fun b rs h1 h2 => ?_⟩
  have : b = bw t := map_some_inj ((isMatrixBwt_iff.1 h1).trans (isMatrixBwt_iff.1 hb).symm)
  subst this
  rw [h2.eq, hr]

/-- C109, Thue–Morse words, every order from 1 on: `2 k` runs. -/
theorem C109_thuemorse (k : Nat) (hk : 1 ≤ k) : BwtRuns (iter tmMor k [97]) (2 * k) := by
  obtain ⟨n, rfl⟩ := Nat.exists_eq_add_of_le' hk
  obtain ⟨h1, -, -, -, h2, -⟩ := tm_runs n
  exact bwtRuns_of (fun h => by rw [h] at h1; simp at h1) h2

example := C109_thuemorse 3 (by decide)

/-- C109, period-doubling words, every order from 2 on: `2 (k - 1)` runs. -/
theorem C109_period_doubling (k : Nat) (hk : 2 ≤ k) : BwtRuns (iter pdMor k [97]) (2 * (k - 1)) := by
  obtain ⟨n, rfl⟩ := Nat.exists_eq_add_of_le' hk
  obtain ⟨_, _, -, -, -, -, -, -, -, -, h1, -⟩ := pd_runs n
  exact bwtRuns_of (fun h => by rw [h] at h1; simp at h1) (pd_nr n)

example := C109_period_doubling 3 (by decide)

/-- C109, ternary Thue–Morse words, every order: `2 k + 1` runs. -/
theorem C109_vtm (k : Nat) : BwtRuns (iter vtmMor k [97]) (2 * k + 1) := by
  match k with
  | 0 =>
    refine bwtRuns_of (by decide) ?_
    rw [bw_of_matrix (m := [[97]]) (by decide +kernel) (by decide +kernel)]; rfl
  | 1 =>
    refine bwtRuns_of (by decide) ?_
    rw [bw_of_matrix (m := [[97, 98, 99], [98, 99, 97], [99, 97, 98]]) (by decide +kernel) (by decide +kernel)]; rfl
  | n + 2 =>
    obtain ⟨h1, -, h2, -⟩ := vtm_runs n
    exact bwtRuns_of (fun h => by rw [h] at h1; simp at h1) h2

/-- C109, Fibonacci words, every order from 1 on: the transform is `b^F(k) a^F(k+1)`, so 2 runs. -/
theorem C109_fibonacci (k : Nat) (hk : 1 ≤ k) :
    IsMatrixBwt (fibWord k) (List.replicate (Nat.fib k) 98 ++ List.replicate (Nat.fib (k + 1)) 97) ∧ BwtRuns (fibWord k) 2 := by
  obtain ⟨n, rfl⟩ := Nat.exists_eq_add_of_le' hk
  obtain ⟨h1, h2⟩ := fibWord_bw n
  have hne : fibWord (n + 1) ≠ [] := fun h => by rw [h] at h1; simp at h1
  refine ⟨h2 ▸ bw_spec hne, bwtRuns_of hne ?_⟩
  rw [h2]
  exact nr_two (Nat.fib_pos.2 (by omega)) (Nat.fib_pos.2 (by omega))

example := C109_fibonacci 4 (by decide)

/-- C109, the Lyndon words `fibonacci-lyndonfactor`, every order: the transform is `b^F(2k+1) a^F(2k+2)`, so 2 runs. -/
theorem C109_fibonacci_lyndon (k : Nat) :
    IsMatrixBwt (iter lyndonMor k [97, 98])
      (List.replicate (Nat.fib (2 * k + 1)) 98 ++ List.replicate (Nat.fib (2 * k + 2)) 97) ∧
    BwtRuns (iter lyndonMor k [97, 98]) 2 := by
  have h2 := lyndon_bw k
  have hne : iter lyndonMor k [97, 98] ≠ [] := by
    obtain ⟨u, v, h3, h4⟩ := lyndon_conj k
    have h1 := (fibWord_bw (2 * k)).1
    intro h
    rw [h3] at h
    obtain ⟨rfl, rfl⟩ := List.append_eq_nil_iff.1 h
    rw [h4] at h1
    simp at h1
  refine ⟨h2 ▸ bw_spec hne, bwtRuns_of hne ?_⟩
  rw [h2]
  exact nr_two (Nat.fib_pos.2 (by omega)) (Nat.fib_pos.2 (by omega))

/-- `count_r --use-matrix --no-dollar`, run on the file (or the standard input) that holds what a generator wrote, prints
`length=` and `bwt_runs=` as given. -/
def ReportsRuns (word : Res (List UInt8)) (length runs : Nat) : Prop :=
  ∃ t, word = .ok t ∧ ∀ (E : Env) (argv : List (List Char)) (occ : List (Field × Val)) (inn : Option String) (w : World),
    SortsSuffixes E.sufsort → Line countRArgs argv occ → StrIs occ .infilename inn → NumIs occ .prefixlength 0 0 →
    FlagIs occ .useMatrix true → FlagIs occ .noDollar true → Input inn 0 (delivered E.stdin) w t → PlainName inn →
      ∃ w' line, countRCmd E.m E.usage E.sufsort E.time argv (delivered E.stdin) w = (w', .ok 0) ∧ Printed w line w' ∧
        resultFields line = some
          [(ascii "algo", ascii "bwt"), (ascii "time_ms", decimal E.time), (ascii "length", decimal length),
            (ascii "bwt_runs", decimal runs), (ascii "file", printedName inn), (ascii "no_dollar", ascii "true"),
            (ascii "use_matrix", ascii "true")]

theorem reportsRuns_of {word : Res (List UInt8)} {t : List UInt8} {n r : Nat} (hw : word = .ok t) (hn : t.length = n)
    (h0 : 0 < n) (hz : ∀ x ∈ t, x ≠ 0) (hlen : n < 2147483646) (hr : BwtRuns t r) : ReportsRuns word n r := by
  subst hn
  refine ⟨t, hw, fun E argv occ inn w hs hl hi hp hu hd hin hname => ?_⟩
  obtain ⟨⟨b, rs, hb, hrs, rfl⟩, -⟩ := hr
  exact C108_count_r E hs argv occ hl inn hi 0 hp true true hu hd w t hin hname (List.length_pos_iff.1 h0) hz hlen
    (Or.inl rfl) b hb rs hrs

theorem lyndonfactor_ok {k : Nat} (hk : k ≤ 29) : fibonacciLyndonfactor k = .ok (iter lyndonMor k [97, 98]) := by
  unfold fibonacciLyndonfactor
  rw [i32SizeHint_ok hk, ok_bind]
  exact withStart_ok (capacity_ok hk)

/-- C109, the commands: what `count_r --use-matrix --no-dollar` prints for the word of each generator, for every order
whose word fits the tool. -/
theorem C109_commands :
    (∀ k, 1 ≤ k → k ≤ 44 → ReportsRuns (fibonacciWord (binet (k + 2)) k) (Nat.fib (k + 2)) 2) ∧
    (∀ k, 1 ≤ k → k ≤ 30 → ReportsRuns (thuemorseWord k) (2 ^ k) (2 * k)) ∧
    (∀ k, 2 ≤ k → k ≤ 30 → ReportsRuns (periodDoublingWord k) (2 ^ k) (2 * (k - 1))) ∧
    (∀ k fuel, 1 ≤ k → k ≤ 29 → 3 * 2 ^ k < fuel → ReportsRuns (vtmWord fuel k) (3 * 2 ^ (k - 1)) (2 * k + 1)) ∧
    (∀ k, k ≤ 21 → ReportsRuns (fibonacciLyndonfactor k) (Nat.fib (2 * k + 3)) 2) := by
  have pow : ∀ {k : Nat}, k ≤ 30 → 2 ^ k < 2147483646 := fun {k} h => by
    have := Nat.pow_le_pow_right (show 0 < 2 by omega) h
    omega
  have nz : ∀ {x : UInt8}, IsAb x → x ≠ 0 := by rintro x (rfl | rfl) <;> decide
  have h46 : Nat.fib 46 = 1836311903 := by decide +kernel
  refine ⟨?_, ?_, ?_, ?_, ?_⟩
  · intro k h1 hk
    refine reportsRuns_of (C42_fibonacci_word_exact k (by omega)) (fibWord_length k) (Nat.fib_pos.2 (by omega))
      (fun x hx => nz (fibWord_ab k x hx)) ?_ (C109_fibonacci k h1).2
    have : Nat.fib (k + 2) ≤ Nat.fib 46 := Nat.fib_mono (by omega)
    omega
  · intro k h1 hk
    refine reportsRuns_of (C43_thuemorse_morphism k (by omega)).1 ?_ (Nat.two_pow_pos k)
      (fun x hx => nz (tm_iter_ab k x hx)) (pow hk) (C109_thuemorse k h1)
    rw [iter_fixLetter tmMor_eq rfl]; simp
  · intro k h1 hk
    obtain ⟨w, h2, rfl, h4, -⟩ := C45_period_doubling k (by omega)
    exact reportsRuns_of h2 h4 (Nat.two_pow_pos k) (fun x hx => nz (pd_iter_ab k x hx)) (pow hk) (C109_period_doubling k h1)
  · intro k fuel h1 hk hfuel
    have hl : (iter vtmMor k [97]).length = 3 * 2 ^ (k - 1) := by
      rw [vtm_iter, if_neg (by omega)]; simp
    have h2 : 2 ^ (k - 1) ≤ 2 ^ 28 := Nat.pow_le_pow_right (by omega) (by omega)
    have h3 : 2 ^ (k - 1) ≤ 2 ^ k := Nat.pow_le_pow_right (by omega) (by omega)
    have := Nat.two_pow_pos (k - 1)
    refine reportsRuns_of (C51_vtm_word_partial k hk fuel (by omega)) hl (by omega) ?_ (by omega) (C109_vtm k)
    intro x hx
    rcases vtm_iter_abc k x hx with rfl | rfl | rfl <;> decide
  · intro k hk
    obtain ⟨u, v, h1, h2⟩ := lyndon_conj k
    have hp : (iter lyndonMor k [97, 98]).Perm (fibWord (2 * k + 1)) := by rw [h1, h2]; exact List.perm_append_comm
    have : Nat.fib (2 * k + 3) ≤ Nat.fib 46 := Nat.fib_mono (by omega)
    refine reportsRuns_of (lyndonfactor_ok (by omega)) (by rw [hp.length_eq, fibWord_length])
      (Nat.fib_pos.2 (by omega)) ?_ (by omega) (C109_fibonacci_lyndon k).2
    intro x hx
    exact nz (fibWord_ab _ x (hp.mem_iff.1 hx))

/-- Concrete cases: the transform of `abbabaab` is `bbababaa`, six runs; that of `abaaabab` (order 3) is `babbaaaa`, four
runs. -/
example : bwtByMatrix naiveSufsort [97, 98, 98, 97, 98, 97, 97, 98] = .ok [98, 98, 97, 98, 97, 98, 97, 97] ∧
    iter tmMor 3 [97] = [97, 98, 98, 97, 98, 97, 97, 98] ∧
    bwtByMatrix naiveSufsort [97, 98, 97, 97, 97, 98, 97, 98] = .ok [98, 97, 98, 98, 97, 97, 97, 97] ∧
    iter pdMor 3 [97] = [97, 98, 97, 97, 97, 98, 97, 98] := by decide +kernel

/-- A command line that meets the hypotheses of `ReportsRuns`. -/
example : ∃ occ, Line countRArgs (["-un", "-i", "f"].map String.toList) occ ∧ StrIs occ .infilename (some "f") ∧
    NumIs occ .prefixlength 0 0 ∧ FlagIs occ .useMatrix true ∧ FlagIs occ .noDollar true := by
  refine ⟨[(.useMatrix, .on), (.noDollar, .on), (.infilename, .str ['f'])],
    (C100_command_lines (by simp [tools]) (tool_ne (by decide +kernel)) _ _).1 rfl, ?_⟩
  simp [StrIs, NumIs, FlagIs]

end Verif.Props
