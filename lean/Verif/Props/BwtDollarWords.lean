import Verif.Props.BwtWords
import Verif.Lemmas.BwtTmD5
import Verif.Lemmas.BwtVtmD
import Verif.Lemmas.BwtPdD2
import Verif.Lemmas.BwtFibD2
import Verif.Lemmas.BwtLyndonD

/-! # C117: the number of runs of the transform of the words of the generators with the sentinel

The default mode of `count_r` appends the zero byte before it transforms the text.  `BwtRuns` is in
`Verif/Spec/BwtRuns.lean`; the words are described in `Verif/Spec/Morphism.lean`. -/

namespace Verif.Props

open Verif Spec Spec.Cli Model Model.Cli

/-- C117, Thue–Morse words: `2 k + 1` runs up to order 3, `3 k - 2` from order 4 on. -/
theorem C117_thuemorse (k : Nat) (hk : 1 ≤ k) :
    BwtRuns (iter tmMor k [97] ++ [0]) (if k ≤ 3 then 2 * k + 1 else 3 * k - 2) := by
  match k, hk with
  | 1, _ =>
    refine bwtRuns_of (by decide) ?_
    rw [bw_of_matrix (m := [[0, 97, 98], [97, 98, 0], [98, 0, 97]]) (by decide +kernel) (by decide +kernel)]; rfl
  | 2, _ =>
    refine bwtRuns_of (by decide) ?_
    rw [bw_of_matrix (m := [[0, 97, 98, 98, 97], [97, 0, 97, 98, 98], [97, 98, 98, 97, 0], [98, 97, 0, 97, 98], [98, 98, 97, 0, 97]])
      (by decide +kernel) (by decide +kernel)]; rfl
  | 3, _ =>
    refine bwtRuns_of (by decide) ?_
    rw [bw_of_matrix (m := [[0, 97, 98, 98, 97, 98, 97, 97, 98], [97, 97, 98, 0, 97, 98, 98, 97, 98], [97, 98, 0, 97, 98, 98, 97, 98, 97],
      [97, 98, 97, 97, 98, 0, 97, 98, 98], [97, 98, 98, 97, 98, 97, 97, 98, 0], [98, 0, 97, 98, 98, 97, 98, 97, 97],
      [98, 97, 97, 98, 0, 97, 98, 98, 97], [98, 97, 98, 97, 97, 98, 0, 97, 98], [98, 98, 97, 98, 97, 97, 98, 0, 97]])
      (by decide +kernel) (by decide +kernel)]; rfl
  | k + 4, _ =>
    rw [if_neg (by omega)]
    exact bwtRuns_of (by simp) (tmD_runs (by omega))

example := C117_thuemorse 5 (by decide)

/-- C117, period-doubling words, every order from 1 on: `k + 2` runs up to order 3, `2 k - 1` from order 3 on. -/
theorem C117_period_doubling (k : Nat) (hk : 1 ≤ k) :
    BwtRuns (iter pdMor k [97] ++ [0]) (if k ≤ 3 then k + 2 else 2 * k - 1) := by
  match k, hk with
  | 1, _ =>
    refine bwtRuns_of (by decide) ?_
    rw [bw_of_matrix (m := [[0, 97, 98], [97, 98, 0], [98, 0, 97]]) (by decide +kernel) (by decide +kernel)]; rfl
  | 2, _ =>
    refine bwtRuns_of (by decide) ?_
    rw [bw_of_matrix (m := [[0, 97, 98, 97, 97], [97, 0, 97, 98, 97], [97, 97, 0, 97, 98], [97, 98, 97, 97, 0], [98, 97, 97, 0, 97]])
      (by decide +kernel) (by decide +kernel)]; rfl
  | 3, _ => exact bwtRuns_of (by simp) (pdD_runs (by omega))
  | k + 4, _ =>
    rw [if_neg (by omega)]
    exact bwtRuns_of (by simp) (pdD_runs (by omega))

example := C117_period_doubling 4 (by decide)

/-- C117, ternary Thue–Morse words, every order: `2 k + 2` runs. -/
theorem C117_vtm (k : Nat) : BwtRuns (iter vtmMor k [97] ++ [0]) (2 * k + 2) := by
  match k with
  | 0 =>
    refine bwtRuns_of (by decide) ?_
    rw [bw_of_matrix (m := [[0, 97], [97, 0]]) (by decide +kernel) (by decide +kernel)]; rfl
  | 1 =>
    refine bwtRuns_of (by decide) ?_
    rw [bw_of_matrix (m := [[0, 97, 98, 99], [97, 98, 99, 0], [98, 99, 0, 97], [99, 0, 97, 98]]) (by decide +kernel) (by decide +kernel)]; rfl
  | n + 2 =>
    obtain ⟨-, -, h2, -⟩ := vtmD_runs n
    exact bwtRuns_of (by simp) h2

/-- C117, Fibonacci words, every order from 2 on: four runs for every even order, and `k` runs for every odd order but 3.
So appending the sentinel keeps the number of runs constant for the even orders and makes it grow without bound along the odd
ones. -/
theorem C117_fibonacci (k : Nat) (hk : 2 ≤ k) :
    BwtRuns (fibWord k ++ [0]) (if k % 2 = 0 ∨ k = 3 then 4 else k) := by
  rw [fibWord_eq]
  rcases Nat.mod_two_eq_zero_or_one k with h | h
  · rw [if_pos (Or.inl h)]
    exact bwtRuns_of (by simp) (fibD_even hk h)
  · rcases Nat.lt_or_ge k 5 with h5 | h5
    · obtain rfl : k = 3 := by omega
      refine bwtRuns_of (by decide) ?_
      rw [bw_of_matrix (m := [[0, 97, 98, 97, 97, 98], [97, 97, 98, 0, 97, 98], [97, 98, 0, 97, 98, 97],
        [97, 98, 97, 97, 98, 0], [98, 0, 97, 98, 97, 97], [98, 97, 97, 98, 0, 97]]) (by decide +kernel) (by decide +kernel)]; rfl
    · rw [if_neg (by omega)]
      exact bwtRuns_of (by simp) (fibD_odd h5 h)

example := C117_fibonacci 7 (by decide)

/-- C117, any Lyndon word without the zero byte: with the sentinel the last column is the one of the word itself with the
sentinel inserted behind its first letter, so the number of runs grows by one or by two. -/
theorem C117_lyndon (w b : List UInt8) (hw : IsLyndon w) (h0 : 0 ∉ w) (hb : IsMatrixBwt w b) :
    IsMatrixBwt (w ++ [0]) (b.take 1 ++ [0] ++ b.drop 1) ∧
    ∀ r, BwtRuns w r → BwtRuns (w ++ [0]) (r + 1) ∨ BwtRuns (w ++ [0]) (r + 2) := by
  obtain ⟨x, t, h1, h2⟩ := lyndon_bw_dollar hw h0
  have hbe : b = x :: t := by
    rw [← h1]; exact map_some_inj ((isMatrixBwt_iff.1 hb).trans (isMatrixBwt_iff.1 (bw_spec hw.1)).symm)
  subst hbe
  have hs := bw_spec (w := w ++ [0]) (by simp)
  rw [h2] at hs
  refine ⟨by simpa using hs, ?_⟩
  rintro r ⟨-, hr⟩
  have hr' := hr _ _ hb (runsOf_isRuns _)
  rw [runsOf_length (by simp), ← nr_eq_changes (by simp)] at hr'
  have ht : 0 ∉ x :: t := by
    intro h
    rw [← h1, bw] at h
    obtain ⟨v, hv, hv0⟩ := List.mem_map.1 h
    have hp := row_perm hv
    have hne : v ≠ [] := fun e => hw.1 (by rw [e] at hp; exact hp.symm.eq_nil)
    obtain ⟨v', y, rfl⟩ := (List.eq_nil_or_concat' v).resolve_left hne
    rw [lastD_concat] at hv0
    exact h0 (hp.mem_iff.1 (by simp [hv0]))
  have hx : x ≠ 0 := fun h => ht (by simp [h])
  have key : nr (x :: 0 :: t) = r + 1 ∨ nr (x :: 0 :: t) = r + 2 := by
    cases t with
    | nil => left; subst hr'; simp [nr, hx]
    | cons y t =>
      have hy : y ≠ 0 := fun h => ht (by simp [h])
      simp only [nr, hx, hy.symm, if_false] at hr' ⊢
      split at hr' <;> omega
  rcases key with h | h
  · exact Or.inl (bwtRuns_of (by simp) (h2 ▸ h))
  · exact Or.inr (bwtRuns_of (by simp) (h2 ▸ h))

/-- C117, the Lyndon words `fibonacci-lyndonfactor`, every order from 1 on: four runs. -/
theorem C117_fibonacci_lyndon (k : Nat) (hk : 1 ≤ k) : BwtRuns (iter lyndonMor k [97, 98] ++ [0]) 4 := by
  have h2 := lyndon_bw k
  have h0 : 0 ∉ iter lyndonMor k [97, 98] := by
    obtain ⟨u, v, h1, h2⟩ := lyndon_conj k
    have hp : (iter lyndonMor k [97, 98]).Perm (fibWord (2 * k + 1)) := by rw [h1, h2]; exact List.perm_append_comm
    intro h
    rcases fibWord_ab _ _ (hp.mem_iff.1 h) with h | h <;> exact absurd h (by decide)
  obtain ⟨x, t, h3, h4⟩ := lyndon_bw_dollar (lfac_lyndon k) h0
  refine bwtRuns_of (by simp) ?_
  have h5 : x :: t = List.replicate (Nat.fib (2 * k + 1)) 98 ++ List.replicate (Nat.fib (2 * k + 2)) 97 := h3.symm.trans h2
  have h6 : 2 ≤ Nat.fib (2 * k + 1) := by
    have := Nat.fib_mono (show 3 ≤ 2 * k + 1 by omega)
    have e : Nat.fib 3 = 2 := rfl
    omega
  obtain ⟨n, hn⟩ : ∃ n, Nat.fib (2 * k + 1) = n + 1 + 1 := ⟨_, (Nat.sub_add_cancel (show 2 ≤ Nat.fib (2 * k + 1) by omega)).symm⟩
  have h8 := nr_two (m := n + 1) (n := Nat.fib (2 * k + 2)) (by omega) (Nat.fib_pos.2 (by omega))
  rw [hn, List.replicate_succ, List.cons_append, List.cons.injEq] at h5
  obtain ⟨rfl, rfl⟩ := h5
  refine (congrArg nr h4).trans ?_
  rw [show (98 : UInt8) :: 0 :: (List.replicate (n + 1) 98 ++ List.replicate (Nat.fib (2 * k + 2)) 97) =
    [98, 0] ++ (List.replicate (n + 1) 98 ++ List.replicate (Nat.fib (2 * k + 2)) 97) from rfl,
    nr_append_ne (by simp) (by simp), h8]
  · rfl
  · rw [head_append (head_replicate _ (by omega))]; decide

example := C117_fibonacci_lyndon 2 (by decide)

/-- `count_r` without flags, run on the file (or the standard input) that holds what a generator wrote, prints `length=` (of the
text with the sentinel) and `bwt_runs=` as given. -/
def ReportsRunsDefault (word : Res (List UInt8)) (length runs : Nat) : Prop :=
  ∃ t, word = .ok t ∧ ∀ (E : Env) (argv : List (List Char)) (occ : List (Field × Val)) (inn : Option String) (w : World),
    SortsSuffixes E.sufsort → Line countRArgs argv occ → StrIs occ .infilename inn → NumIs occ .prefixlength 0 0 →
    FlagIs occ .useMatrix false → FlagIs occ .noDollar false → Input inn 0 (delivered E.stdin) w t → PlainName inn →
      ∃ w' line, countRCmd E.m E.usage E.sufsort E.time argv (delivered E.stdin) w = (w', .ok 0) ∧ Printed w line w' ∧
        resultFields line = some
          [(ascii "algo", ascii "bwt"), (ascii "time_ms", decimal E.time), (ascii "length", decimal length),
            (ascii "bwt_runs", decimal runs), (ascii "file", printedName inn), (ascii "no_dollar", ascii "false"),
            (ascii "use_matrix", ascii "false")]

theorem reportsRunsDefault_of {word : Res (List UInt8)} {t : List UInt8} {n r : Nat} (hw : word = .ok t) (hn : t.length = n)
    (h0 : 0 < n) (hz : ∀ x ∈ t, x ≠ 0) (hlen : n < 2147483646) (hr : BwtRuns (t ++ [0]) r) :
    ReportsRunsDefault word (n + 1) r := by
  subst hn
  refine ⟨t, hw, fun E argv occ inn w hs hl hi hp hu hd hin hname => ?_⟩
  obtain ⟨⟨b, rs, hb, hrs, rfl⟩, -⟩ := hr
  exact C108_count_r E hs argv occ hl inn hi 0 hp false false hu hd w t hin hname (List.length_pos_iff.1 h0) hz hlen
    (Or.inl rfl) b hb rs hrs

/-- C117, the commands: what `count_r` without flags prints for the word of each generator, for every order whose word fits
the tool. -/
theorem C117_commands :
    (∀ k, 2 ≤ k → k ≤ 44 →
      ReportsRunsDefault (fibonacciWord (binet (k + 2)) k) (Nat.fib (k + 2) + 1) (if k % 2 = 0 ∨ k = 3 then 4 else k)) ∧
    (∀ k, 1 ≤ k → k ≤ 30 → ReportsRunsDefault (thuemorseWord k) (2 ^ k + 1) (if k ≤ 3 then 2 * k + 1 else 3 * k - 2)) ∧
    (∀ k, 1 ≤ k → k ≤ 30 → ReportsRunsDefault (periodDoublingWord k) (2 ^ k + 1) (if k ≤ 3 then k + 2 else 2 * k - 1)) ∧
    (∀ k fuel, 1 ≤ k → k ≤ 29 → 3 * 2 ^ k < fuel → ReportsRunsDefault (vtmWord fuel k) (3 * 2 ^ (k - 1) + 1) (2 * k + 2)) ∧
    (∀ k, 1 ≤ k → k ≤ 21 → ReportsRunsDefault (fibonacciLyndonfactor k) (Nat.fib (2 * k + 3) + 1) 4) := by
  have pow : ∀ {k : Nat}, k ≤ 30 → 2 ^ k < 2147483646 := fun {k} h => by
    have := Nat.pow_le_pow_right (show 0 < 2 by omega) h
    omega
  have nz : ∀ {x : UInt8}, IsAb x → x ≠ 0 := by rintro x (rfl | rfl) <;> decide
  have h46 : Nat.fib 46 = 1836311903 := by decide +kernel
  refine ⟨?_, ?_, ?_, ?_, ?_⟩
  · intro k h1 hk
    refine reportsRunsDefault_of (C42_fibonacci_word_exact k (by omega)) (fibWord_length k) (Nat.fib_pos.2 (by omega))
      (fun x hx => nz (fibWord_ab k x hx)) ?_ (C117_fibonacci k h1)
    have : Nat.fib (k + 2) ≤ Nat.fib 46 := Nat.fib_mono (by omega)
    omega
  · intro k h1 hk
    refine reportsRunsDefault_of (C43_thuemorse_morphism k (by omega)).1 ?_ (Nat.two_pow_pos k)
      (fun x hx => nz (tm_iter_ab k x hx)) (pow hk) (C117_thuemorse k h1)
    rw [iter_fixLetter tmMor_eq rfl]; simp
  · intro k h1 hk
    obtain ⟨w, h2, rfl, h4, -⟩ := C45_period_doubling k (by omega)
    exact reportsRunsDefault_of h2 h4 (Nat.two_pow_pos k) (fun x hx => nz (pd_iter_ab k x hx)) (pow hk) (C117_period_doubling k h1)
  · intro k fuel h1 hk hfuel
    have hl : (iter vtmMor k [97]).length = 3 * 2 ^ (k - 1) := by
      rw [vtm_iter, if_neg (by omega)]; simp
    have h2 : 2 ^ (k - 1) ≤ 2 ^ 28 := Nat.pow_le_pow_right (by omega) (by omega)
    have h3 : 2 ^ (k - 1) ≤ 2 ^ k := Nat.pow_le_pow_right (by omega) (by omega)
    have := Nat.two_pow_pos (k - 1)
    refine reportsRunsDefault_of (C51_vtm_word_partial k hk fuel (by omega)) hl (by omega) ?_ (by omega) (C117_vtm k)
    intro x hx
    rcases vtm_iter_abc k x hx with rfl | rfl | rfl <;> decide
  · intro k h1 hk
    obtain ⟨u, v, h2, h3⟩ := lyndon_conj k
    have hp : (iter lyndonMor k [97, 98]).Perm (fibWord (2 * k + 1)) := by rw [h2, h3]; exact List.perm_append_comm
    have : Nat.fib (2 * k + 3) ≤ Nat.fib 46 := Nat.fib_mono (by omega)
    refine reportsRunsDefault_of (lyndonfactor_ok (by omega)) (by rw [hp.length_eq, fibWord_length])
      (Nat.fib_pos.2 (by omega)) ?_ (by omega) (C117_fibonacci_lyndon k h1)
    intro x hx
    exact nz (fibWord_ab _ x (hp.mem_iff.1 hx))

/-- A Lyndon word that meets the hypotheses of `C117_lyndon`: `aab`, whose column is `baa`; with the sentinel `b$aa`. -/
example : IsMatrixBwt ([(97 : UInt8), 97, 98] ++ [0]) ([98] ++ [0] ++ [97, 97]) :=
  (C117_lyndon [97, 97, 98] [98, 97, 97] (by decide +kernel) (by decide)
    ⟨[[97, 97, 98], [97, 98, 97], [98, 97, 97]], ⟨by decide +kernel, by decide +kernel⟩, by decide⟩).1

/-- A command line that meets the hypotheses of `ReportsRunsDefault`. -/
example : ∃ occ, Line countRArgs (["-i", "f"].map String.toList) occ ∧ StrIs occ .infilename (some "f") ∧
    NumIs occ .prefixlength 0 0 ∧ FlagIs occ .useMatrix false ∧ FlagIs occ .noDollar false := by
  refine ⟨[(.infilename, .str ['f'])],
    (C100_command_lines (by simp [tools]) (tool_ne (by decide +kernel)) _ _).1 rfl, ?_⟩
  simp [StrIs, NumIs, FlagIs]

end Verif.Props
