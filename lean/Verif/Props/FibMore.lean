import Verif.Lemmas.FibAttractor
import Verif.Lemmas.FibBwt
import Verif.Lemmas.FibMus
import Verif.Props.Mus
import Verif.Props.Attractor
import Verif.Props.Fibonacci

/-! # Properties of the Fibonacci words that `koeppl/stringology-rust` only samples in its tests

C61: the number of runs in the BWT, `test_bwt_from_text_by_sa` (`src/tests/core_test.rs:33-42`, there for
the orders 2, 4, ..., 14).

C62: the minimal unique substrings, `test_mus_fibonacci` (`src/bin/mus.rs:121-134`, there for the orders 4 to
15).

C64: the string attractor of `test_attractor_fibonacci_attractor`
(`src/bin/is_stringattractor.rs:307-318`, there for the orders 3 to 15). -/

namespace Verif.Props

open Verif Spec Model

/-- C64, about the words themselves: for **every** order `k ≥ 2`, the two positions `|f_{k-1}| - 1` and
`|f_{k-1}| - 2` form a string attractor of the Fibonacci word `f_k`. -/
theorem C64_fibonacci_attractor (k : Nat) (hk : 2 ≤ k) :
    IsAttractor (fibWord k) [(fibWord (k - 1)).length - 1, (fibWord (k - 1)).length - 2] := by
  obtain ⟨n, rfl⟩ := Nat.exists_eq_add_of_le' hk
  exact fib_attractor n

example := C64_fibonacci_attractor 5 (by decide)

/-- C64, as the test of the repository says it: `fibonacci_word(i)` followed by the sentinel is accepted by
`is_attractor` with the positions `fibonacci_number(i-1)-1` and `fibonacci_number(i-1)-2`, for every order
`3 ≤ i ≤ 44` (for larger orders the word exceeds the 2^31 - 1 bytes that the suffix sorter takes). -/
theorem C64_test_holds (sufsort : List UInt8 → List Nat) (hs : SortsSuffixes sufsort) (i : Nat) (h3 : 3 ≤ i)
    (h44 : i ≤ 44) :
    ∃ T F, fibonacciWord (binet (i + 2)) i = .ok T ∧ fibonacciNumber (i - 1) = .ok F ∧ 2 ≤ F ∧
      isAttractor sufsort (T ++ [0]) [F - 1, F - 2] = .ok true := by
  refine ⟨fibWord i, Nat.fib (i - 1 + 2), C42_fibonacci_word_exact i (by omega),
    (C42_fibonacci_number (i - 1)).1 (by omega), ?_, ?_⟩
  · have : Nat.fib 3 ≤ Nat.fib (i - 1 + 2) := Nat.fib_mono (by omega)
    exact this
  have hF : Nat.fib (i - 1 + 2) ≤ Nat.fib (i + 2) := Nat.fib_mono (by omega)
  have h0 : fibWord i ≠ [] := by
    intro h
    have := fibWord_length i
    rw [h] at this
    have : 0 < Nat.fib (i + 2) := Nat.fib_pos.2 (by omega)
    simp_all
  have hlen : (fibWord i).length < 2147483647 := by
    rw [fibWord_length]
    have h46 : Nat.fib 46 = 1836311903 := by decide +kernel
    have : Nat.fib (i + 2) ≤ Nat.fib 46 := Nat.fib_mono (by omega)
    omega
  refine (C25_attractor_exact sufsort hs (fibWord i) h0 ?_ hlen _ ?_).1.2 ?_
  · intro x hx
    rcases fibWord_ab i x hx with rfl | rfl <;> decide
  · rw [fibWord_length]
    intro p hp
    simp only [List.mem_cons, List.not_mem_nil, or_false] at hp
    omega
  · rw [← fibWord_length]
    exact C64_fibonacci_attractor i (by omega)

example := C64_test_holds naiveSufsort naiveSufsort_sorts 20 (by decide) (by decide)

/-- Concrete case: order 4, `abaababa`, positions 4 and 3. -/
example : fibWord 4 = [97, 98, 97, 97, 98, 97, 98, 97] ∧
    [(fibWord 3).length - 1, (fibWord 3).length - 2] = [4, 3] ∧
    isAttractor naiveSufsort (fibWord 4 ++ [0]) [4, 3] = .ok true := by decide

/-- The positions matter: shifted by one they are no attractor. -/
example : isAttractor naiveSufsort (fibWord 4 ++ [0]) [5, 6] = .ok false := by decide

/-- The numbers of letters of a Fibonacci word. -/
theorem fibWord_count (k : Nat) : (fibWord k).count 97 = Nat.fib (k + 1) ∧ (fibWord k).count 98 = Nat.fib k := by
  induction k using fibWord.induct with
  | case1 => decide
  | case2 => decide
  | case3 n h1 h2 =>
    have e : fibWord n.succ.succ = fibWord (n + 1) ++ fibWord n := rfl
    have f1 := Nat.fib_add_two (n := n)
    have f2 := Nat.fib_add_two (n := n + 1)
    rw [show n + 1 + 1 = n + 2 from rfl] at *
    obtain ⟨a1, a2⟩ := h1
    obtain ⟨b1, b2⟩ := h2
    rw [e, List.count_append, List.count_append, show n.succ.succ + 1 = n + 1 + 2 from rfl,
      show n.succ.succ = n + 2 from rfl]
    omega

theorem fib_bwt_run (sufsort : List UInt8 → List Nat) (hs : SortsSuffixes sufsort) {k : Nat} (hk : k ≤ 44) :
    ∃ b, bwtFromTextBySa sufsort (fibWord k) = .ok b ∧ IsSuffixArray (fibWord k) (sufsort (fibWord k)) ∧
      b.map some = (sufsort (fibWord k)).map (fun i => (rot i (fibWord k)).getLast?) := by
  have hlen : (fibWord k).length < 2147483647 := by
    rw [fibWord_length]
    have h46 : Nat.fib 46 = 1836311903 := by decide +kernel
    have : Nat.fib (k + 2) ≤ Nat.fib 46 := Nat.fib_mono (by omega)
    omega
  have hne : fibWord k ≠ [] := by
    intro h
    have := fibWord_length k
    rw [h] at this
    have h2 : 0 < Nat.fib (k + 2) := Nat.fib_pos.2 (by omega)
    simp at this; omega
  obtain ⟨w, z, hw⟩ : ∃ w z, fibWord k = w ++ [z] :=
    ⟨(fibWord k).dropLast, (fibWord k).getLast hne, (List.dropLast_append_getLast hne).symm⟩
  have hab := fibWord_ab k
  have hsa := hs (fibWord k) (by omega)
  rw [hw] at hlen hab hsa ⊢
  obtain ⟨b, h1, h2⟩ := bwtFromTextBySa_ok hs (w := w) (z := z) (by
    intro x hx
    rcases hab x (List.mem_append_left _ hx) with rfl | rfl <;> decide) (by simp at hlen; omega)
  exact ⟨b, h1, hsa, h2⟩

/-- C61, as the repository's test says it, for all even orders `2i ≥ 2` the suffix sorter can handle: the
suffix-array BWT of `fibonacci_word(2i)` has exactly two runs; it is all `F(2i)` letters `b` followed by all
`F(2i+1)` letters `a`. -/
theorem C61_even_two_runs (sufsort : List UInt8 → List Nat) (hs : SortsSuffixes sufsort) (i : Nat) (h1 : 1 ≤ i)
    (h22 : i ≤ 22) :
    ∃ T b, fibonacciWord (binet (2 * i + 2)) (2 * i) = .ok T ∧ bwtFromTextBySa sufsort T = .ok b ∧
      b = List.replicate (Nat.fib (2 * i)) 98 ++ List.replicate (Nat.fib (2 * i + 1)) 97 ∧
      numberOfRuns (sliceReader b) = 2 := by
  obtain ⟨b, g1, g2, g3⟩ := fib_bwt_run sufsort hs (k := 2 * i) (by omega)
  obtain ⟨m, f1, f2, f3⟩ := fib_even_ctx i
  have hb := saBwt_ctx (fib_even_last i) g2 g3 f1 f2
  rw [f3, (fibWord_count _).1, (fibWord_count _).2] at hb
  refine ⟨_, b, C42_fibonacci_word_exact _ (by omega), g1, hb, ?_⟩
  rw [hb]
  have p1 : 0 < Nat.fib (2 * i) := Nat.fib_pos.2 (by omega)
  have p2 : 0 < Nat.fib (2 * i + 1) := Nat.fib_pos.2 (by omega)
  obtain ⟨x, hx⟩ := Nat.exists_eq_succ_of_ne_zero p1.ne'
  obtain ⟨y, hy⟩ := Nat.exists_eq_succ_of_ne_zero p2.ne'
  have rep : ∀ (c : UInt8) n l, switches c (List.replicate n c ++ l) = switches c l := by
    intro c n l
    induction n with
    | zero => rfl
    | succ n ih => rw [List.replicate_succ, List.cons_append, switches, ih]; simp
  rw [hx, hy, List.replicate_succ, List.cons_append, runs_switches, rep, List.replicate_succ, switches,
    ← List.append_nil (List.replicate y 97), rep]
  decide

example := C61_even_two_runs naiveSufsort naiveSufsort_sorts 9 (by decide) (by decide)

/-- C61, the comment of the test ("only for even"): for odd orders from 3 on there are at least four runs. -/
theorem C61_odd_four_runs (sufsort : List UInt8 → List Nat) (hs : SortsSuffixes sufsort) (i : Nat)
    (h20 : i ≤ 20) :
    ∃ T b, fibonacciWord (binet (2 * i + 3 + 2)) (2 * i + 3) = .ok T ∧ bwtFromTextBySa sufsort T = .ok b ∧
      4 ≤ numberOfRuns (sliceReader b) := by
  obtain ⟨b, g1, g2, g3⟩ := fib_bwt_run sufsort hs (k := 2 * i + 3) (by omega)
  exact ⟨_, b, C42_fibonacci_word_exact _ (by omega), g1, fib_odd_runs i g2 g3⟩

example := C61_odd_four_runs naiveSufsort naiveSufsort_sorts 9 (by decide)

/-- C61, about the words themselves, for **every** order: reading the letters before the suffixes of `f_{2i}`
in sorted order gives `b^F(2i) a^F(2i+1)`. -/
theorem C61_even_all_orders (i : Nat) (sa : List Nat) (hsa : IsSuffixArray (fibWord (2 * i)) sa) :
    sa.map (fun j => (rot j (fibWord (2 * i))).getLast?) =
      (List.replicate (Nat.fib (2 * i)) (98 : UInt8) ++ List.replicate (Nat.fib (2 * i + 1)) 97).map some := by
  have hne : fibWord (2 * i) ≠ [] := by
    intro h
    have := fib_even_last i
    rw [h] at this; simp at this
  obtain ⟨b, -, hb⟩ := bwtFromSa_ok hne hsa.1
  obtain ⟨m, f1, f2, f3⟩ := fib_even_ctx i
  rw [← hb, saBwt_ctx (fib_even_last i) hsa hb f1 f2, f3, (fibWord_count _).1, (fibWord_count _).2]

example := C61_even_all_orders 1 [2, 0, 1] (by unfold IsSuffixArray; decide +kernel)

/-- Concrete cases: orders 4 and 3. -/
example : bwtFromTextBySa naiveSufsort (fibWord 4) = .ok [98, 98, 98, 97, 97, 97, 97, 97] ∧
    bwtFromTextBySa naiveSufsort (fibWord 3) = .ok [98, 97, 98, 97, 97] := by decide

/-- C62, about the words themselves: a Fibonacci word of **every** order `n = k + 4 ≥ 4` has exactly two
minimal unique substrings, at the positions `|f_{n-2}| - 1` and `|f_{n-1}| - 1`, of the lengths `|f_{n-3}|` and
`|f_{n-2}|`. -/
theorem C62_fibonacci_mus (k i l : Nat) : IsMus (fibWord (k + 4)) i l ↔
    (i, l) = ((fibWord (k + 2)).length - 1, (fibWord (k + 1)).length) ∨
      (i, l) = ((fibWord (k + 3)).length - 1, (fibWord (k + 2)).length) :=
  fib_mus k i l

/-- C62, as the repository's test says it: what `get_mus` returns on the arrays of `fibonacci_word(i)` followed
by the sentinel (`get_mus_from_text`), for every order `4 ≤ i ≤ 44`. -/
theorem C62_test_holds (sufsort : List UInt8 → List Nat) (hs : SortsSuffixes sufsort) (i : Nat) (h4 : 4 ≤ i)
    (h44 : i ≤ 44) :
    ∃ T F1 F2 F3, fibonacciWord (binet (i + 2)) i = .ok T ∧ fibonacciNumber (i - 1) = .ok F1 ∧
      fibonacciNumber (i - 2) = .ok F2 ∧ fibonacciNumber (i - 3) = .ok F3 ∧
      musTool sufsort (T ++ [0]) = .ok [(F2 - 1, F3), (F1 - 1, F2)] := by
  obtain ⟨k, rfl⟩ := Nat.exists_eq_add_of_le' h4
  refine ⟨fibWord (k + 4), Nat.fib (k + 3 + 2), Nat.fib (k + 2 + 2), Nat.fib (k + 1 + 2),
    C42_fibonacci_word_exact _ (by omega), (C42_fibonacci_number _).1 (by omega),
    (C42_fibonacci_number _).1 (by omega), (C42_fibonacci_number _).1 (by omega), ?_⟩
  have hlen : (fibWord (k + 4)).length < 2147483647 := by
    rw [fibWord_length]
    have h46 : Nat.fib 46 = 1836311903 := by decide +kernel
    have : Nat.fib (k + 4 + 2) ≤ Nat.fib 46 := Nat.fib_mono (by omega)
    omega
  obtain ⟨isa, phi, plcp, lcp, r, g1, g2, g3, g4, g5, g6, g7⟩ := C23_get_mus_exact sufsort hs (fibWord (k + 4))
    (by intro x hx; rcases fibWord_ab _ x hx with rfl | rfl <;> decide) hlen
  have hr : musTool sufsort (fibWord (k + 4) ++ [0]) = .ok r := by
    simp only [musTool, g1, g2, g3, g4, ok_bind]
    exact g5
  rw [hr]
  congr 1
  rw [← fibWord_length, ← fibWord_length, ← fibWord_length]
  have hb1 := fib_two_le k
  have hb2 : 2 ≤ (fibWord (k + 2)).length := fib_two_le (k + 1)
  have hl3 : (fibWord (k + 3)).length = (fibWord (k + 2)).length + (fibWord (k + 1)).length := by
    rw [show fibWord (k + 3) = fibWord (k + 2) ++ fibWord (k + 1) from rfl]; simp
  refine List.Perm.eq_of_pairwise (le := fun a b => a.1 < b.1) (fun _ _ _ _ h h' => absurd h (by omega)) g6 ?_ ?_
  · simp; omega
  · refine (List.perm_ext_iff_of_nodup (g6.imp (fun h e => by rw [e] at h; exact lt_irrefl _ h)) ?_).2 ?_
    · simp; omega
    · rintro ⟨i, l⟩
      rw [g7, C62_fibonacci_mus]
      simp

example := C62_test_holds naiveSufsort naiveSufsort_sorts 20 (by decide) (by decide)

/-- Concrete case: order 5, `abaababaabaab`, with the minimal unique substrings `(4, 3)` and `(7, 5)`. -/
example : musTool naiveSufsort (fibWord 5 ++ [0]) = .ok [(4, 3), (7, 5)] := by decide +kernel

end Verif.Props
