import Verif.Lemmas.LyndonCount
import Verif.Props.Generators
import Verif.Props.StatsTable

/-!
# C95: how many Lyndon words there are

The numbers of words that the generator yields, that the tool prints and that the parallel program counts satisfy
`∑ d ∣ m, d * L d = s ^ m`, which determines them: `m * L m = ∑ d e = m, μ d * s ^ e`.
-/

namespace Verif.Props

open Verif Spec Model Par

/-- `L d` words of length `d` for each `d ≤ n`: the numbers of Lyndon words over `s` letters, given by the
decomposition of all words into powers, and by its Möbius inversion. -/
def LyndonNumbers (s n : Nat) (L : Nat → Nat) : Prop :=
  ∀ m, 1 ≤ m → m ≤ n →
    (∑ d ∈ m.divisors, d * L d) = s ^ m ∧
    ((m * L m : Nat) : Int) = ∑ x ∈ m.divisorsAntidiagonal, ArithmeticFunction.moebius x.1 * (s : Int) ^ x.2

theorem lyn_of_list {s n : Nat} {ws : List (List Nat)} (hn : ws.Pairwise (· < ·))
    (hm : ∀ w, w ∈ ws ↔ IsLyndon w ∧ w.length ≤ n ∧ ∀ c ∈ w, c < s) {d : Nat} (hd : d ≤ n) :
    (ws.filter fun w => decide (w.length = d)).length = (lyn s d).length := by
  apply List.Perm.length_eq
  rw [List.perm_ext_iff_of_nodup ((hn.imp (fun h => ne_of_lt h)).filter _) (lyn_nodup s d)]
  intro w
  rw [List.mem_filter, hm, mem_lyn, decide_eq_true_eq]
  constructor
  · rintro ⟨⟨h1, _, h3⟩, h4⟩; exact ⟨h1, h4, h3⟩
  · rintro ⟨h1, h2, h3⟩; exact ⟨⟨h1, by omega, h3⟩, h2⟩

theorem lyndonNumbers_of {s n : Nat} {L : Nat → Nat} (h : ∀ d, d ≤ n → L d = (lyn s d).length) :
    LyndonNumbers s n L := by
  intro m h1 h2
  rw [h m h2]
  refine ⟨?_, lyn_moebius h1⟩
  rw [← lyn_sum h1]
  refine Finset.sum_congr rfl fun d hd => ?_
  rw [h d (le_trans (Nat.divisor_le hd) h2)]

/-- C95 for the generator: the words it yields, and how many there are of each length. -/
theorem C95_generator (n s : Nat) (hs : 1 ≤ s) (hs' : s ≤ 256) :
    ∃ ws : List (List Nat),
      (∀ k, runIter LyndonWordGenerator.next k (LyndonWordGenerator.new n s) =
        .ok ((ws.map some ++ List.replicate k none).take k)) ∧
      LyndonNumbers s n (fun d => (ws.filter fun w => decide (w.length = d)).length) := by
  obtain ⟨ws, h1, h2, h3⟩ := C36_lyndon_words n s hs hs'
  exact ⟨ws, h3, lyndonNumbers_of fun d hd => lyn_of_list h1 h2 hd⟩

example := C95_generator 6 2 (by decide) (by decide)

/-- C95 for the tool: the numbers of lines of each length in the output of `lyndonwords -l n -s s`. -/
theorem C95_tool (n s : Nat) (hs : 1 ≤ s) (hs' : s ≤ 159) :
    ∃ out : List UInt8, (∃ k, ∀ fuel, k ≤ fuel → lyndonwordsLoop fuel (LyndonWordGenerator.new n s) = (out, .ok ())) ∧
      LyndonNumbers s n (fun d => ((terminated 10 out).filter fun w => decide (w.length = d)).length) := by
  obtain ⟨ws, h1, h2, h3⟩ := C36_lyndon_words n s hs (by omega)
  have hov : ∀ w ∈ ws, Over 159 w := fun w hw c hc => by
    have := ((h2 w).1 hw).2.2 c hc; omega
  refine ⟨(ws.map letters).flatMap (· ++ [10]), ⟨ws.length + 1, fun fuel hf => ?_⟩, lyndonNumbers_of fun d hd => ?_⟩
  · rw [lyndonwords_loop ws hov _ h3 fuel (by omega), List.flatMap_map]
  · rw [terminated_blocks _ (fun b hb => ?_), List.filter_map, List.length_map, ← lyn_of_list h1 h2 hd]
    · congr 2
      funext w
      simp [letters]
    · obtain ⟨w, hw, rfl⟩ := List.mem_map.1 hb
      intro h10
      have := letters_over (a := 159) (by omega) (hov w hw) 10 h10
      simp at this

example := C95_tool 6 2 (by decide) (by decide)

/-- C95 for the parallel program: the total of a finished run on words of length `L`, `1 ≤ L ≤ 24`, with any number of
workers and any schedule. -/
theorem C95_parallel (T L : Nat) (hT : 0 < T) (hL : 1 ≤ L) (hL' : L ≤ 24)
    (s : PState LyndonWordGenerator (List Nat) T) (hr : MainReachable L s) (hstop : ∀ t, s.pc t = .stopped) :
    ((L * s.total : Nat) : Int) =
      ∑ x ∈ L.divisorsAntidiagonal, ArithmeticFunction.moebius x.1 * (2 : Int) ^ x.2 := by
  rw [(C57_schedule_independent T L hT s hr hstop).1]
  have : {w | LyndonOfLength L w} = {w : List Nat | IsLyndon w ∧ w.length = L ∧ ∀ c ∈ w, c < 2} := by
    ext w
    simp only [Set.mem_ofPred_eq, LyndonOfLength]
    constructor
    · rintro ⟨h1, _, h3, h4⟩; exact ⟨h1, h4, h3⟩
    · rintro ⟨h1, h2, h3⟩
      refine ⟨h1, ?_, h3, h2⟩
      rw [h2]
      exact hL'
  rw [this, lyn_ncard]
  exact_mod_cast lyn_moebius (s := 2) hL

example := C95_parallel 3 6 (by decide) (by decide) (by decide) _ (C57_finishes 3 6).choose_spec.1 (C57_finishes 3 6).choose_spec.2

/-- For instance, of length 6 over two letters: `6 * 9 = 2 ^ 6 - 2 ^ 3 - 2 ^ 2 + 2`. -/
example : ∀ L, LyndonNumbers 2 6 L → L 6 = 9 := by
  intro L h
  have e1 := (h 1 (by omega) (by omega)).1
  have e2 := (h 2 (by omega) (by omega)).1
  have e3 := (h 3 (by omega) (by omega)).1
  have e6 := (h 6 (by omega) (by omega)).1
  rw [show (1 : Nat).divisors = {1} by decide] at e1
  rw [show (2 : Nat).divisors = {1, 2} by decide] at e2
  rw [show (3 : Nat).divisors = {1, 3} by decide] at e3
  rw [show (6 : Nat).divisors = {1, 2, 3, 6} by decide] at e6
  simp at e1 e2 e3 e6
  omega

example : ((runIter LyndonWordGenerator.next 30 (LyndonWordGenerator.new 6 2)).toOption.getD []).countP
    (fun w => decide (w.map List.length = some 6)) = 9 := by decide +kernel

end Verif.Props
