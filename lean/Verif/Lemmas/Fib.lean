import Verif.Lemmas.Uniform
import Mathlib.Data.Nat.Fib.Basic
import Mathlib.NumberTheory.Real.GoldenRatio

/-! # Fibonacci words -/

namespace Verif
open Spec Model

theorem fibMor_prolongable : Prolongable fibMor 97 [98] :=
  ⟨rfl, by simp, fun c => by unfold fibMor; split <;> simp⟩

theorem iter_fib_succ (k : Nat) : iter fibMor (k + 2) [97] = iter fibMor (k + 1) [97] ++ iter fibMor k [97] := by
  rw [iter_succ_singleton fibMor (k + 1) 97, show fibMor 97 = [97] ++ [98] from rfl, iter_append,
    iter_succ_singleton fibMor k 98]
  rfl

theorem fibWord_eq (k : Nat) : fibWord k = iter fibMor k [97] := by
  induction k using Nat.strong_induction_on with
  | _ k ih =>
    match k, ih with
    | 0, _ => rfl
    | 1, _ => rfl
    | k + 2, ih => rw [fibWord, ih (k + 1) (by omega), ih k (by omega), iter_fib_succ]

theorem fibWord_length (k : Nat) : (fibWord k).length = Nat.fib (k + 2) := by
  induction k using Nat.strong_induction_on with
  | _ k ih =>
    match k, ih with
    | 0, _ => rfl
    | 1, _ => rfl
    | k + 2, ih =>
      rw [fibWord, List.length_append, ih (k + 1) (by omega), ih k (by omega), Nat.fib_add_two (n := k + 2),
        Nat.add_comm]

theorem fibonacciNumber_ok {k : Nat} (hk : k ≤ 91) : fibonacciNumber k = .ok (Nat.fib (k + 2)) := by
  unfold fibonacciNumber
  rcases Nat.eq_zero_or_pos k with rfl | hk0
  · rfl
  · rw [if_neg (by omega), u8add, if_pos (by omega), ok_bind]
    obtain ⟨w, h1, h2, h3, h4⟩ := forRange_inv
      (fun i (st : Nat × Nat × Nat) => st.2.1 = Nat.fib (i + 1) ∧ st.2.2 = Nat.fib i ∧ (0 < i → st.1 = Nat.fib (i + 1)))
      (lo := 0) (hi := k + 1) (s := (1, 1, 0)) (body := fun _ (st : Nat × Nat × Nat) => do
        let sum ← uadd st.2.1 st.2.2
        pure (sum, sum, st.2.1)) (by omega) ⟨rfl, rfl, by omega⟩ (by
        rintro i ⟨a, b, c⟩ _ hi ⟨h1, h2, h3⟩
        simp only at h1 h2 h3
        subst h1 h2
        have hf : Nat.fib (i + 2) ≤ Nat.fib 93 := Nat.fib_mono (by omega)
        have h93 : Nat.fib 93 = 12200160415121876738 := by decide +kernel
        have he : Nat.fib (i + 1) + Nat.fib i = Nat.fib (i + 2) := by rw [Nat.fib_add_two, Nat.add_comm]
        refine ⟨(Nat.fib (i + 2), Nat.fib (i + 2), Nat.fib (i + 1)), ?_, rfl, rfl, fun _ => rfl⟩
        simp only [uadd]
        rw [he, if_pos (by omega)]; rfl)
    rw [h1, ok_bind, h4 (by omega)]; rfl

theorem forRange_split {σ : Type} {lo mid hi : Nat} {s : σ} {body : Nat → σ → Res σ} (h1 : lo ≤ mid) (h2 : mid ≤ hi) :
    forRange lo hi s body = forRange lo mid s body >>= fun s => forRange mid hi s body := by
  unfold forRange
  rw [← List.foldlM_append]
  congr 1
  rw [show mid - lo = mid - lo from rfl, show hi - lo = (mid - lo) + (hi - mid) by omega,
    ← List.range'_append, show lo + 1 * (mid - lo) = mid by omega]

theorem fibonacciNumber_err {k : Nat} (hk : 92 ≤ k) : fibonacciNumber k = .error .arith := by
  unfold fibonacciNumber
  rw [if_neg (by omega), u8add]
  split
  · rw [ok_bind, forRange_split (mid := 93) (by omega) (by omega)]
    have h : forRange 0 93 (1, 1, 0) (fun _ (st : Nat × Nat × Nat) => do
        let sum ← uadd st.2.1 st.2.2
        pure (sum, sum, st.2.1)) = .error .arith := by decide +kernel
    rw [h]; rfl
  · rfl

/-! ### The in-place construction -/

/-- What the buffer contains: the text is one letter longer than the image of the part already read, and is
a prefix of an iterate. -/
structure FibInv (L : Nat) (s : FibState) : Prop where
  len : s.text.length = L
  src : s.source < s.target
  tgt : s.target ≤ L
  img : s.text.take s.target = (s.text.take s.source).flatMap fibMor ++ [97]
  pre : ∃ m, s.text.take s.target <+: iter fibMor m [97]

theorem take_set_of_ge {β : Type} {l : List β} {n m : Nat} {x : β} (h : m ≤ n) : (l.set n x).take m = l.take m :=
  List.take_set_of_le h

/-- An image followed by `a` is a prefix of an iterate. -/
theorem fib_img_prefix {S : List UInt8} {m : Nat} (h : S <+: iter fibMor m [97]) :
    S.flatMap fibMor ++ [97] <+: iter fibMor (m + 2) [97] := by
  have h1 : S <+: iter fibMor (m + 1) [97] := h.trans (fibMor_prolongable.prefix m)
  have hlt : S.length < (iter fibMor (m + 1) [97]).length :=
    lt_of_le_of_lt h.length_le (fibMor_prolongable.length_lt m)
  obtain ⟨t, ht⟩ := h1
  rcases t with _ | ⟨c, t⟩
  · rw [← ht] at hlt; simp at hlt
  · rw [iter, ← ht, List.flatMap_append, List.flatMap_cons]
    have hc : ∃ r, fibMor c = [97] ++ r := by
      unfold fibMor; split
      · exact ⟨[98], rfl⟩
      · exact ⟨[], rfl⟩
    obtain ⟨r, hr⟩ := hc
    exact ⟨r ++ t.flatMap fibMor, by rw [hr]; simp⟩

theorem fibStep_ok {L : Nat} {s : FibState} (h : FibInv L s) (hL : s.target + 1 < L) :
    ∃ s', fibStep s = .ok s' ∧ FibInv L s' ∧ s.target < s'.target ∧ s'.target ≤ s.target + 2 ∧
      s'.previous = s.previous ∧ s'.current = s.current := by
  obtain ⟨text, prev, cur, src, tgt⟩ := s
  obtain ⟨h1, h2, h3, h4, m, h5⟩ := h
  simp only at h1 h2 h3 h4 h5 hL
  have hget : text[src]? = some (text[src]'(by omega)) := by rw [List.getElem?_eq_getElem]
  have htake : text.take (src + 1) = text.take src ++ [text[src]'(by omega)] := by
    rw [List.take_add_one, hget]; rfl
  have hpre : text.take (src + 1) <+: iter fibMor m [97] := by
    refine List.IsPrefix.trans ?_ h5
    rw [List.prefix_take_iff]
    exact ⟨List.take_prefix _ _, by rw [List.length_take]; omega⟩
  have hpre2 := fib_img_prefix hpre
  simp only [fibStep, rd_some hget, ok_bind]
  by_cases hc : text[src]'(by omega) = 97
  · rw [if_pos hc, wr_ok (by omega), ok_bind, wr_ok (by simp; omega), ok_bind]
    have e1 : ((text.set tgt 98).set (tgt + 1) 97).take (src + 1) = text.take (src + 1) := by
      rw [take_set_of_ge (by omega), take_set_of_ge (by omega)]
    have e2 : ((text.set tgt 98).set (tgt + 1) 97).take (tgt + 2) =
        (text.take (src + 1)).flatMap fibMor ++ [97] := by
      have a1 : ((text.set tgt 98).set (tgt + 1) 97).take (tgt + 2) = (text.set tgt 98).take (tgt + 1) ++ [97] := by
        rw [List.take_add_one, take_set_of_ge (le_refl _)]; simp [h1, hL]
      have a2 : (text.set tgt 98).take (tgt + 1) = text.take tgt ++ [98] := by
        exact set_take (by omega)
      rw [a1, a2, h4, htake, List.flatMap_append, hc]
      simp [fibMor]
    refine ⟨_, rfl, ⟨?_, ?_, ?_, ?_, ?_⟩, ?_, ?_, rfl, rfl⟩
    · simpa using h1
    · simp only; omega
    · simp only; omega
    · simp only [e1, e2]
    · exact ⟨m + 2, by simp only [e2]; exact hpre2⟩
    · simp only; omega
    · simp only; omega
  · rw [if_neg hc, wr_ok (by omega), ok_bind]
    have e1 : (text.set tgt 97).take (src + 1) = text.take (src + 1) := by
      rw [take_set_of_ge (by omega)]
    have e2 : (text.set tgt 97).take (tgt + 1) = (text.take (src + 1)).flatMap fibMor ++ [97] := by
      have a2 : (text.set tgt 97).take (tgt + 1) = text.take tgt ++ [97] := by
        exact set_take (by omega)
      rw [a2, h4, htake, List.flatMap_append]
      simp [fibMor, hc]
    refine ⟨_, rfl, ⟨?_, ?_, ?_, ?_, ?_⟩, ?_, ?_, rfl, rfl⟩
    · simpa using h1
    · simp only; omega
    · simp only; omega
    · simp only [e1, e2]
    · exact ⟨m + 2, by simp only [e2]; exact hpre2⟩
    · simp only; omega
    · simp only; omega

theorem fibWhile_ok {L new : Nat} {s : FibState} (h : FibInv L s) (hs : s.target ≤ new + 1) (hL : new < L) :
    ∃ s', whileLoop (new + 1) (fun s => pure (decide (s.target < new))) fibStep s = .ok s' ∧ FibInv L s' ∧
      new ≤ s'.target ∧ s'.target ≤ new + 1 ∧ s'.previous = s.previous ∧ s'.current = s.current := by
  obtain ⟨s', h1, ⟨j1, j2, j3, j4⟩, hc⟩ := whileLoop_inv
    (cond := fun (s : FibState) => (pure (decide (s.target < new)) : Res Bool)) (body := fibStep)
    (fun t : FibState => FibInv L t ∧ t.target ≤ new + 1 ∧ t.previous = s.previous ∧ t.current = s.current)
    (fun t => new - t.target) (fuel := new + 1) (s := s) ⟨h, hs, rfl, rfl⟩ (by omega)
    (by
      rintro t ⟨i1, i2, i3, i4⟩
      by_cases hlt : t.target < new
      · right
        obtain ⟨t', g1, g2, g3, g4, g5, g6⟩ := fibStep_ok i1 (by omega)
        exact ⟨by simp [hlt, pure_ok], t', g1, ⟨g2, by omega, by rw [g5, i3], by rw [g6, i4]⟩, by omega⟩
      · left; simp [hlt, pure_ok])
  simp [pure_ok] at hc
  exact ⟨s', h1, j1, hc, j2, j3, j4⟩

theorem fibBuf_ok {L k : Nat} (hk : k ≤ 90) (hL : Nat.fib (k + 2) < L) (hL2 : L < 9223372036854775808) :
    fibonacciWordBuf L k = .ok (iter fibMor k [97]) := by
  unfold fibonacciWordBuf
  have hL0 : 1 < L := by
    have : 0 < Nat.fib (k + 2) := Nat.fib_pos.2 (by omega)
    omega
  rw [zeroed, if_pos hL2, ok_bind, wr_ok (by simp; omega), ok_bind, u8add, if_pos (by omega), ok_bind]
  obtain ⟨s, h1, h2, h3, h4, h5⟩ := forRange_inv
    (fun i (s : FibState) => FibInv L s ∧ s.current = Nat.fib (i + 1) ∧ s.previous = Nat.fib i ∧
      Nat.fib (i + 1) ≤ s.target ∧ s.target ≤ Nat.fib (i + 1) + 1)
    (lo := 0) (hi := k + 1) (s := ⟨(List.replicate L 0).set 0 97, 0, 1, 0, 1⟩)
    (body := fun _ s => fibRound s) (by omega)
    (by
      refine ⟨⟨by simp, by simp, by simp only; omega, ?_, 0, ?_⟩, rfl, rfl, by simp, by simp⟩
      · obtain ⟨L', rfl⟩ : ∃ L', L = L' + 1 := ⟨L - 1, by omega⟩
        simp [List.replicate_succ]
      · obtain ⟨L', rfl⟩ : ∃ L', L = L' + 1 := ⟨L - 1, by omega⟩
        simp [List.replicate_succ, iter])
    (by
      rintro i s _ hi ⟨i1, i2, i3, i4, i5⟩
      have hf : Nat.fib (i + 2) ≤ Nat.fib (k + 2) := Nat.fib_mono (by omega)
      have he : Nat.fib (i + 1) + Nat.fib i = Nat.fib (i + 2) := by rw [Nat.fib_add_two, Nat.add_comm]
      have hmono : Nat.fib (i + 1) ≤ Nat.fib (i + 2) := Nat.fib_mono (by omega)
      unfold fibRound
      rw [i2, i3, uadd, he, if_pos (by omega), ok_bind]
      obtain ⟨s', g1, g2, g3, g4, g5, g6⟩ := fibWhile_ok (new := Nat.fib (i + 2)) i1 (by omega) (by omega)
      rw [g1, ok_bind]
      exact ⟨_, rfl, ⟨g2.len, g2.src, g2.tgt, g2.img, g2.pre⟩, rfl, by simp only [g6, i2], g3, g4⟩)
  rw [h1, ok_bind, h3]
  obtain ⟨m, hm⟩ := h2.pre
  rw [pure_ok]
  congr 1
  have a1 : s.text.take (Nat.fib (k + 2)) <+: iter fibMor (max m k) [97] := by
    refine List.IsPrefix.trans ?_ (hm.trans (fibMor_prolongable.prefix_le (le_max_left m k)))
    rw [List.prefix_take_iff]
    exact ⟨List.take_prefix _ _, le_trans (List.length_take_le _ _) h5.1⟩
  have a2 : iter fibMor k [97] <+: iter fibMor (max m k) [97] := fibMor_prolongable.prefix_le (le_max_right m k)
  have a3 : (iter fibMor k [97]).length = Nat.fib (k + 2) := by rw [← fibWord_eq, fibWord_length]
  have a4 : (s.text.take (Nat.fib (k + 2))).length = Nat.fib (k + 2) := by
    rw [List.length_take, h2.len]; omega
  rw [List.prefix_iff_eq_take] at a1 a2
  rw [a1, a2, a3, a4]

end Verif
