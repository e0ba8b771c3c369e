import Verif.Lemmas.Release
import Verif.Lemmas.Kol
import Verif.Lemmas.WordMore

/-! # What the generators return without overflow checks -/

namespace Verif

open Verif Model Spec

/-! ## Results of the basic operations -/

theorem bind_eq_ok {α β : Type} {x : Res α} {f : α → Res β} {b : β} (h : (x >>= f) = .ok b) :
    ∃ a, x = .ok a ∧ f a = .ok b := by
  cases x with
  | error e => cases h
  | ok a => exact ⟨a, rfl, h⟩

theorem zeroed_ret {n : Nat} {t : List UInt8} (h : zeroed n = .ok t) : n < 9223372036854775808 ∧ t = List.replicate n 0 := by
  unfold zeroed at h
  split at h
  · exact ⟨by assumption, by injection h with h; exact h.symm⟩
  · cases h

theorem wr_ret {α : Type} {l l' : List α} {i : Nat} {x : α} (h : wr l i x = .ok l') : i < l.length ∧ l' = l.set i x := by
  unfold wr at h
  split at h
  · exact ⟨by assumption, by injection h with h; exact h.symm⟩
  · cases h

/-! ## Fuel -/

theorem whileLoop_mono {σ : Type} {cond : σ → Res Bool} {body : σ → Res σ} {f : Nat} {s r : σ} (d : Nat)
    (h : whileLoop f cond body s = .ok r) : whileLoop (f + d) cond body s = .ok r := by
  induction f generalizing s with
  | zero => cases h
  | succ f ih =>
    rw [show f + 1 + d = f + d + 1 by omega]
    unfold whileLoop at h ⊢
    obtain ⟨b, hb, h⟩ := bind_eq_ok h
    rw [hb, ok_bind]
    cases b with
    | false => exact h
    | true =>
      simp only [if_true] at h ⊢
      obtain ⟨s', hs, h⟩ := bind_eq_ok h
      rw [hs, ok_bind]
      exact ih h

/-! ## Morphisms -/

theorem initialCapacityB_one (m : Build) (k : Nat) : initialCapacityB m k 1 = .ok () := rfl

theorem withStartB_ret {m : Build} {k h : Nat} {f : UInt8 → List UInt8} {s w : List UInt8}
    (hw : iterateGeneralMorphismWithStartsymbolB m k f h s = .ok w) : w = iter f k s := by
  unfold iterateGeneralMorphismWithStartsymbolB at hw
  obtain ⟨u, _, hw⟩ := bind_eq_ok hw
  have e := withStart_ok (rounds := k) (hint := 1) (f := f) (start := s) rfl
  unfold iterateGeneralMorphismWithStartsymbol at e
  rw [show initialCapacity k 1 = .ok () from rfl, ok_bind] at e
  rw [e] at hw
  injection hw with hw
  exact hw.symm

theorem generalB_ret {fuel k h : Nat} {f : UInt8 → List UInt8} {r w : List UInt8} (hf : Prolongable f 97 r)
    (hw : iterateGeneralMorphismB .wrapping fuel k f h = .ok w) : w = iter f k [97] := by
  have e1 := general_ok (rounds := k) (hint := 1) (fuel := fuel + ((iter f (k - 1) [97]).length + 1)) hf (Or.inr rfl) (by omega)
  have e2 : iterateGeneralMorphismB .wrapping (fuel + ((iter f (k - 1) [97]).length + 1)) k f 1 = .ok (iter f k [97]) :=
    Res.Le.generalB _ k f 1 _ e1
  rcases Nat.eq_zero_or_pos k with rfl | hk
  · unfold iterateGeneralMorphismB at hw
    rw [if_pos rfl] at hw
    injection hw with hw
    rw [← hw]; rfl
  · unfold iterateGeneralMorphismB at hw e2
    rw [if_neg (by omega)] at hw e2
    obtain ⟨u, _, hw⟩ := bind_eq_ok hw
    rw [initialCapacityB_one, ok_bind] at e2
    obtain ⟨e, he, hw⟩ := bind_eq_ok hw
    obtain ⟨s, hs, hw⟩ := bind_eq_ok hw
    dsimp only at e2
    rw [he, ok_bind, whileLoop_mono _ hs, ok_bind] at e2
    rw [hw] at e2
    injection e2

/-! ## Thue–Morse -/

theorem thuemorse_large {k : Nat} (hk : 63 ≤ k) {w : List UInt8} : thuemorseWordB .wrapping k ≠ .ok w := by
  intro h
  unfold thuemorseWordB at h
  obtain ⟨n, hn, h⟩ := bind_eq_ok h
  obtain ⟨t0, h0, h⟩ := bind_eq_ok h
  obtain ⟨t1, h1, h⟩ := bind_eq_ok h
  obtain ⟨a1, rfl⟩ := zeroed_ret h0
  obtain ⟨a2, rfl⟩ := wr_ret h1
  have hn' : n = 2 ^ (k % 64) := by
    unfold shl1B at hn
    split at hn
    · injection hn with hn; rw [← hn, Nat.mod_eq_of_lt (by assumption)]
    · injection hn with hn; exact hn.symm
  have hr : k % 64 < 63 := by
    by_contra hc
    have : k % 64 = 63 := by omega
    rw [this] at hn'
    omega
  have := forRange_ret (fun j (t : List UInt8) => t.length = n ∧ j ≤ k % 64) (by omega) (by simp) (by
    rintro j t t' _ hj ⟨i1, i2⟩ hb
    obtain ⟨p, hp, hb⟩ := bind_eq_ok hb
    have hp' : p = 2 ^ j := by
      unfold shl1B at hp
      rw [if_pos (by omega)] at hp
      injection hp with hp; exact hp.symm
    have := forRange_ret (fun i (t : List UInt8) => t.length = n ∧ (0 < i → p < n)) (by omega) (by simp [i1]) (by
      rintro i s s' _ hi ⟨l1, l2⟩ hb
      obtain ⟨c, _, hb⟩ := bind_eq_ok hb
      obtain ⟨g1, rfl⟩ := wr_ret hb
      exact ⟨by simp [l1], fun _ => by omega⟩) hb
    refine ⟨this.1, ?_⟩
    have hpn := this.2 (by rw [hp']; exact Nat.two_pow_pos _)
    rw [hp', hn'] at hpn
    exact (Nat.pow_lt_pow_iff_right (by omega)).1 hpn) h
  have h2 := this.2
  omega

/-! ## Kolakoski -/

theorem kolakoski_large {k : Nat} (hk : 61 ≤ k) (h255 : k < 256) {w : List UInt8} : kolakoskiWordB .wrapping k ≠ .ok w := by
  intro h
  rcases Nat.lt_or_ge k 62 with h61 | h62
  · obtain rfl : k = 61 := by omega
    revert h
    have : kolakoskiWordB .wrapping 61 = .error .alloc := by
      unfold kolakoskiWordB
      rw [u8addB, if_pos (by omega), ok_bind, kolakoskiEstimate, if_neg (by omega), if_pos (by omega), uaddB, if_pos (by omega),
        ok_bind, zeroed, if_neg (by omega)]
      rfl
    rw [this]; intro h; cases h
  · rcases Nat.lt_or_ge k 254 with h253 | h254
    · unfold kolakoskiWordB at h
      rw [u8addB, if_pos (by omega), ok_bind, kolakoskiEstimate, if_neg (by omega), if_neg (by omega), uaddB, if_neg (by omega)] at h
      obtain ⟨L, hL, h⟩ := bind_eq_ok h
      obtain rfl : L = 0 := by injection hL with hL; exact hL.symm
      obtain ⟨t, ht, h⟩ := bind_eq_ok h
      obtain ⟨_, rfl⟩ := zeroed_ret ht
      obtain ⟨t, ht, h⟩ := bind_eq_ok h
      have := (wr_ret ht).1
      simp at this
    · have hh : kolakoskiWordB .wrapping 254 = .error .index ∧ kolakoskiWordB .wrapping 255 = .error .index := by decide +kernel
      rcases (show k = 254 ∨ k = 255 by omega) with rfl | rfl
      · rw [hh.1] at h; cases h
      · rw [hh.2] at h; cases h

/-! ## Fibonacci -/

theorem fibStep_ret {L : Nat} {s s' : FibState} (h : FibInv L s) (hs : fibStep s = .ok s') :
    FibInv L s' ∧ s.target < s'.target ∧ s'.target ≤ s.target + 2 ∧ s'.previous = s.previous ∧ s'.current = s.current := by
  by_cases hL : s.target + 1 < L
  · obtain ⟨t, h1, h2⟩ := fibStep_ok h hL
    rw [h1] at hs
    injection hs with hs
    subst hs
    exact h2
  · obtain ⟨text, prev, cur, src, tgt⟩ := s
    obtain ⟨h1, h2, h3, h4, m, h5⟩ := h
    simp only at h1 h2 h3 h4 h5 hL
    have hget : text[src]? = some (text[src]'(by omega)) := by rw [List.getElem?_eq_getElem]
    have htake : text.take (src + 1) = text.take src ++ [text[src]'(by omega)] := by
      rw [List.take_add_one, hget]; rfl
    have hpre : text.take (src + 1) <+: iter fibMor m [97] := by
      refine List.IsPrefix.trans ?_ h5
      rw [List.prefix_take_iff]
      exact ⟨List.take_prefix _ _, by rw [List.length_take]; omega⟩
    have hpre2 := fib_img_prefix hpre
    simp only [fibStep, rd_some hget, ok_bind] at hs
    by_cases hc : text[src]'(by omega) = 97
    · rw [if_pos hc] at hs
      obtain ⟨t, ht, hs⟩ := bind_eq_ok hs
      obtain ⟨_, rfl⟩ := wr_ret ht
      obtain ⟨t, ht, hs⟩ := bind_eq_ok hs
      have := (wr_ret ht).1
      simp at this; omega
    · rw [if_neg hc] at hs
      obtain ⟨t, ht, hs⟩ := bind_eq_ok hs
      obtain ⟨hlt, rfl⟩ := wr_ret ht
      injection hs with hs
      subst hs
      have e1 : (text.set tgt 97).take (src + 1) = text.take (src + 1) := by
        rw [take_set_of_ge (by omega)]
      have e2 : (text.set tgt 97).take (tgt + 1) = (text.take (src + 1)).flatMap fibMor ++ [97] := by
        have a2 : (text.set tgt 97).take (tgt + 1) = text.take tgt ++ [97] := by
          exact set_take (by omega)
        rw [a2, h4, htake, List.flatMap_append]
        simp [fibMor, hc]
      refine ⟨⟨?_, ?_, ?_, ?_, ?_⟩, ?_, ?_, rfl, rfl⟩
      · simpa using h1
      · simp only; omega
      · simp only; omega
      · simp only [e1, e2]
      · exact ⟨m + 2, by simp only [e2]; exact hpre2⟩
      · simp only; omega
      · simp only; omega

theorem fibRound_ret {L i : Nat} {s s' : FibState} (hL : L < 9223372036854775808)
    (h : FibInv L s ∧ s.current = Nat.fib (i + 1) ∧ s.previous = Nat.fib i ∧ Nat.fib (i + 1) ≤ s.target ∧
      s.target ≤ Nat.fib (i + 1) + 1) (hs : fibRoundB .wrapping s = .ok s') :
    FibInv L s' ∧ s'.current = Nat.fib (i + 2) ∧ s'.previous = Nat.fib (i + 1) ∧ Nat.fib (i + 2) ≤ s'.target ∧
      s'.target ≤ Nat.fib (i + 2) + 1 := by
  obtain ⟨i1, i2, i3, i4, i5⟩ := h
  have he : Nat.fib (i + 1) + Nat.fib i = Nat.fib (i + 2) := by rw [Nat.fib_add_two, Nat.add_comm]
  have hm : Nat.fib i ≤ Nat.fib (i + 1) := Nat.fib_mono (by omega)
  have := i1.tgt
  unfold fibRoundB at hs
  rw [i2, i3, uaddB, he, if_pos (by omega), ok_bind] at hs
  obtain ⟨t, ht, hs⟩ := bind_eq_ok hs
  obtain ⟨⟨j1, j2, j3, j4⟩, hc⟩ := whileLoop_ret
    (fun t : FibState => FibInv L t ∧ t.target ≤ Nat.fib (i + 2) + 1 ∧ t.previous = s.previous ∧ t.current = s.current)
    ⟨i1, by omega, rfl, rfl⟩ (by
      rintro a b ⟨g1, g2, g3, g4⟩ hcond hb
      obtain ⟨l1, l2, l3, l4, l5⟩ := fibStep_ret g1 hb
      simp [pure_ok] at hcond
      exact ⟨l1, by omega, by rw [l4, g3], by rw [l5, g4]⟩) ht
  simp [pure_ok] at hc
  injection hs with hs
  subst hs
  exact ⟨⟨j1.len, j1.src, j1.tgt, j1.img, j1.pre⟩, rfl, by simp only [j4, i2], hc, j2⟩

theorem fibBufB_ret {L k : Nat} (hk : k < 255) {w : List UInt8} (h : fibonacciWordBufB .wrapping L k = .ok w) :
    w = iter fibMor k [97] := by
  unfold fibonacciWordBufB at h
  obtain ⟨t, ht, h⟩ := bind_eq_ok h
  obtain ⟨hL, rfl⟩ := zeroed_ret ht
  obtain ⟨t, ht, h⟩ := bind_eq_ok h
  obtain ⟨hL0, rfl⟩ := wr_ret ht
  simp at hL0
  rw [u8addB, if_pos (by omega), ok_bind] at h
  obtain ⟨s, hs, h⟩ := bind_eq_ok h
  obtain ⟨h2, h3, h4, h5⟩ := forRange_ret
    (fun i (s : FibState) => FibInv L s ∧ s.current = Nat.fib (i + 1) ∧ s.previous = Nat.fib i ∧
      Nat.fib (i + 1) ≤ s.target ∧ s.target ≤ Nat.fib (i + 1) + 1) (by omega)
    (by
      refine ⟨⟨by simp, by simp, by simp only; omega, ?_, 0, ?_⟩, rfl, rfl, by simp, by simp⟩
      · obtain ⟨L', rfl⟩ : ∃ L', L = L' + 1 := ⟨L - 1, by omega⟩
        simp [List.replicate_succ]
      · obtain ⟨L', rfl⟩ : ∃ L', L = L' + 1 := ⟨L - 1, by omega⟩
        simp [List.replicate_succ, iter])
    (fun i s s' _ _ hi hb => fibRound_ret hL hi hb) hs
  injection h with h
  rw [← h, h3]
  obtain ⟨m, hm⟩ := h2.pre
  have a1 : s.text.take (Nat.fib (k + 2)) <+: iter fibMor (max m k) [97] := by
    refine List.IsPrefix.trans ?_ (hm.trans (fibMor_prolongable.prefix_le (le_max_left m k)))
    rw [List.prefix_take_iff]
    exact ⟨List.take_prefix _ _, le_trans (List.length_take_le _ _) h5.1⟩
  have a2 : iter fibMor k [97] <+: iter fibMor (max m k) [97] := fibMor_prolongable.prefix_le (le_max_right m k)
  have a3 : (iter fibMor k [97]).length = Nat.fib (k + 2) := by rw [← fibWord_eq, fibWord_length]
  have a4 : (s.text.take (Nat.fib (k + 2))).length = Nat.fib (k + 2) := by
    have := h2.tgt
    have h51 : Nat.fib (k + 2) ≤ s.target := h5.1
    rw [List.length_take, h2.len]; omega
  rw [List.prefix_iff_eq_take] at a1 a2
  rw [a1, a2, a3, a4]

end Verif
