import Verif.Lemmas.Kol

/-! # C44: Kolakoski words -/

namespace Verif.Props
open Spec Model

/-- C44: for `k ≤ 60`, `kolakoski_word(k)` runs without panic (so no index leaves the buffer, and `set_len`
stays within it): order 0 gives `bb`; every word consists of `a` and `b` and starts with `bb`; the word of
order `k+1` consists of maximal runs whose lengths spell the word of order `k` (`a` = 1, `b` = 2); and each
word is a prefix of the word of the next order. -/
theorem C44_kolakoski :
    ∃ w : Nat → List UInt8, (∀ k, k ≤ 60 → kolakoskiWord k = .ok (w k)) ∧ w 0 = [98, 98] ∧
      ∀ k, (∀ c ∈ w k, c = 97 ∨ c = 98) ∧ [98, 98] <+: w k ∧ w k <+: w (k + 1) ∧
        ((w (k + 1)).splitBy (· == ·)).map List.length = (w k).map (fun c => if c = 97 then 1 else 2) := by
  refine ⟨kol, fun k hk => kolakoski_ok hk, rfl, fun k => ⟨kol_letters k, ?_, kol_prefix k, ?_⟩⟩
  · obtain ⟨t, ht⟩ := kol_start k
    exact ⟨t, by rw [ht]; rfl⟩
  · show ((expand 98 (kol k)).splitBy (· == ·)).map List.length = _
    rw [expand_runs, blocks_lengths]; rfl

/-- C44: the run lengths of each word spell a prefix of the word itself, which has as many letters as the
word has runs. -/
theorem C44_self_reading (k : Nat) (hk : k ≤ 60) :
    ∃ w, kolakoskiWord k = .ok w ∧ ∃ p, p <+: w ∧
      (w.splitBy (· == ·)).map List.length = p.map (fun c => if c = 97 then 1 else 2) := by
  refine ⟨kol k, kolakoski_ok hk, ?_⟩
  cases k with
  | zero => exact ⟨[98], ⟨[98], rfl⟩, by decide +kernel⟩
  | succ k =>
    refine ⟨kol k, kol_prefix k, ?_⟩
    show ((expand 98 (kol k)).splitBy (· == ·)).map List.length = _
    rw [expand_runs, blocks_lengths]; rfl

example := C44_self_reading 20 (by decide)

/-- C44: the words grow: order `k` has between `k + 2` and `2^(k+1)` letters. -/
theorem C44_length (k : Nat) (hk : k ≤ 60) :
    ∃ w, kolakoskiWord k = .ok w ∧ k + 2 ≤ w.length ∧ w.length ≤ 2 ^ (k + 1) := by
  refine ⟨kol k, kolakoski_ok hk, ?_, kol_length_le k⟩
  clear hk
  induction k with
  | zero => decide
  | succ k ih =>
    obtain ⟨t, ht⟩ := kol_start k
    have := expand98_length_lt ht
    rw [kol]; omega

example := C44_length 20 (by decide)

/-- C44, limit: every order from 61 on panics (the buffer cannot be allocated, or the arithmetic
overflows). -/
theorem C44_limit (k : Nat) (hk : 61 ≤ k) :
    kolakoskiWord k = .error .alloc ∨ kolakoskiWord k = .error .arith := by
  unfold kolakoskiWord u8add
  by_cases h : k + 2 < 256
  · rw [if_pos h, ok_bind]
    by_cases h2 : k = 61
    · subst h2; left; decide +kernel
    · right
      rw [kolakoskiEstimate, if_neg (by omega), if_neg (by omega), uadd, if_neg (by omega)]; rfl
  · right; rw [if_neg h]; rfl

example := C44_limit 61 (by decide)

example : kolakoskiWord 3 = .ok [98, 98, 97, 97, 98, 97, 98, 98, 97] := by decide +kernel

end Verif.Props
