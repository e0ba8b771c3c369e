import Verif.Spec.RleZero
import Verif.Props.Streams
import Verif.Props.Mains

/-! # C33: exactly what `rle_zero` writes -/

namespace Verif.Props

open Verif Spec Model

theorem rleZeroLoop_delivered (m : Build) (r : Reader) (cnt : UInt8) :
    rleZeroLoop m r cnt = rleZeroLoop m (sliceReader (delivered r)) cnt := by
  induction r generalizing cnt with
  | nil => rfl
  | cons e r ih =>
    cases e with
    | eof => simp [rleZeroLoop, delivered, sliceReader]
    | err => simp [rleZeroLoop, delivered, sliceReader]
    | byte c =>
      have e : sliceReader (delivered (.byte c :: r)) = .byte c :: sliceReader (delivered r) := rfl
      rw [e]
      simp only [rleZeroLoop]
      split
      · split
        · rw [ih]
        · rw [ih]
      · congr 1
        funext n
        exact ih n

theorem rleZero_loop (m : Build) (r : Reader) :
    rleZero m r = rleZeroLoop m (sliceReader (delivered r)) 0 := by
  rw [← rleZeroLoop_delivered]
  cases r with
  | nil => rfl
  | cons e r =>
    cases e with
    | eof => rfl
    | err => rfl
    | byte c =>
      simp only [rleZero, readChar, rleZeroLoop]
      by_cases hc : c = 48
      · rw [if_pos hc, if_neg (by simpa using hc), incU8_ok (by decide)]; rfl
      · rw [if_neg hc, if_pos hc, if_pos trivial]

theorem rleZeroLoop_run (m : Build) (t : List UInt8) (j : Nat) (cnt : UInt8) (h : cnt.toNat + j ≤ 255) :
    rleZeroLoop m (sliceReader (List.replicate j 48 ++ t)) cnt =
      rleZeroLoop m (sliceReader t) (UInt8.ofNat (cnt.toNat + j)) := by
  induction j generalizing cnt with
  | zero => simp
  | succ j ih =>
    rw [List.replicate_succ, List.cons_append]
    have e : ∀ l, sliceReader ((48 : UInt8) :: l) = .byte 48 :: sliceReader l := fun _ => rfl
    rw [e, rleZeroLoop, if_neg (by simp), incU8_ok (by omega)]
    simp only [andThen]
    rw [ih (cnt + 1) (by rw [toNat_succ (by omega)]; omega), toNat_succ (by omega)]
    congr 2
    omega

theorem ofNat_toNat_small {j : Nat} (h : j ≤ 255) : (UInt8.ofNat j).toNat = j := by
  rw [UInt8.toNat_ofNat', Nat.mod_eq_of_lt (by omega)]

theorem ofNat_inj_small {i j : Nat} (hi : i ≤ 255) (hj : j ≤ 255) (h : UInt8.ofNat i = UInt8.ofNat j) : i = j := by
  rw [← ofNat_toNat_small hi, ← ofNat_toNat_small hj, h]

theorem ofNat_sub_one {j : Nat} (h1 : 1 ≤ j) (h : j ≤ 255) : UInt8.ofNat j - 1 = UInt8.ofNat (j - 1) := by
  apply UInt8.toNat_inj.1
  rw [UInt8.toNat_sub_of_le]
  · rw [ofNat_toNat_small h, ofNat_toNat_small (by omega)]; rfl
  · rw [UInt8.le_iff_toNat_le, ofNat_toNat_small h]; exact h1

/-- C33, exact output (1): if no run of `'0'` is longer than 255, both builds write what `ZeroEncoded` says. -/
theorem C33_exact_partial (m : Build) (r : Reader) (o : List UInt8) (h : ZeroEncoded (delivered r) o) :
    rleZero m r = (o, .ok ()) := by
  rw [rleZero_loop]
  generalize delivered r = t at h
  induction h with
  | nil => rfl
  | @letter c t o hc _ ih =>
    have e : sliceReader (c :: t) = .byte c :: sliceReader t := rfl
    rw [e, rleZeroLoop, if_pos hc, if_pos rfl, ih]; rfl
  | @run j c t o hj hj' hc _ ih =>
    rw [rleZeroLoop_run m _ j 0 (by simpa using hj')]
    have e : sliceReader (c :: t) = .byte c :: sliceReader t := rfl
    have e0 : (0 : UInt8).toNat + j = j := by simp
    rw [e, rleZeroLoop, if_pos hc, e0, if_neg, ofNat_sub_one hj hj', ih]
    · have : (UInt8.ofNat (j - 1)) < 255 := by
        rw [UInt8.lt_iff_toNat_lt, ofNat_toNat_small (by omega)]
        show j - 1 < 255
        omega
      rw [decide_eq_true this]
      rfl
    · intro h0
      have := congrArg UInt8.toNat h0
      rw [ofNat_toNat_small hj'] at this
      simp at this; omega
  | @last j hj hj' =>
    have := rleZeroLoop_run m [] j 0 (by simpa using hj')
    rw [List.append_nil] at this
    rw [this]
    have e0 : (0 : UInt8).toNat + j = j := by simp
    rw [e0]
    simp only [sliceReader, List.map_nil, rleZeroLoop, rleZeroEnd]
    rw [if_pos]
    · rfl
    · rw [gt_iff_lt, UInt8.lt_iff_toNat_lt, ofNat_toNat_small hj']; exact hj

example : rleZero .wrapping (sliceReader [97, 48, 48, 98, 99, 48]) = ([97, 48, 1, 99, 48, 1], .ok ()) :=
  C33_exact_partial .wrapping (sliceReader [97, 48, 48, 98, 99, 48]) [97, 48, 1, 99, 48, 1]
    (.letter (by decide) (.run (j := 2) (by decide) (by decide) (by decide) (.letter (by decide) (.last (j := 1) (by decide) (by decide)))))

/-- A run of `'0'` and what follows. -/
theorem split_run (t : List UInt8) : ∃ j, t = List.replicate j 48 ∨ ∃ c u, c ≠ 48 ∧ t = List.replicate j 48 ++ c :: u := by
  induction t with
  | nil => exact ⟨0, Or.inl rfl⟩
  | cons c t ih =>
    by_cases hc : c = 48
    · subst hc
      obtain ⟨j, h | ⟨d, u, hd, h⟩⟩ := ih
      · exact ⟨j + 1, Or.inl (by rw [h]; rfl)⟩
      · exact ⟨j + 1, Or.inr ⟨d, u, hd, by rw [h]; rfl⟩⟩
    · exact ⟨0, Or.inr ⟨c, t, hc, rfl⟩⟩

theorem run_bound {n j : Nat} {u : List UInt8} (h : ¬ List.replicate n 48 <:+: List.replicate j 48 ++ u) : j < n := by
  by_contra hj
  apply h
  obtain ⟨d, rfl⟩ : ∃ d, j = n + d := ⟨j - n, by omega⟩
  exact ⟨[], List.replicate d 48 ++ u, by rw [List.replicate_add, List.nil_append, List.append_assoc]⟩

/-- C33, exact output (2): `ZeroEncoded` covers every text without 256 consecutive bytes `'0'`; so `rle_zero` can be
understood from it. -/
theorem C33_covers_partial (t : List UInt8) (h : ¬ List.replicate 256 48 <:+: t) : ∃ o, ZeroEncoded t o := by
  induction hn : t.length using Nat.strong_induction_on generalizing t with
  | _ n ih =>
    obtain ⟨j, e | ⟨c, u, hc, e⟩⟩ := split_run t
    · have hj : j ≤ 255 := Nat.le_of_lt_succ (run_bound (u := []) (by rw [List.append_nil, ← e]; exact h))
      rcases Nat.eq_zero_or_pos j with rfl | h0
      · exact ⟨[], by rw [e]; exact .nil⟩
      · exact ⟨_, by rw [e]; exact .last h0 hj⟩
    · have hj : j ≤ 255 := Nat.le_of_lt_succ (run_bound (by rw [← e]; exact h))
      have hu : ¬ List.replicate 256 48 <:+: u := fun hu =>
        h (hu.trans ⟨List.replicate j 48 ++ [c], [], by rw [e]; simp⟩)
      obtain ⟨o, ho⟩ := ih u.length (by rw [← hn, e]; simp; omega) u hu rfl
      rcases Nat.eq_zero_or_pos j with rfl | h0
      · exact ⟨_, by rw [e]; exact .letter hc ho⟩
      · exact ⟨_, by rw [e]; exact .run h0 hj hc ho⟩

example := C33_covers_partial [97, 48, 48, 98, 99, 48] (fun h => absurd h.length_le (by rw [List.length_replicate]; decide))

/-- C33, exact output (3): on a longer run the debug build panics. -/
theorem C33_long_run_partial (r : Reader) (h : List.replicate 256 48 <:+: delivered r) :
    (rleZero .checked r).2 = .error .arith := by
  rw [rleZero_loop]
  generalize delivered r = t at h
  obtain ⟨a, b, rfl⟩ := h
  have key : ∀ (a : List UInt8) (cnt : UInt8),
      (rleZeroLoop .checked (sliceReader (a ++ List.replicate 256 48 ++ b)) cnt).2 = .error .arith := by
    intro a
    induction a with
    | nil =>
      intro cnt
      have hc : cnt.toNat < 256 := cnt.toNat_lt
      have e : List.replicate 256 (48 : UInt8) = List.replicate (255 - cnt.toNat) 48 ++ 48 :: List.replicate cnt.toNat 48 := by
        rw [← List.replicate_succ, ← List.replicate_add]
        congr 1; omega
      rw [List.nil_append, e, List.append_assoc, rleZeroLoop_run _ _ _ _ (by omega)]
      have e2 : cnt.toNat + (255 - cnt.toNat) = 255 := by omega
      rw [e2]
      rfl
    | cons c a ih =>
      intro cnt
      have e : sliceReader (c :: a ++ List.replicate 256 48 ++ b) =
        .byte c :: sliceReader (a ++ List.replicate 256 48 ++ b) := rfl
      rw [e, rleZeroLoop]
      split
      · split
        · exact ih _
        · rename_i h0
          have hlt : cnt - 1 < 255 := by
            have : (1 : UInt8) ≤ cnt := by
              rw [UInt8.le_iff_toNat_le]
              have : cnt.toNat ≠ 0 := fun e => h0 (UInt8.toNat_inj.1 e)
              show 1 ≤ cnt.toNat
              omega
            rw [UInt8.lt_iff_toNat_lt, UInt8.toNat_sub_of_le _ _ this]
            have := cnt.toNat_lt
            show cnt.toNat - 1 < 255
            omega
          rw [decide_eq_true hlt]
          exact ih _
      · unfold incU8
        split
        · exact ih _
        · rfl
  exact key a 0

example := C33_long_run_partial (sliceReader (97 :: List.replicate 256 48)) (by
  rw [delivered_slice]
  exact ⟨[97], [], by rw [List.append_nil]; rfl⟩)

theorem repl_inj {i j : Nat} {c d : UInt8} {s t : List UInt8} (hc : c ≠ 48) (hd : d ≠ 48)
    (h : List.replicate i 48 ++ c :: s = List.replicate j 48 ++ d :: t) : i = j ∧ c = d ∧ s = t := by
  induction i generalizing j with
  | zero =>
    cases j with
    | zero => simpa using h
    | succ j => simp [List.replicate_succ] at h; exact absurd h.1 hc
  | succ i ih =>
    cases j with
    | zero => simp [List.replicate_succ] at h; exact absurd h.1.symm hd
    | succ j =>
      rw [List.replicate_succ, List.replicate_succ, List.cons_append, List.cons_append, List.cons.injEq] at h
      obtain ⟨e, h⟩ := ih h.2
      exact ⟨by omega, h⟩

theorem zeroEncoded_same {s t o : List UInt8} (hs : ZeroEncoded s o) (ht : ZeroEncoded t o) : SameButLost s t := by
  induction hs generalizing t with
  | nil => cases ht; exact .nil
  | @letter c s o hc hs ih =>
    generalize ho : c :: o = o' at ht
    cases ht with
    | nil => cases ho
    | letter hc' h => injection ho with h1 h2; subst h1 h2; exact .letter hc (ih h)
    | run _ _ _ _ => injection ho with h1 h2; exact absurd h1 hc
    | last _ _ => injection ho with h1 h2; exact absurd h1 hc
  | @run i c s o hi hi' hc hs ih =>
    generalize ho : 48 :: UInt8.ofNat (i - 1) :: o = o' at ht
    cases ht with
    | nil => cases ho
    | letter hc' h => injection ho with h1 h2; exact absurd h1.symm hc'
    | @run j d t o2 hj hj' hd h =>
      injection ho with _ h2
      injection h2 with h2 h3
      subst h3
      have := ofNat_inj_small (by omega) (by omega) h2
      obtain rfl : i = j := by omega
      exact .run hi hc hd (ih h)
    | @last j hj hj' =>
      injection ho with _ h2
      injection h2 with h2 h3
      subst h3
      have := ofNat_inj_small (by omega) (by omega) h2
      obtain rfl : i = j + 1 := by omega
      cases hs
      exact .lastRight hj hc
  | @last i hi hi' =>
    generalize ho : [48, UInt8.ofNat i] = o' at ht
    cases ht with
    | nil => cases ho
    | letter hc' h => injection ho with h1 h2; exact absurd h1.symm hc'
    | @run j d t o2 hj hj' hd h =>
      injection ho with _ h2
      injection h2 with h2 h3
      subst h3
      have := ofNat_inj_small (by omega) (by omega) h2
      obtain rfl : j = i + 1 := by omega
      cases h
      exact .lastLeft hi hd
    | @last j hj hj' =>
      injection ho with _ h2
      injection h2 with h2 h3
      have := ofNat_inj_small (by omega) (by omega) h2
      subst this
      exact .last hi

theorem zeroEncoded_det {s : List UInt8} {o o' : List UInt8} (m : Build) (h : ZeroEncoded s o)
    (h' : ZeroEncoded s o') : o = o' := by
  have hd : delivered (sliceReader s) = s := delivered_slice s
  have e1 := C33_exact_partial m (sliceReader s) o (by rw [hd]; exact h)
  have e2 := C33_exact_partial m (sliceReader s) o' (by rw [hd]; exact h')
  rw [e1] at e2
  exact congrArg Prod.fst e2

theorem same_zeroEncoded {s t : List UInt8} (h : SameButLost s t) (hs : ¬ List.replicate 256 48 <:+: s)
    (ht : ¬ List.replicate 256 48 <:+: t) : ∃ o, ZeroEncoded s o ∧ ZeroEncoded t o := by
  induction h with
  | nil => exact ⟨[], .nil, .nil⟩
  | @letter c s t hc _ ih =>
    obtain ⟨o, h1, h2⟩ := ih (fun h => hs (h.trans ⟨[c], [], by simp⟩)) (fun h => ht (h.trans ⟨[c], [], by simp⟩))
    exact ⟨_, .letter hc h1, .letter hc h2⟩
  | @run j c d s t hj hc hd _ ih =>
    obtain ⟨o, h1, h2⟩ := ih (fun h => hs (h.trans ⟨List.replicate j 48 ++ [c], [], by simp⟩))
      (fun h => ht (h.trans ⟨List.replicate j 48 ++ [d], [], by simp⟩))
    have : j ≤ 255 := Nat.le_of_lt_succ (run_bound hs)
    exact ⟨_, .run hj this hc h1, .run hj this hd h2⟩
  | @last j hj =>
    have : j ≤ 255 := Nat.le_of_lt_succ (run_bound (u := []) (by rw [List.append_nil]; exact hs))
    exact ⟨_, .last hj this, .last hj this⟩
  | @lastLeft j c hj hc =>
    have : j + 1 ≤ 255 := Nat.le_of_lt_succ (run_bound ht)
    exact ⟨_, .last hj (by omega), .run (by omega) this hc .nil⟩
  | @lastRight j c hj hc =>
    have : j + 1 ≤ 255 := Nat.le_of_lt_succ (run_bound hs)
    exact ⟨_, .run (by omega) this hc .nil, .last hj (by omega)⟩

/-- C33, exactly how much is lost: two inputs without 256 consecutive bytes `'0'` give the same output if and only if
they differ only in letters directly after runs of `'0'` (or in the one ambiguity at the end). -/
theorem C33_collisions_partial (m : Build) (r q : Reader) (hr : ¬ List.replicate 256 48 <:+: delivered r)
    (hq : ¬ List.replicate 256 48 <:+: delivered q) :
    (rleZero m r).1 = (rleZero m q).1 ↔ SameButLost (delivered r) (delivered q) := by
  obtain ⟨o, ho⟩ := C33_covers_partial _ hr
  obtain ⟨p, hp⟩ := C33_covers_partial _ hq
  rw [C33_exact_partial m r o ho, C33_exact_partial m q p hp]
  constructor
  · intro h
    change o = p at h
    subst h
    exact zeroEncoded_same ho hp
  · intro h
    obtain ⟨x, h1, h2⟩ := same_zeroEncoded h hr hq
    show o = p
    rw [zeroEncoded_det m ho h1, zeroEncoded_det m hp h2]

example := C33_collisions_partial .checked (sliceReader [97, 48, 48, 98]) (sliceReader [97, 48, 48, 99])
  (fun h => absurd h.length_le (by rw [List.length_replicate, delivered_slice]; decide)) (fun h => absurd h.length_le (by rw [List.length_replicate, delivered_slice]; decide))

/-- Concrete cases. -/
example : rleZero .checked (sliceReader [97, 48, 48, 98, 99, 48]) = ([97, 48, 1, 99, 48, 1], .ok ()) := by
  decide
example : ZeroEncoded [97, 48, 48, 98, 99, 48] [97, 48, 1, 99, 48, 1] :=
  .letter (by decide) (.run (j := 2) (by decide) (by decide) (by decide) (.letter (by decide) (.last (j := 1) (by decide) (by decide))))
example : SameButLost [97, 48, 48, 98, 99, 48] [97, 48, 48, 120, 99, 48, 48, 97] :=
  .letter (by decide) (.run (j := 2) (by decide) (by decide) (by decide) (.letter (by decide)
    (.lastLeft (j := 1) (by decide) (by decide))))

end Verif.Props
