import Verif.Lemmas.Morphism

/-! # Words generated by 2-uniform morphisms -/

namespace Verif
open Spec Model

theorem set_take {β : Type} {l : List β} {n : Nat} {x : β} (h : n < l.length) :
    (l.set n x).take (n + 1) = l.take n ++ [x] := by
  rw [List.take_add_one, List.take_set_of_le (le_refl _)]
  simp [h]

/-- Writing the two letters behind a prefix of known letters. -/
theorem write_pair {β : Type} {text : List β} {L : Nat → β} {p : Nat} (hp : p + 1 < text.length)
    (h : text.take p = (List.range p).map L) :
    ((text.set p (L p)).set (p + 1) (L (p + 1))).take (p + 2) = (List.range (p + 2)).map L := by
  rw [set_take (by simpa using hp), set_take (by omega), h, List.range_succ, List.range_succ]
  simp

theorem get_of_take {β : Type} {text : List β} {L : Nat → β} {p i : Nat}
    (h : text.take p = (List.range p).map L) (hi : i < p) : text[i]? = some (L i) := by
  rw [← List.getElem?_take_of_lt hi, h]
  simp [hi]

theorem iterate2_ok {f : UInt8 → List UInt8} {f0 f1 : UInt8 → UInt8} (hf : ∀ c, f c = [f0 c, f1 c])
    (ha : f 97 = [97, 98]) {rounds : Nat} (hr : rounds ≤ 62) :
    iterate2morphism rounds f = .ok (iter f rounds [97]) := by
  have ha0 : f0 97 = 97 := by have := hf 97; rw [ha] at this; injection this with h _; exact h.symm
  have ha1 : f1 97 = 98 := by
    have := hf 97; rw [ha] at this; injection this with _ h; injection h with h _; exact h.symm
  unfold iterate2morphism
  rcases Nat.eq_zero_or_pos rounds with rfl | hr0
  · rfl
  · have hn : 2 ^ rounds ≤ 2 ^ 62 := Nat.pow_le_pow_right (by omega) hr
    obtain ⟨m, hm⟩ : ∃ m, 2 ^ rounds = 2 * m := ⟨2 ^ (rounds - 1), by
      rw [← Nat.pow_succ']; congr 1; omega⟩
    have hm0 : 0 < m := by have := Nat.two_pow_pos rounds; omega
    rw [if_neg (by omega), shl1, if_pos (by omega), ok_bind, zeroed, if_pos (by omega), ok_bind,
      wr_ok (by simp), ok_bind, wr_ok (by simp; omega), ok_bind]
    rw [iter_fixLetter hf ha0]
    have hL1 : fixLetter 97 f0 f1 1 = 98 := by
      have := fixLetter_odd (x := (97 : UInt8)) (f0 := f0) (f1 := f1) 0
      rw [fixLetter_zero, ha1] at this; exact this
    obtain ⟨st, h1, ⟨i1, i2, i3, i4, i5⟩, hc⟩ := whileLoop_inv
      (cond := fun (st : List UInt8 × Nat × Nat) => (pure (decide (st.2.2 < 2 ^ rounds)) : Res Bool))
      (body := fun st => do
        let c ← rd st.1 st.2.1
        let r ← write2 (2 ^ rounds) (f c) st.1 st.2.2
        pure (r.1, st.2.1 + 1, r.2))
      (fun st : List UInt8 × Nat × Nat => st.1.length = 2 ^ rounds ∧ 1 ≤ st.2.1 ∧ st.2.2 = 2 * st.2.1 ∧
        st.2.2 ≤ 2 ^ rounds ∧ st.1.take st.2.2 = (List.range st.2.2).map (fixLetter 97 f0 f1))
      (fun st => 2 ^ rounds - st.2.2) (fuel := 2 ^ rounds + 1)
      (s := (((List.replicate (2 ^ rounds) 0).set 0 97).set 1 98, 1, 2))
      (by
        refine ⟨by simp, le_refl _, rfl, by simp only; omega, ?_⟩
        have := write_pair (text := List.replicate (2 ^ rounds) (0 : UInt8)) (p := 0)
          (L := fixLetter 97 f0 f1) (by simp; omega) rfl
        rw [fixLetter_zero, Nat.zero_add, hL1] at this
        exact this)
      (by simp only; omega)
      (by
        rintro ⟨text, sp, tp⟩ ⟨i1, i2, i3, i4, i5⟩
        simp only at i1 i2 i3 i4 i5
        by_cases hlt : tp < 2 ^ rounds
        · right
          refine ⟨by simp [hlt, pure_ok], ((text.set tp (fixLetter 97 f0 f1 tp)).set (tp + 1)
            (fixLetter 97 f0 f1 (tp + 1)), sp + 1, tp + 2), ?_, ⟨?_, ?_, ?_, ?_, ?_⟩, ?_⟩
          · have hget := get_of_take i5 (show sp < tp by omega)
            simp only [rd_some hget, ok_bind, hf, write2]
            rw [wr_ok (by omega), ok_bind, if_neg (by omega), wr_ok (by simp; omega), ok_bind]
            have e1 : fixLetter 97 f0 f1 tp = f0 (fixLetter 97 f0 f1 sp) := by
              rw [i3, fixLetter_even ha0]
            have e2 : fixLetter 97 f0 f1 (tp + 1) = f1 (fixLetter 97 f0 f1 sp) := by
              rw [i3, fixLetter_odd]
            rw [e1, e2]
            split <;> rfl
          · simp [i1]
          · simp only; omega
          · simp only; omega
          · simp only; omega
          · exact write_pair (by omega) i5
          · simp only; omega
        · left; simp [hlt, pure_ok])
    rw [h1, ok_bind, pure_ok]
    simp [pure_ok] at hc
    have : st.2.2 = 2 ^ rounds := by omega
    rw [this, List.take_of_length_le (by omega)] at i5
    rw [i5]

/-! ### Thue–Morse -/

/-- first letter of the Thue–Morse image -/
def tm0 (c : UInt8) : UInt8 := if c = 97 then 97 else 98
/-- second letter of the Thue–Morse image -/
def tm1 (c : UInt8) : UInt8 := if c = 97 then 98 else 97

theorem tmMor_eq (c : UInt8) : tmMor c = [tm0 c, tm1 c] := by
  unfold tmMor tm0 tm1; split <;> rfl

/-- The infinite Thue–Morse word. -/
abbrev tm (i : Nat) : UInt8 := fixLetter 97 tm0 tm1 i

theorem tm_values (i : Nat) : tm i = 97 ∨ tm i = 98 := by
  induction i using Nat.strong_induction_on with
  | _ i ih =>
    rcases Nat.eq_zero_or_pos i with rfl | hi
    · left; exact fixLetter_zero
    · unfold tm; rw [fixLetter, dif_neg (by omega)]
      split <;> · unfold tm0 tm1; split <;> simp

theorem tm_two (j p : Nat) (hp : p < 2 ^ j) : tm (2 ^ j + p) = tm1 (tm p) := by
  induction j generalizing p with
  | zero =>
    have : p = 0 := by simpa using hp
    subst this
    have := fixLetter_odd (x := (97 : UInt8)) (f0 := tm0) (f1 := tm1) 0
    simpa using this
  | succ j ih =>
    have hpow : 2 ^ (j + 1) = 2 * 2 ^ j := by rw [Nat.pow_succ, Nat.mul_comm]
    have hq := ih (p / 2) (by omega)
    rcases Nat.mod_two_eq_zero_or_one p with h | h
    · have e1 : 2 ^ (j + 1) + p = 2 * (2 ^ j + p / 2) := by omega
      have e2 : p = 2 * (p / 2) := by omega
      rw [tm, e1, fixLetter_even rfl]
      conv_rhs => rw [e2, tm, fixLetter_even rfl]
      unfold tm at hq
      rw [hq]
      rcases tm_values (p / 2) with h | h <;> unfold tm at h <;> rw [h] <;> decide
    · have e1 : 2 ^ (j + 1) + p = 2 * (2 ^ j + p / 2) + 1 := by omega
      have e2 : p = 2 * (p / 2) + 1 := by omega
      rw [tm, e1, fixLetter_odd]
      conv_rhs => rw [e2, tm, fixLetter_odd]
      unfold tm at hq
      rw [hq]

theorem thuemorse_ok {k : Nat} (hk : k ≤ 62) : thuemorseWord k = .ok ((List.range (2 ^ k)).map tm) := by
  have hn : 2 ^ k ≤ 2 ^ 62 := Nat.pow_le_pow_right (by omega) hk
  have hpos := Nat.two_pow_pos k
  unfold thuemorseWord
  rw [shl1, if_pos (by omega), ok_bind, zeroed, if_pos (by omega), ok_bind, wr_ok (by simp), ok_bind]
  obtain ⟨w, h1, h2, h3⟩ := forRange_inv
    (fun j (w : List UInt8) => w.length = 2 ^ k ∧ w.take (2 ^ j) = (List.range (2 ^ j)).map tm)
    (lo := 0) (hi := k) (s := (List.replicate (2 ^ k) 0).set 0 97) (body := fun j text => do
      let powerj ← shl1 j
      forRange 0 powerj text (fun i text => do
        let c ← rd text i
        wr text (powerj + i) (if c = 97 then 98 else 97))) (by omega)
    (by
      refine ⟨by simp, ?_⟩
      have := set_take (l := List.replicate (2 ^ k) (0 : UInt8)) (n := 0) (x := 97) (by simp)
      simp at this
      simp [this, fixLetter_zero])
    (by
      rintro j w _ hj ⟨g1, g2⟩
      rw [shl1, if_pos (by omega), ok_bind]
      have hjk : 2 ^ (j + 1) ≤ 2 ^ k := Nat.pow_le_pow_right (by omega) hj
      have hpow : 2 ^ (j + 1) = 2 ^ j + 2 ^ j := by rw [Nat.pow_succ]; omega
      obtain ⟨v, v1, v2, v3⟩ := forRange_inv
        (fun i (v : List UInt8) => v.length = 2 ^ k ∧
          v.take (2 ^ j + i) = (List.range (2 ^ j + i)).map tm)
        (lo := 0) (hi := 2 ^ j) (s := w) (body := fun i text => do
          let c ← rd text i
          wr text (2 ^ j + i) (if c = 97 then 98 else 97)) (Nat.zero_le _) ⟨g1, g2⟩ (by
          rintro i v _ hi ⟨q1, q2⟩
          have hget := get_of_take q2 (show i < 2 ^ j + i by omega)
          refine ⟨v.set (2 ^ j + i) (tm (2 ^ j + i)), ?_, by simp [q1], ?_⟩
          · rw [rd_some hget, ok_bind, wr_ok (by omega), tm_two j i hi]; rfl
          · rw [show 2 ^ j + (i + 1) = 2 ^ j + i + 1 by omega, set_take (by omega), q2, List.range_succ]
            simp)
      exact ⟨v, v1, v2, by rw [hpow]; exact v3⟩)
  rw [h1]
  rw [List.take_of_length_le (by omega)] at h3
  rw [h3]

/-! ### Period doubling -/

/-- second letter of the period-doubling image -/
def pd1 (c : UInt8) : UInt8 := if c = 97 then 98 else 97

theorem pdMor_eq (c : UInt8) : pdMor c = [(fun _ => 97) c, pd1 c] := by
  unfold pdMor pd1; split <;> rfl

/-- The infinite period-doubling word. -/
abbrev pd (i : Nat) : UInt8 := fixLetter 97 (fun _ => 97) pd1 i

theorem pd_spec (i : Nat) : (pd i = 97 ∨ pd i = 98) ∧
    (pd i = 98 ↔ ∃ e, e % 2 = 1 ∧ 2 ^ e ∣ i + 1 ∧ ¬ 2 ^ (e + 1) ∣ i + 1) := by
  induction i using Nat.strong_induction_on with
  | _ i ih =>
    rcases Nat.mod_two_eq_zero_or_one i with h | h
    · have e1 : i = 2 * (i / 2) := by omega
      have hpd : pd i = 97 := by rw [pd, e1, fixLetter_even rfl]
      refine ⟨Or.inl hpd, ?_⟩
      rw [hpd]
      refine ⟨fun h => absurd h (by decide), ?_⟩
      rintro ⟨e, he, h1, _⟩
      exfalso
      have h2 : 2 ∣ 2 ^ e := dvd_pow_self 2 (by omega)
      have := h2.trans h1
      omega
    · have e1 : i = 2 * (i / 2) + 1 := by omega
      have hpd : pd i = pd1 (pd (i / 2)) := by
        conv_lhs => rw [pd, e1, fixLetter_odd]
      obtain ⟨h1, h2⟩ := ih (i / 2) (by omega)
      have hi : i + 1 = 2 * (i / 2 + 1) := by omega
      have hdvd : ∀ e, 2 ^ (e + 1) ∣ i + 1 ↔ 2 ^ e ∣ i / 2 + 1 := by
        intro e; rw [hi, Nat.pow_succ']; exact Nat.mul_dvd_mul_iff_left (by omega)
      -- the exponent exists
      have hex : ∃ e, 2 ^ e ∣ i / 2 + 1 ∧ ¬ 2 ^ (e + 1) ∣ i / 2 + 1 := by
        have hfin : ∃ e, ¬ 2 ^ (e + 1) ∣ i / 2 + 1 := ⟨i / 2 + 1, fun hd => by
          have := Nat.le_of_dvd (by omega) hd
          have := Nat.lt_two_pow_self (n := i / 2 + 1 + 1)
          omega⟩
        classical
        have hspec := Nat.find_spec hfin
        have hmin := fun m hm => Nat.find_min hfin (m := m) hm
        generalize Nat.find hfin = e at hspec hmin
        refine ⟨e, ?_, hspec⟩
        rcases Nat.eq_zero_or_pos e with rfl | he
        · simp
        · have := hmin (e - 1) (by omega)
          rw [not_not, show e - 1 + 1 = e by omega] at this
          exact this
      have huniq : ∀ e e', (2 ^ e ∣ i / 2 + 1 ∧ ¬ 2 ^ (e + 1) ∣ i / 2 + 1) →
          (2 ^ e' ∣ i / 2 + 1 ∧ ¬ 2 ^ (e' + 1) ∣ i / 2 + 1) → e = e' := by
        intro e e' g1 g2
        rcases Nat.lt_trichotomy e e' with h | h | h
        · exact absurd ((pow_dvd_pow 2 (by omega : e + 1 ≤ e')).trans g2.1) g1.2
        · exact h
        · exact absurd ((pow_dvd_pow 2 (by omega : e' + 1 ≤ e)).trans g1.1) g2.2
      obtain ⟨e, he⟩ := hex
      rw [hpd]
      refine ⟨by unfold pd1; split <;> simp, ?_⟩
      rcases h1 with h1 | h1
      · rw [h1]
        refine ⟨fun _ => ?_, fun _ => rfl⟩
        refine ⟨e + 1, ?_, (hdvd e).2 he.1, fun hh => he.2 ((hdvd (e + 1)).1 hh)⟩
        rcases Nat.mod_two_eq_zero_or_one e with h | h
        · omega
        · exact absurd (h2.2 ⟨e, h, he⟩) (by rw [h1]; decide)
      · rw [h1]
        refine ⟨fun h => absurd h (by decide), ?_⟩
        rintro ⟨e', g0, g1, g2⟩
        exfalso
        obtain ⟨e'', rfl⟩ : ∃ e'', e' = e'' + 1 := ⟨e' - 1, by omega⟩
        rw [hdvd] at g1 g2
        obtain ⟨e3, q0, q1⟩ := h2.1 h1
        have := huniq _ _ ⟨g1, g2⟩ q1
        omega

/-! ### Paperfolding -/

/-- first letter of the image of a quaternary letter -/
def pf0 (c : UInt8) : UInt8 := if c = 100 then 100 else if c = 98 then 99 else if c = 99 then 100 else 99
/-- second letter of the image of a quaternary letter -/
def pf1 (c : UInt8) : UInt8 := if c = 100 then 98 else if c = 98 then 98 else if c = 99 then 97 else 97

theorem paperMor_eq (c : UInt8) : paperMor c = [pf0 c, pf1 c] := by
  unfold paperMor pf0 pf1; split <;> [rfl; (split <;> [rfl; (split <;> rfl)])]

/-- The infinite quaternary paperfolding word. -/
abbrev pf (i : Nat) : UInt8 := fixLetter 100 pf0 pf1 i

theorem pf_even (i : Nat) : pf (2 * i) = pf0 (pf i) := fixLetter_even rfl i
theorem pf_odd (i : Nat) : pf (2 * i + 1) = pf1 (pf i) := fixLetter_odd i

theorem pf_values (i : Nat) : (i % 2 = 0 → pf i = 100 ∨ pf i = 99) ∧ (i % 2 = 1 → pf i = 98 ∨ pf i = 97) := by
  refine ⟨fun h => ?_, fun h => ?_⟩
  · rw [show i = 2 * (i / 2) by omega, pf_even]
    unfold pf0; split <;> [simp; (split <;> [simp; (split <;> simp)])]
  · rw [show i = 2 * (i / 2) + 1 by omega, pf_odd]
    unfold pf1; split <;> [simp; (split <;> [simp; (split <;> simp)])]

theorem paperPair_eq (i : Nat) : paperPair (pf i) = some (pf0 (pf i), pf1 (pf i)) := by
  have h := pf_values i
  rcases Nat.mod_two_eq_zero_or_one i with hi | hi
  · rcases h.1 hi with h | h <;> rw [h] <;> decide
  · rcases h.2 hi with h | h <;> rw [h] <;> decide

theorem quaternary_ok {k : Nat} (hk : k ≤ 62) :
    quaternaryPaperfoldingWord k = .ok ((List.range (2 ^ k)).map pf) := by
  have hn : 2 ^ k ≤ 2 ^ 62 := Nat.pow_le_pow_right (by omega) hk
  have hpos := Nat.two_pow_pos k
  unfold quaternaryPaperfoldingWord
  rw [shl1, if_pos (by omega), ok_bind, zeroed, if_pos (by omega), ok_bind, wr_ok (by simp), ok_bind]
  obtain ⟨w, h1, h2, h3⟩ := forRange_inv
    (fun j (w : List UInt8) => w.length = 2 ^ k ∧
      w.take (max (2 * j) 1) = (List.range (max (2 * j) 1)).map pf)
    (lo := 0) (hi := 2 ^ k / 2) (s := (List.replicate (2 ^ k) 0).set 0 100) (body := paperStep) (by omega)
    (by
      refine ⟨by simp, ?_⟩
      have := set_take (l := List.replicate (2 ^ k) (0 : UInt8)) (n := 0) (x := 100) (by simp)
      simp at this
      simp [this, fixLetter_zero, List.range_succ])
    (by
      rintro j w _ hj ⟨g1, g2⟩
      have hget := get_of_take g2 (show j < max (2 * j) 1 by omega)
      have htk : w.take (2 * j) = (List.range (2 * j)).map pf := by
        have := congrArg (List.take (2 * j)) g2
        rw [List.take_take, ← List.map_take, List.take_range, show min (2 * j) (max (2 * j) 1) = 2 * j by omega]
          at this
        exact this
      refine ⟨(w.set (2 * j) (pf (2 * j))).set (2 * j + 1) (pf (2 * j + 1)), ?_, by simp [g1], ?_⟩
      · rw [paperStep, rd_some hget, ok_bind, paperPair_eq]
        simp only
        rw [wr_ok (by omega), ok_bind, wr_ok (by simp; omega), pf_even, pf_odd]
      · rw [show max (2 * (j + 1)) 1 = 2 * j + 2 by omega]
        exact write_pair (by omega) htk)
  rw [h1]
  have hmax : max (2 * (2 ^ k / 2)) 1 = 2 ^ k := by
    rcases Nat.eq_zero_or_pos k with rfl | hk0
    · rfl
    · have : 2 ∣ 2 ^ k := dvd_pow_self 2 (by omega)
      omega
  rw [hmax, List.take_of_length_le (by omega)] at h3
  rw [h3]

/-- the letter written at an even position -/
def bin0 (c : UInt8) : UInt8 := if c = 100 ∨ c = 99 then 49 else 48
/-- the letter written at an odd position -/
def bin1 (c : UInt8) : UInt8 := if c = 100 ∨ c = 98 then 49 else 48

theorem binaryPair_eq {c : UInt8} (h : c = 97 ∨ c = 98 ∨ c = 99 ∨ c = 100) :
    binaryPair c = some (bin0 c, bin1 c) := by
  rcases h with rfl | rfl | rfl | rfl <;> decide

/-- The infinite paperfolding word (positions from 0). -/
def paper (p : Nat) : UInt8 := if p % 2 = 0 then bin0 (pf (p / 2)) else bin1 (pf (p / 2))

theorem paperfolding_ok {k : Nat} (hk : k ≤ 61) :
    paperfoldingWord k = .ok ((List.range (2 ^ (k + 1))).map paper) := by
  have hn : 2 ^ (k + 1) ≤ 2 ^ 62 := Nat.pow_le_pow_right (by omega) (by omega)
  have hp : 2 ^ (k + 1) = 2 * 2 ^ k := by rw [Nat.pow_succ, Nat.mul_comm]
  unfold paperfoldingWord
  rw [quaternary_ok (by omega), ok_bind, quaternaryToBinary]
  have hlen : ((List.range (2 ^ k)).map pf).length = 2 ^ k := by simp
  rw [hlen, Nat.mod_eq_of_lt (by omega), zeroed, if_pos (by omega), ok_bind]
  obtain ⟨w, h1, h2, h3⟩ := forRange_inv
    (fun j (w : List UInt8) => w.length = 2 ^ k * 2 ∧ w.take (2 * j) = (List.range (2 * j)).map paper)
    (lo := 0) (hi := 2 ^ k) (s := List.replicate (2 ^ k * 2) 0) (body := binaryStep ((List.range (2 ^ k)).map pf)) (by omega) ⟨by simp, by simp⟩
    (by
      rintro j w _ hj ⟨g1, g2⟩
      have hget : ((List.range (2 ^ k)).map pf)[j]? = some (pf j) := by simp [hj]
      have hv : pf j = 97 ∨ pf j = 98 ∨ pf j = 99 ∨ pf j = 100 := by
        have h := pf_values j
        rcases Nat.mod_two_eq_zero_or_one j with hi | hi
        · rcases h.1 hi with h | h <;> simp [h]
        · rcases h.2 hi with h | h <;> simp [h]
      refine ⟨(w.set (2 * j) (paper (2 * j))).set (2 * j + 1) (paper (2 * j + 1)), ?_, by simp [g1], ?_⟩
      · rw [binaryStep, rd_some hget, ok_bind, binaryPair_eq hv]
        simp only
        rw [wr_ok (by omega), ok_bind, wr_ok (by simp; omega)]
        unfold paper
        rw [if_pos (by omega), if_neg (by omega), show 2 * j / 2 = j by omega,
          show (2 * j + 1) / 2 = j by omega]
      · exact write_pair (p := 2 * j) (L := paper) (show 2 * j + 1 < w.length by omega) g2)
  rw [h1]
  rw [List.take_of_length_le (by omega)] at h3
  rw [h3, hp]

theorem bin0_pf (i : Nat) : bin0 (pf i) = 49 ↔ i % 2 = 0 := by
  have h := pf_values i
  rcases Nat.mod_two_eq_zero_or_one i with hi | hi
  · rcases h.1 hi with h | h <;> rw [h, hi] <;> decide
  · rcases h.2 hi with h | h <;> rw [h, hi] <;> decide

theorem bin1_pf0 (i : Nat) : bin1 (pf0 (pf i)) = bin0 (pf i) := by
  have h := pf_values i
  rcases Nat.mod_two_eq_zero_or_one i with hi | hi
  · rcases h.1 hi with h | h <;> rw [h] <;> decide
  · rcases h.2 hi with h | h <;> rw [h] <;> decide

theorem bin1_pf1 (i : Nat) : bin1 (pf1 (pf i)) = bin1 (pf i) := by
  have h := pf_values i
  rcases Nat.mod_two_eq_zero_or_one i with hi | hi
  · rcases h.1 hi with h | h <;> rw [h] <;> decide
  · rcases h.2 hi with h | h <;> rw [h] <;> decide

theorem bin1_pf (i : Nat) : bin1 (pf i) = 49 ↔ ∃ e m, i + 1 = 2 ^ e * (4 * m + 1) := by
  induction i using Nat.strong_induction_on with
  | _ i ih =>
    rcases Nat.mod_two_eq_zero_or_one i with h | h
    · rw [show i = 2 * (i / 2) by omega, pf_even, bin1_pf0, bin0_pf]
      constructor
      · intro h2
        exact ⟨0, i / 4, by rw [Nat.pow_zero, Nat.one_mul]; omega⟩
      · rintro ⟨e, m, he⟩
        rcases Nat.eq_zero_or_pos e with rfl | he0
        · rw [Nat.pow_zero, Nat.one_mul] at he; omega
        · have : 2 ∣ 2 ^ e * (4 * m + 1) := (dvd_pow_self 2 (by omega)).mul_right _
          omega
    · rw [show i = 2 * (i / 2) + 1 by omega, pf_odd, bin1_pf1, ih (i / 2) (by omega)]
      constructor
      · rintro ⟨e, m, he⟩
        exact ⟨e + 1, m, by rw [Nat.pow_succ', Nat.mul_assoc, ← he]; omega⟩
      · rintro ⟨e, m, he⟩
        rcases Nat.eq_zero_or_pos e with rfl | he0
        · rw [Nat.pow_zero, Nat.one_mul] at he; omega
        · refine ⟨e - 1, m, ?_⟩
          rw [show e = e - 1 + 1 by omega, Nat.pow_succ', Nat.mul_assoc] at he
          omega

theorem paper_spec (p : Nat) : (paper p = 49 ∨ paper p = 48) ∧
    (paper p = 49 ↔ ∃ e m, p + 1 = 2 ^ e * (4 * m + 1)) := by
  unfold paper
  rcases Nat.mod_two_eq_zero_or_one p with h | h
  · rw [if_pos h]
    refine ⟨by unfold bin0; split <;> simp, ?_⟩
    rw [bin0_pf]
    constructor
    · intro h2
      exact ⟨0, p / 4, by rw [Nat.pow_zero, Nat.one_mul]; omega⟩
    · rintro ⟨e, m, he⟩
      rcases Nat.eq_zero_or_pos e with rfl | he0
      · rw [Nat.pow_zero, Nat.one_mul] at he; omega
      · have : 2 ∣ 2 ^ e * (4 * m + 1) := (dvd_pow_self 2 (by omega)).mul_right _
        omega
  · rw [if_neg (by omega)]
    refine ⟨by unfold bin1; split <;> simp, ?_⟩
    rw [bin1_pf]
    constructor
    · rintro ⟨e, m, he⟩
      exact ⟨e + 1, m, by rw [Nat.pow_succ', Nat.mul_assoc, ← he]; omega⟩
    · rintro ⟨e, m, he⟩
      rcases Nat.eq_zero_or_pos e with rfl | he0
      · rw [Nat.pow_zero, Nat.one_mul] at he; omega
      · refine ⟨e - 1, m, ?_⟩
        rw [show e = e - 1 + 1 by omega, Nat.pow_succ', Nat.mul_assoc] at he
        omega

end Verif
