import Verif.Lemmas.MusLaws
import Verif.Lemmas.BwtTmD
import Verif.Lemmas.BwtPd

/-! # The minimal unique substrings of Thue–Morse and period-doubling words

The substrings of the image of a word under the morphism that are unique are those that contain the image of a unique substring of the word
without the letters at its ends that carry no information.  So the minimal unique substrings of order `k + 1` are the images, trimmed, of
those of order `k`. -/

namespace Verif

open Spec Model

/-! ### Positions of an image -/

theorem flatMap2_get {g : UInt8 → List UInt8} {g0 g1 : UInt8 → UInt8} (hg : ∀ c, g c = [g0 c, g1 c]) (w : List UInt8) (i : Nat) :
    (w.flatMap g)[2 * i]? = (w[i]?).map g0 ∧ (w.flatMap g)[2 * i + 1]? = (w[i]?).map g1 := by
  induction w generalizing i with
  | nil => simp
  | cons c w ih =>
    rw [List.flatMap_cons, hg]
    cases i with
    | zero => simp
    | succ i =>
      have := ih i
      simp only [show 2 * (i + 1) = 2 * i + 1 + 1 by omega, List.cons_append, List.nil_append, List.getElem?_cons_succ]
      exact this

theorem flatMap2_length {g : UInt8 → List UInt8} {g0 g1 : UInt8 → UInt8} (hg : ∀ c, g c = [g0 c, g1 c]) (w : List UInt8) :
    (w.flatMap g).length = 2 * w.length := by
  induction w with
  | nil => rfl
  | cons c w ih => rw [List.flatMap_cons, hg, List.length_append, ih, List.length_cons]; simp; omega

theorem Spec.Occ.at {t : List α} {j i l : Nat} (h : Occ t j i l) {x y : Nat} (hx : j ≤ x) (hl : x < j + l) (hy : x + i = y + j) : t[x]? = t[y]? := by
  obtain ⟨k, rfl⟩ := Nat.exists_eq_add_of_le hx
  rw [h.2.2 k (by omega)]
  congr 1
  omega

section
variable {w : List UInt8} (hab : ∀ c ∈ w, IsAb c)
include hab

theorem get_ab {i : Nat} (hi : i < w.length) : ∃ c, w[i]? = some c ∧ IsAb c :=
  ⟨w[i], List.getElem?_eq_getElem hi, hab _ (List.getElem_mem hi)⟩

/-! ### Thue–Morse -/

theorem tm_get (i : Nat) : (w.flatMap tmMor)[2 * i]? = w[i]? ∧ (w.flatMap tmMor)[2 * i + 1]? = (w[i]?).map compl := by
  have h := flatMap2_get (g := fun c => if c = 97 then [97, 98] else [98, 97]) (g0 := fun c => if c = 97 then 97 else 98)
    (g1 := compl) (fun c => by unfold compl; split <;> rfl) w i
  refine ⟨h.1.trans ?_, h.2⟩
  rcases lt_or_ge i w.length with hi | hi
  · obtain ⟨c, h1, h2⟩ := get_ab hab hi
    rw [h1]
    rcases h2 with rfl | rfl <;> rfl
  · rw [List.getElem?_eq_none hi]; rfl

omit hab in
theorem tm_length' : (w.flatMap tmMor).length = 2 * w.length :=
  flatMap2_length (g0 := fun c => if c = 97 then 97 else 98) (g1 := compl) (fun c => by unfold tmMor compl; split <;> rfl) w

omit hab in
/-- No letter three times in a row, by positions. -/
theorem NoXXX.at (h : NoXXX w) {i : Nat} (hi : i + 2 < w.length) : ¬ (w[i]? = w[i + 1]? ∧ w[i + 1]? = w[i + 2]?) := by
  rintro ⟨h1, h2⟩
  have e : w = w.take i ++ w[i] :: w[i + 1] :: w[i + 2] :: w.drop (i + 3) := by
    conv_lhs => rw [← List.take_append_drop i w]
    rw [List.drop_eq_getElem_cons (by omega), List.drop_eq_getElem_cons (by omega), List.drop_eq_getElem_cons (by omega)]
  rw [List.getElem?_eq_getElem (by omega), List.getElem?_eq_getElem (by omega)] at h1 h2
  injection h1 with h1
  injection h2 with h2
  rw [← h2, ← h1] at e
  exact h _ _ _ e

/-- An occurrence of four letters of the image starts at a position of the same parity. -/
theorem tm_parity (hx : NoXXX w) {j i : Nat} (h : Occ (w.flatMap tmMor) j i 4) : j % 2 = i % 2 := by
  have key : ∀ a b, ¬ Occ (w.flatMap tmMor) (2 * a) (2 * b + 1) 4 := by
    intro a b h
    have h1 := h.1
    have h2 := h.2.1
    rw [tm_length'] at h1 h2
    have e0 := h.at (x := 2 * a) (y := 2 * b + 1) (by omega) (by omega) (by omega)
    have e1 := h.at (x := 2 * a + 1) (y := 2 * (b + 1)) (by omega) (by omega) (by omega)
    have e2 := h.at (x := 2 * (a + 1)) (y := 2 * (b + 1) + 1) (by omega) (by omega) (by omega)
    have e3 := h.at (x := 2 * (a + 1) + 1) (y := 2 * (b + 2)) (by omega) (by omega) (by omega)
    simp only [(tm_get hab _).1, (tm_get hab _).2] at e0 e1 e2 e3
    have hn := hx.at (i := b) (by omega)
    obtain ⟨c0, g0, a0⟩ := get_ab hab (i := b) (by omega)
    obtain ⟨c1, g1, a1⟩ := get_ab hab (i := b + 1) (by omega)
    obtain ⟨c2, g2, a2⟩ := get_ab hab (i := b + 2) (by omega)
    rw [e0, g0, g1] at e1
    rw [e2, g1, g2] at e3
    simp only [Option.map_some, Option.some.injEq] at e1 e3
    rw [compl_compl a0] at e1
    rw [compl_compl a1] at e3
    rw [g0, g1, g2, e1, e3] at hn
    exact hn ⟨rfl, rfl⟩
  rcases Nat.even_or_odd' j with ⟨a, rfl | rfl⟩ <;> rcases Nat.even_or_odd' i with ⟨b, rfl | rfl⟩
  · omega
  · exact absurd h (key _ _)
  · refine absurd ⟨h.2.1, h.1, fun k hk => (h.2.2 k hk).symm⟩ (key b a)
  · omega

/-- An occurrence in the word is one in the image. -/
theorem tm_occ_up {j i l : Nat} (h : Occ w j i l) {p m : Nat} (hp : 2 * i ≤ p) (hm : p + m ≤ 2 * (i + l)) :
    Occ (w.flatMap tmMor) (2 * j + (p - 2 * i)) p m := by
  have h1 := h.1
  have h2 := h.2.1
  refine ⟨by rw [tm_length']; omega, by rw [tm_length']; omega, fun k hk => ?_⟩
  obtain ⟨d, hd⟩ : ∃ d, p + k = 2 * i + d := ⟨p + k - 2 * i, by omega⟩
  rw [hd, show 2 * j + (p - 2 * i) + k = 2 * j + d by omega]
  rcases Nat.even_or_odd' d with ⟨e, rfl | rfl⟩
  · rw [← Nat.mul_add, ← Nat.mul_add, (tm_get hab _).1, (tm_get hab _).1, h.2.2 e (by omega)]
  · rw [← Nat.add_assoc, ← Nat.add_assoc, ← Nat.mul_add, ← Nat.mul_add, (tm_get hab _).2, (tm_get hab _).2, h.2.2 e (by omega)]

/-- An occurrence, in the image, of the trimmed image of a substring comes from one in the word. -/
theorem tm_occ_down (hx : NoXXX w) {q i l : Nat} (hl : 3 ≤ l) (h : Occ (w.flatMap tmMor) q (2 * i + 1) (2 * l - 2)) :
    ∃ j, q = 2 * j + 1 ∧ Occ w j i l := by
  have hp := tm_parity hab hx (j := q) (i := 2 * i + 1)
    ⟨by have := h.1; omega, by have := h.2.1; omega, fun k hk => h.2.2 k (by omega)⟩
  obtain ⟨j, rfl⟩ : ∃ j, q = 2 * j + 1 := ⟨q / 2, by omega⟩
  have h1 := h.1
  have h2 := h.2.1
  rw [tm_length'] at h1 h2
  refine ⟨j, rfl, by omega, by omega, fun k hk => ?_⟩
  rcases Nat.eq_zero_or_pos k with rfl | h0
  · have := h.at (x := 2 * j + 1) (y := 2 * i + 1) (by omega) (by omega) (by omega)
    rw [(tm_get hab _).2, (tm_get hab _).2] at this
    obtain ⟨c, g1, a1⟩ := get_ab hab (i := j) (by omega)
    obtain ⟨d, g2, a2⟩ := get_ab hab (i := i) (by omega)
    rw [g1, g2] at this
    simp only [Option.map_some, Option.some.injEq] at this
    rw [Nat.add_zero, Nat.add_zero, g1, g2, ← compl_compl a1, this, compl_compl a2]
  · have := h.at (x := 2 * (j + k)) (y := 2 * (i + k)) (by omega) (by omega) (by omega)
    rwa [(tm_get hab _).1, (tm_get hab _).1] at this

variable (hx : NoXXX w) (h3 : ∀ i l, Uq w i l → 3 ≤ l)
include hx h3

theorem tm_uq_up {i l : Nat} (h : Uq w i l) : Uq (w.flatMap tmMor) (2 * i + 1) (2 * l - 2) := by
  have hl := h3 i l h
  obtain ⟨h0, h1, h2⟩ := h
  refine ⟨by omega, by rw [tm_length']; omega, fun q hq => ?_⟩
  obtain ⟨j, rfl, hj⟩ := tm_occ_down hab hx hl hq
  rw [h2 j hj]

omit hx in
theorem tm_uq_down {p m : Nat} (h : Uq (w.flatMap tmMor) p m) :
    ∃ i l, Uq w i l ∧ p ≤ 2 * i + 1 ∧ 2 * i + 1 + (2 * l - 2) ≤ p + m := by
  obtain ⟨h0, h1, h2⟩ := h
  rw [tm_length'] at h1
  have hu : Uq w (p / 2) ((p + m - 1) / 2 - p / 2 + 1) := by
    refine ⟨by omega, by omega, fun j hj => ?_⟩
    have := h2 _ (tm_occ_up hab hj (p := p) (m := m) (by omega) (by omega))
    omega
  have := h3 _ _ hu
  exact ⟨_, _, hu, by omega, by omega⟩

/-- The minimal unique substrings of the image of a word. -/
theorem tm_mus {p m : Nat} : IsMus (w.flatMap tmMor) p m ↔ ∃ i l, IsMus w i l ∧ p = 2 * i + 1 ∧ m = 2 * l - 2 := by
  constructor
  · intro h
    obtain ⟨hu, hmin⟩ := isMus_iff_uq.1 h
    obtain ⟨i, l, g1, g2, g3⟩ := tm_uq_down hab h3 hu
    have he : (2 * i + 1, 2 * l - 2) = (p, m) := by
      by_contra hne
      exact hmin _ _ g2 g3 hne (tm_uq_up hab hx h3 g1)
    injection he with e1 e2
    refine ⟨i, l, isMus_iff_uq.2 ⟨g1, fun j k hj hk hne hjk => ?_⟩, e1.symm, e2.symm⟩
    have hk3 := h3 _ _ hjk
    refine hmin (2 * j + 1) (2 * k - 2) (by omega) (by omega) (fun e => hne ?_) (tm_uq_up hab hx h3 hjk)
    injection e with e3 e4
    have := h3 _ _ g1
    rw [show j = i by omega, show k = l by omega]
  · rintro ⟨i, l, h, rfl, rfl⟩
    obtain ⟨hu, hmin⟩ := isMus_iff_uq.1 h
    have hl := h3 _ _ hu
    refine isMus_iff_uq.2 ⟨tm_uq_up hab hx h3 hu, fun q n hq hn hne hqn => ?_⟩
    obtain ⟨j, k, g1, g2, g3⟩ := tm_uq_down hab h3 hqn
    have hk3 := h3 _ _ g1
    refine hmin j k (by omega) (by omega) (fun e => hne ?_) g1
    injection e with e1 e2
    subst e1 e2
    rw [show q = 2 * j + 1 by omega, show n = 2 * k - 2 by omega]

omit hx in
theorem tm_uq_three {p m : Nat} (h : Uq (w.flatMap tmMor) p m) : 3 ≤ m := by
  obtain ⟨i, l, g1, g2, g3⟩ := tm_uq_down hab h3 h
  have := h3 _ _ g1
  omega

end

/-! ### Period doubling -/

section
variable {w : List UInt8} (hab : ∀ c ∈ w, IsAb c)
include hab

omit hab in
theorem pd_get (i : Nat) : (w.flatMap pdMor)[2 * i]? = (w[i]?).map (fun _ => 97) ∧ (w.flatMap pdMor)[2 * i + 1]? = (w[i]?).map compl :=
  flatMap2_get (g := pdMor) (g0 := fun _ => 97) (g1 := compl) (fun c => by unfold pdMor compl; split <;> rfl) w i

theorem pdMor_even {i : Nat} (hi : i < w.length) : (w.flatMap pdMor)[2 * i]? = some 97 := by
  obtain ⟨c, h, -⟩ := get_ab hab hi
  rw [(pd_get _).1, h]; rfl

/-- An occurrence in the word is one in the image, also with the letter `a` on its right if the text goes on there. -/
theorem pd_occ_up {j i l : Nat} (h : Occ w j i l) {p m : Nat} (hp : 2 * i ≤ p) (hm : p + m ≤ 2 * (i + l) + 1)
    (hr : j + l < w.length ∧ i + l < w.length ∨ p + m ≤ 2 * (i + l)) :
    Occ (w.flatMap pdMor) (2 * j + (p - 2 * i)) p m := by
  have h1 := h.1
  have h2 := h.2.1
  refine ⟨by rw [pd_length]; omega, by rw [pd_length]; omega, fun k hk => ?_⟩
  obtain ⟨d, hd⟩ : ∃ d, p + k = 2 * i + d := ⟨p + k - 2 * i, by omega⟩
  rw [hd, show 2 * j + (p - 2 * i) + k = 2 * j + d by omega]
  rcases Nat.even_or_odd' d with ⟨e, rfl | rfl⟩
  · rw [← Nat.mul_add, ← Nat.mul_add, pdMor_even hab (by omega), pdMor_even hab (by omega)]
  · rw [← Nat.add_assoc, ← Nat.add_assoc, ← Nat.mul_add, ← Nat.mul_add, (pd_get _).2, (pd_get _).2, h.2.2 e (by omega)]

/-- An occurrence, in the image, of the trimmed image of a substring comes from one in the word. -/
theorem pd_occ_down {j i l : Nat} (hl : 1 ≤ l) (h : Occ (w.flatMap pdMor) (2 * j + 1) (2 * i + 1) (2 * l - 1)) : Occ w j i l := by
  have h1 := h.1
  have h2 := h.2.1
  rw [pd_length] at h1 h2
  refine ⟨by omega, by omega, fun k hk => ?_⟩
  have := h.at (x := 2 * (j + k) + 1) (y := 2 * (i + k) + 1) (by omega) (by omega) (by omega)
  rw [(pd_get _).2, (pd_get _).2] at this
  obtain ⟨c, g1, a1⟩ := get_ab hab (i := j + k) (by omega)
  obtain ⟨d, g2, a2⟩ := get_ab hab (i := i + k) (by omega)
  rw [g1, g2] at this
  simp only [Option.map_some, Option.some.injEq] at this
  rw [g1, g2, ← compl_compl a1, this, compl_compl a2]

end

/-- What the induction needs of a period-doubling word: no two consecutive `b`, every letter twice, and a longest repeated suffix, which occurs
at two other places. -/
structure PdOk (w : List UInt8) : Prop where
  ab : ∀ c ∈ w, IsAb c
  noBB : ∀ i : Nat, ¬ (w[i]? = some 98 ∧ w[i + 1]? = some 98)
  twoA : ∃ i j : Nat, i ≠ j ∧ w[i]? = some 97 ∧ w[j]? = some 97
  twoB : ∃ i j : Nat, i ≠ j ∧ w[i]? = some 98 ∧ w[j]? = some 98
  suf : ∃ L j, L < w.length ∧ Uq w (w.length - L - 1) (L + 1) ∧ Occ w j (w.length - L) L ∧ j + L < w.length ∧
    ∃ j', j' ≠ j ∧ Occ w j' (w.length - L) L ∧ j' + L < w.length

theorem get_lt {i : Nat} {c : α} {w : List α} (h : w[i]? = some c) : i < w.length := (List.getElem?_eq_some_iff.1 h).1

section
variable {w : List UInt8} (ok : PdOk w)
include ok

theorem pd_hasA {i l : Nat} (h : Uq w i l) : ∃ k, i ≤ k ∧ k < i + l ∧ w[k]? = some 97 := by
  obtain ⟨h0, h1, h2⟩ := h
  obtain ⟨c, hc, rfl | rfl⟩ := get_ab ok.ab (i := i) (by omega)
  · exact ⟨i, le_rfl, by omega, hc⟩
  by_cases hl : l = 1
  · subst hl
    obtain ⟨x, y, hxy, hx, hy⟩ := ok.twoB
    have key : ∀ x, w[x]? = some 98 → x = i := fun x hx => h2 x ⟨get_lt hx, h1, fun k hk => by
      rw [show k = 0 by omega, Nat.add_zero, Nat.add_zero, hx, hc]⟩
    exact absurd ((key x hx).trans (key y hy).symm) hxy
  · obtain ⟨c, hc', rfl | rfl⟩ := get_ab ok.ab (i := i + 1) (by omega)
    · exact ⟨i + 1, by omega, by omega, hc'⟩
    · exact absurd ⟨hc, hc'⟩ (ok.noBB i)

theorem pd_uq_up {i l : Nat} (h : Uq w i l) : Uq (w.flatMap pdMor) (2 * i + 1) (2 * l - 1) := by
  obtain ⟨k, hk1, hk2, hk⟩ := pd_hasA ok h
  obtain ⟨h0, h1, h2⟩ := h
  refine ⟨by omega, by rw [pd_length]; omega, fun q hq => ?_⟩
  rcases Nat.even_or_odd' q with ⟨j, rfl | rfl⟩
  · have h4 := hq.1
    rw [pd_length] at h4
    have := hq.at (x := 2 * (j + (k - i))) (y := 2 * k + 1) (by omega) (by omega) (by omega)
    rw [pdMor_even ok.ab (by omega), (pd_get _).2, hk] at this
    simp [compl] at this
  · rw [h2 j (pd_occ_down ok.ab h0 hq)]

/-- A repeated suffix occurs at a place other than two given ones. -/
theorem pd_third {i l : Nat} (hi : i + l < w.length) (h : Occ w (w.length - l) i l) : ∃ j, j ≠ i ∧ j + l < w.length ∧ Occ w j i l := by
  obtain ⟨L, j, hL, hu, hj, hj1, j', hne, hj', hj1'⟩ := ok.suf
  have hl : l ≤ L := by
    by_contra hlt
    have := (hu.mono (i := w.length - l) (l := l) (by omega) (by omega) (by omega)).2.2 i ⟨h.2.1, h.1, fun k hk => (h.2.2 k hk).symm⟩
    omega
  have key : ∀ j, Occ w j (w.length - L) L → j + L < w.length → Occ w (j + (L - l)) i l ∧ j + (L - l) + l < w.length := by
    intro j hj hj1
    refine ⟨⟨by omega, by omega, fun k hk => ?_⟩, by omega⟩
    rw [← h.2.2 k hk]
    exact hj.at (by omega) (by omega) (by omega)
  by_cases hi' : j + (L - l) = i
  · exact ⟨_, by omega, (key j' hj' hj1').2, (key j' hj' hj1').1⟩
  · exact ⟨_, hi', (key j hj hj1).2, (key j hj hj1).1⟩

theorem pd_uq_down {p m : Nat} (h : Uq (w.flatMap pdMor) p m) :
    ∃ i l, Uq w i l ∧ p ≤ 2 * i + 1 ∧ 2 * i + 1 + (2 * l - 1) ≤ p + m := by
  obtain ⟨h0, h1, h2⟩ := h
  rw [pd_length] at h1
  -- the substring has a letter `b`
  have hb : ∃ e, p ≤ 2 * e + 1 ∧ 2 * e + 1 < p + m := by
    by_contra hn
    have hm : m = 1 ∧ p % 2 = 0 := by
      refine ⟨by_contra fun hm => hn ⟨p / 2, by omega, by omega⟩, by_contra fun hm => hn ⟨p / 2, by omega, by omega⟩⟩
    obtain ⟨rfl, hp⟩ := hm
    obtain ⟨e, rfl⟩ : ∃ e, p = 2 * e := ⟨p / 2, by omega⟩
    obtain ⟨i, j, hij, hi, hj⟩ := ok.twoB
    have key : ∀ i, i < w.length → i = e := by
      intro i hi
      have := h2 (2 * i) ⟨by rw [pd_length]; omega, by rw [pd_length]; omega, fun k hk => by
        rw [show k = 0 by omega, Nat.add_zero, Nat.add_zero, pdMor_even ok.ab hi, pdMor_even ok.ab (by omega)]⟩
      omega
    exact hij ((key i (get_lt hi)).trans (key j (get_lt hj)).symm)
  obtain ⟨e, he1, he2⟩ := hb
  by_contra hn
  -- the core, from the first odd position to the last, is not unique
  have hc : ¬ Uq w (p / 2) ((p + m - 2) / 2 - p / 2 + 1) := fun hu => hn ⟨_, _, hu, by omega, by omega⟩
  have hc2 : ∃ j, j ≠ p / 2 ∧ Occ w j (p / 2) ((p + m - 2) / 2 - p / 2 + 1) := by
    by_contra hno
    refine hc ⟨by omega, by omega, fun j hj => by_contra fun hne => hno ⟨j, hne, hj⟩⟩
  obtain ⟨j, hj0, hj⟩ := hc2
  have hj1 := hj.1
  by_cases hend : j + ((p + m - 2) / 2 - p / 2 + 1) = w.length
  · by_cases hpm : p + m ≤ 2 * (p / 2 + ((p + m - 2) / 2 - p / 2 + 1))
    · have := h2 _ (pd_occ_up ok.ab hj (p := p) (m := m) (by omega) (by omega) (Or.inr hpm))
      omega
    · obtain ⟨j', g1, g2, g3⟩ := pd_third ok (i := p / 2) (l := (p + m - 2) / 2 - p / 2 + 1) (by omega)
        (by rwa [show w.length - ((p + m - 2) / 2 - p / 2 + 1) = j by omega])
      have := h2 _ (pd_occ_up ok.ab g3 (p := p) (m := m) (by omega) (by omega) (Or.inl ⟨g2, by omega⟩))
      omega
  · by_cases hpm : p + m ≤ 2 * (p / 2 + ((p + m - 2) / 2 - p / 2 + 1))
    · have := h2 _ (pd_occ_up ok.ab hj (p := p) (m := m) (by omega) (by omega) (Or.inr hpm))
      omega
    · have := h2 _ (pd_occ_up ok.ab hj (p := p) (m := m) (by omega) (by omega) (Or.inl ⟨by omega, by omega⟩))
      omega

/-- The minimal unique substrings of the image of a word. -/
theorem pd_mus {p m : Nat} : IsMus (w.flatMap pdMor) p m ↔ ∃ i l, IsMus w i l ∧ p = 2 * i + 1 ∧ m = 2 * l - 1 := by
  constructor
  · intro h
    obtain ⟨hu, hmin⟩ := isMus_iff_uq.1 h
    obtain ⟨i, l, g1, g2, g3⟩ := pd_uq_down ok hu
    have he : (2 * i + 1, 2 * l - 1) = (p, m) := by
      by_contra hne
      exact hmin _ _ g2 g3 hne (pd_uq_up ok g1)
    injection he with e1 e2
    have hl := g1.1
    refine ⟨i, l, isMus_iff_uq.2 ⟨g1, fun j k hj hk hne hjk => ?_⟩, e1.symm, e2.symm⟩
    have hk3 := hjk.1
    refine hmin (2 * j + 1) (2 * k - 1) (by omega) (by omega) (fun e => hne ?_) (pd_uq_up ok hjk)
    injection e with e3 e4
    rw [show j = i by omega, show k = l by omega]
  · rintro ⟨i, l, h, rfl, rfl⟩
    obtain ⟨hu, hmin⟩ := isMus_iff_uq.1 h
    have hl := hu.1
    refine isMus_iff_uq.2 ⟨pd_uq_up ok hu, fun q n hq hn hne hqn => ?_⟩
    obtain ⟨j, k, g1, g2, g3⟩ := pd_uq_down ok hqn
    have hk3 := g1.1
    refine hmin j k (by omega) (by omega) (fun e => hne ?_) g1
    injection e with e1 e2
    subst e1 e2
    rw [show q = 2 * j + 1 by omega, show n = 2 * k - 1 by omega]

theorem PdOk.next : PdOk (w.flatMap pdMor) := by
  refine ⟨?_, ?_, ?_, ?_, ?_⟩
  · intro c hc
    obtain ⟨x, hx, hc⟩ := List.mem_flatMap.1 hc
    rw [pdMor_ab (ok.ab x hx)] at hc
    simp at hc
    rcases hc with rfl | rfl
    · exact Or.inl rfl
    · exact isAb_compl
  · rintro i ⟨h1, h2⟩
    have g1 := get_lt h1
    have g2 := get_lt h2
    rw [pd_length] at g1 g2
    rcases Nat.even_or_odd' i with ⟨j, rfl | rfl⟩
    · rw [pdMor_even ok.ab (by omega)] at h1
      simp at h1
    · rw [show 2 * j + 1 + 1 = 2 * (j + 1) by omega, pdMor_even ok.ab (by omega)] at h2
      simp at h2
  · obtain ⟨i, j, hij, hi, hj⟩ := ok.twoA
    exact ⟨2 * i, 2 * j, by omega, pdMor_even ok.ab (get_lt hi), pdMor_even ok.ab (get_lt hj)⟩
  · obtain ⟨i, j, hij, hi, hj⟩ := ok.twoA
    exact ⟨2 * i + 1, 2 * j + 1, by omega, by rw [(pd_get _).2, hi]; rfl, by rw [(pd_get _).2, hj]; rfl⟩
  · obtain ⟨L, j, hL, hu, hj, hj1, j', hne, hj', hj1'⟩ := ok.suf
    have e : (w.flatMap pdMor).length - 2 * L = 2 * (w.length - L) := by rw [pd_length]; omega
    refine ⟨2 * L, 2 * j, by rw [pd_length]; omega, ?_, ?_, by rw [pd_length]; omega, 2 * j', by omega, ?_, by rw [pd_length]; omega⟩
    · rw [e, show 2 * (w.length - L) - 1 = 2 * (w.length - L - 1) + 1 by omega, show 2 * L + 1 = 2 * (L + 1) - 1 by omega]
      exact pd_uq_up ok hu
    · rw [e]
      have := pd_occ_up ok.ab hj (p := 2 * (w.length - L)) (m := 2 * L) le_rfl (by omega) (Or.inr (by omega))
      rwa [Nat.sub_self, Nat.add_zero] at this
    · rw [e]
      have := pd_occ_up ok.ab hj' (p := 2 * (w.length - L)) (m := 2 * L) le_rfl (by omega) (Or.inr (by omega))
      rwa [Nat.sub_self, Nat.add_zero] at this

end

end Verif
