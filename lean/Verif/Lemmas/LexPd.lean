import Verif.Lemmas.LexTm
import Verif.Lemmas.Lex

/-! # The lexicographic parse of the period-doubling words

`pdQ` is the square of the period-doubling morphism on words over `a` and `b`: every letter `c` becomes `abac`.  The part of the image of a
suffix without its first `r < 4` letters is compared with suffixes cut in the same way (`img_lt`, `img_lcp`) and in another way (`mis0`,
`mis1`, `mis3`: few common letters, because `bb` does not occur). -/

namespace Verif

open Spec Model

/-- The square of the period-doubling morphism. -/
def pdQ : List UInt8 → List UInt8
  | [] => []
  | c :: v => 97 :: 98 :: 97 :: c :: pdQ v

theorem pdQ_append (u v : List UInt8) : pdQ (u ++ v) = pdQ u ++ pdQ v := by
  induction u with
  | nil => rfl
  | cons c u ih => simp [pdQ, ih]

theorem pdQ_length (w : List UInt8) : (pdQ w).length = 4 * w.length := by
  induction w with
  | nil => rfl
  | cons c w ih => simp [pdQ, ih]; omega

theorem pdQ_bin {w : List UInt8} (h : AbWord w) : AbWord (pdQ w) := by
  induction w with
  | nil => intro c hc; cases hc
  | cons c w ih =>
    simp only [pdQ, bin_iff_cons]
    exact ⟨by simp, by simp, by simp, h.head, ih h.tail⟩

theorem pdQ_drop (w : List UInt8) : ∀ l, (pdQ w).drop (4 * l) = pdQ (w.drop l) := by
  induction w with
  | nil => intro l; simp [pdQ]
  | cons c w ih =>
    intro l
    cases l with
    | zero => rfl
    | succ l =>
      rw [show 4 * (l + 1) = 4 * l + 4 by omega, List.drop_succ_cons, ← ih l]
      rfl

/-- No two consecutive `b`. -/
def NoTwoB (w : List UInt8) : Prop := ∀ u, ¬ (98 :: 98 :: u) <:+ w

theorem NoTwoB.suffix {u w : List UInt8} (h : NoTwoB w) (hs : u <:+ w) : NoTwoB u := fun v hv => h v (hv.trans hs)

/-- The image of `v` without its first `r` letters. -/
def img (r : Nat) (v : List UInt8) : List UInt8 := (pdQ v).drop r

theorem img_zero (v : List UInt8) : img 0 v = pdQ v := rfl

theorem pdQ_suffix {w u' : List UInt8} (h : u' <:+ pdQ w) (h0 : u' ≠ []) :
    ∃ r u, r < 4 ∧ u <:+ w ∧ u ≠ [] ∧ u' = img r u := by
  induction w with
  | nil => exact absurd (List.suffix_nil.1 h) h0
  | cons c w ih =>
    simp only [pdQ, List.suffix_cons_iff] at h
    rcases h with h | h | h | h | h
    · exact ⟨0, c :: w, by omega, List.suffix_refl _, by simp, h⟩
    · exact ⟨1, c :: w, by omega, List.suffix_refl _, by simp, h⟩
    · exact ⟨2, c :: w, by omega, List.suffix_refl _, by simp, h⟩
    · exact ⟨3, c :: w, by omega, List.suffix_refl _, by simp, h⟩
    · obtain ⟨r, u, h1, h2, h3, h4⟩ := ih h
      exact ⟨r, u, h1, h2.trans (List.suffix_cons _ _), h3, h4⟩

theorem img_suffix {u w : List UInt8} (r : Nat) (h : u <:+ w) : img r u <:+ pdQ w := by
  obtain ⟨s, rfl⟩ := h
  rw [pdQ_append]
  exact (List.drop_suffix _ _).trans (List.suffix_append _ _)

theorem pdQ_split {v : List UInt8} (hv : v ≠ []) {r : Nat} (hr : r < 4) : pdQ v = [97, 98, 97].take r ++ img r v := by
  cases v with
  | nil => exact absurd rfl hv
  | cons c v =>
    rcases r with _ | _ | _ | _ | r
    · rfl
    · rfl
    · rfl
    · rfl
    · omega

theorem img_length {v : List UInt8} (r : Nat) : (img r v).length = 4 * v.length - r := by
  rw [img, List.length_drop, pdQ_length]

theorem pdQ_lt : ∀ {u v : List UInt8}, pdQ u < pdQ v ↔ u < v := by
  intro u
  induction u with
  | nil => intro v; cases v <;> simp [pdQ]
  | cons c u ih =>
    intro v
    cases v with
    | nil => simp [pdQ]
    | cons d v => simp [pdQ, List.cons_lt_cons_iff, ih]

theorem append_lt_append_iff (p u v : List UInt8) : p ++ u < p ++ v ↔ u < v := by
  induction p with
  | nil => rfl
  | cons c p ih => simp [ih]

theorem img_lt {u v : List UInt8} (hu : u ≠ []) (hv : v ≠ []) {r : Nat} (hr : r < 4) : img r u < img r v ↔ u < v := by
  rw [← pdQ_lt (u := u) (v := v), pdQ_split hu hr, pdQ_split hv hr, append_lt_append_iff]

theorem pdQ_lcp : ∀ u v : List UInt8, lcpLen (pdQ u) (pdQ v) =
    4 * lcpLen u v + if lcpLen u v < u.length ∧ lcpLen u v < v.length then 3 else 0 := by
  intro u
  induction u with
  | nil => intro v; simp [pdQ]
  | cons c u ih =>
    intro v
    cases v with
    | nil => simp [pdQ]
    | cons d v =>
      by_cases h : c = d
      · subst h
        have := ih v
        simp only [pdQ, lcpLen, if_true, this, List.length_cons, Nat.add_lt_add_iff_right]
        omega
      · simp [pdQ, lcpLen, h]

theorem img_lcp {u v : List UInt8} (hu : u ≠ []) (hv : v ≠ []) {r : Nat} (hr : r < 4) :
    lcpLen (img r u) (img r v) + r = 4 * lcpLen u v + if lcpLen u v < u.length ∧ lcpLen u v < v.length then 3 else 0 := by
  rw [← pdQ_lcp u v, pdQ_split hu hr, pdQ_split hv hr, lcpLen_append_left]
  have : ([97, 98, 97].take r : List UInt8).length = r := by
    rw [List.length_take]
    simp
    omega
  omega

/-! ### Suffixes cut in different ways -/

set_option hygiene false in
macro "mistac" : tactic =>
  `(tactic| (
    rcases u with _ | ⟨a, u⟩
    · exact absurd rfl hu0
    rcases v with _ | ⟨c, v⟩
    · exact absurd rfl hv0
    rcases u with _ | ⟨b, u⟩ <;> rcases v with _ | ⟨d, v⟩ <;>
    rcases hu.head with rfl | rfl <;> rcases hv.head with rfl | rfl <;>
    rcases (show r = 0 ∨ r = 1 ∨ r = 2 ∨ r = 3 by omega) with rfl | rfl | rfl | rfl <;>
    first
    | (exact absurd rfl hr')
    | (simp [img, pdQ, lcpLen]; done)
    | (rcases hu.tail.head with rfl | rfl <;>
        first
        | (exact absurd (List.suffix_refl _) (bu _))
        | (simp [img, pdQ, lcpLen]; done)
        | (rcases hv.tail.head with rfl | rfl <;>
            first
            | (exact absurd (List.suffix_refl _) (bv _))
            | (simp [img, pdQ, lcpLen]; done)))
    | (rcases hv.tail.head with rfl | rfl <;>
        first
        | (exact absurd (List.suffix_refl _) (bv _))
        | (simp [img, pdQ, lcpLen]; done))))

theorem mis0 {u v : List UInt8} (hu : AbWord u) (hv : AbWord v) (bu : NoTwoB u) (bv : NoTwoB v) (hu0 : u ≠ []) (hv0 : v ≠ [])
    {r : Nat} (hr : r < 4) (hr' : r ≠ 0) : lcpLen (img r u) (img 0 v) ≤ 5 := by
  mistac

theorem mis1 {u v : List UInt8} (hu : AbWord u) (hv : AbWord v) (bu : NoTwoB u) (bv : NoTwoB v) (hu0 : u ≠ []) (hv0 : v ≠ [])
    {r : Nat} (hr : r < 4) (hr' : r ≠ 1) : lcpLen (img r u) (img 1 v) ≤ 4 := by
  mistac

theorem mis3 {u v : List UInt8} (hu : AbWord u) (hv : AbWord v) (bu : NoTwoB u) (bv : NoTwoB v) (hu0 : u ≠ []) (hv0 : v ≠ [])
    {r : Nat} (hr : r < 4) (hr' : r ≠ 3) : lcpLen (img r u) (img 3 v) ≤ 4 := by
  mistac

/-! ### Phrases and their images -/

/-- The phrase of length `l` at `v` ends before a mismatch with a smaller suffix. -/
structure PM (t v : List UInt8) (l : Nat) : Prop where
  pos : 1 ≤ l
  bound : ∀ u, SmallerSuffix t u v → lcpLen u v ≤ l
  ex : ∃ u, SmallerSuffix t u v ∧ lcpLen u v = l ∧ l < u.length

/-- The phrase of length `l` at `v` is a suffix of the text, and no smaller suffix that is longer agrees with it that far. -/
structure PE (t v : List UInt8) (l : Nat) : Prop where
  pos : 2 ≤ l
  bound : ∀ u, SmallerSuffix t u v → lcpLen u v < l ∨ lcpLen u v = l ∧ u.length = l
  ex : ∃ u, SmallerSuffix t u v ∧ lcpLen u v = l ∧ u.length = l

/-- If the smaller word is longer than the common prefix, so is the larger one. -/
theorem lcp_lt_right {u v : List UInt8} (h : u < v) (_ : lcpLen u v < u.length) : lcpLen u v < v.length := by
  by_contra hc
  have h1 := lcpLen_le_right u v
  have h2 : lcpLen u v = v.length := by omega
  have h3 := lcpLen_take u v
  rw [h2, List.take_length] at h3
  have : v <+: u := by rw [← h3]; exact List.take_prefix _ _
  exact absurd h (not_lt_of_ge (le_of_prefix this))

theorem lcp_lt_right' {u v : List UInt8} (h : u < v) (hl : lcpLen u v = u.length) : lcpLen u v < v.length := by
  by_contra hc
  have h1 := lcpLen_le_right u v
  have h2 : lcpLen u v = v.length := by omega
  have h3 := lcpLen_take u v
  rw [hl, List.take_length, ← hl, h2, List.take_length] at h3
  exact absurd h (by rw [h3]; exact lt_irrefl _)

theorem img_ne {v : List UInt8} (hv : v ≠ []) {r : Nat} (hr : r < 4) : img r v ≠ [] := by
  intro h
  have h1 := img_length (v := v) r
  have := List.length_pos_iff.2 hv
  rw [h] at h1
  simp at h1
  omega

/-- What a smaller suffix of the image is. -/
theorem img_smaller {w v u' : List UInt8} {r : Nat} (hr : r < 4) (hv : v ≠ []) (h : SmallerSuffix (pdQ w) u' (img r v)) :
    (∃ u, SmallerSuffix w u v ∧ u' = img r u) ∨ ∃ r' u, r' < 4 ∧ r' ≠ r ∧ u <:+ w ∧ u ≠ [] ∧ u' = img r' u := by
  obtain ⟨h1, h2, h3⟩ := h
  obtain ⟨r', u, g1, g2, g3, rfl⟩ := pdQ_suffix h1 h2
  by_cases e : r' = r
  · subst e
    exact .inl ⟨u, ⟨g2, g3, (img_lt g3 hv g1).1 h3⟩, rfl⟩
  · exact .inr ⟨r', u, g1, e, g2, g3, rfl⟩

theorem smaller_img {w v u : List UInt8} {r : Nat} (hr : r < 4) (hv : v ≠ []) (h : SmallerSuffix w u v) :
    SmallerSuffix (pdQ w) (img r u) (img r v) :=
  ⟨img_suffix r h.1, img_ne h.2.1 hr, (img_lt h.2.1 hv hr).2 h.2.2⟩

theorem mis {w u v : List UInt8} (hw : AbWord w) (hb : NoTwoB w) (hu : u <:+ w) (hv : v <:+ w) (hu0 : u ≠ []) (hv0 : v ≠ [])
    {r r' : Nat} (hr : r < 4) (hr' : r' < 4) (hne : r' ≠ r) (h2 : r ≠ 2) : lcpLen (img r' u) (img r v) ≤ if r = 0 then 5 else 4 := by
  rcases (show r = 0 ∨ r = 1 ∨ r = 3 by omega) with rfl | rfl | rfl
  · exact mis0 (hw.suffix hu) (hw.suffix hv) (hb.suffix hu) (hb.suffix hv) hu0 hv0 hr' hne
  · exact mis1 (hw.suffix hu) (hw.suffix hv) (hb.suffix hu) (hb.suffix hv) hu0 hv0 hr' hne
  · exact mis3 (hw.suffix hu) (hw.suffix hv) (hb.suffix hu) (hb.suffix hv) hu0 hv0 hr' hne

theorem PM.img {w v : List UInt8} {l r : Nat} (hw : AbWord w) (hb : NoTwoB w) (hv : v <:+ w) (hv0 : v ≠ []) (h : PM w v l) (hr : r < 4)
    (h2 : r ≠ 2) : PM (pdQ w) (img r v) (4 * l + 3 - r) := by
  have hl := h.pos
  refine ⟨by omega, fun u' hu => ?_, ?_⟩
  · rcases img_smaller hr hv0 hu with ⟨u, g1, rfl⟩ | ⟨r', u, g1, g2, g3, g4, rfl⟩
    · have e := img_lcp g1.2.1 hv0 hr
      have := h.bound u g1
      split at e <;> omega
    · have := mis hw hb g3 hv g4 hv0 hr g1 g2 h2
      split at this <;> omega
  · obtain ⟨u, g1, g2, g3⟩ := h.ex
    have e := img_lcp g1.2.1 hv0 hr
    have g4 := lcp_lt_right g1.2.2 (by omega)
    rw [if_pos ⟨by omega, g4⟩, g2] at e
    refine ⟨_, smaller_img hr hv0 g1, by omega, ?_⟩
    rw [img_length]
    omega

theorem PE.img {w v : List UInt8} {l r : Nat} (hw : AbWord w) (hb : NoTwoB w) (hv : v <:+ w) (hv0 : v ≠ []) (h : PE w v l) (hr : r < 4)
    (h2 : r ≠ 2) : PE (pdQ w) (img r v) (4 * l - r) := by
  have hl := h.pos
  refine ⟨by omega, fun u' hu => ?_, ?_⟩
  · rcases img_smaller hr hv0 hu with ⟨u, g1, rfl⟩ | ⟨r', u, g1, g2, g3, g4, rfl⟩
    · have e := img_lcp g1.2.1 hv0 hr
      rcases h.bound u g1 with g5 | ⟨g5, g6⟩
      · left
        split at e <;> omega
      · right
        rw [if_neg (by omega), g5] at e
        rw [img_length]
        omega
    · have := mis hw hb g3 hv g4 hv0 hr g1 g2 h2
      left
      split at this <;> omega
  · obtain ⟨u, g1, g2, g3⟩ := h.ex
    have e := img_lcp g1.2.1 hv0 hr
    rw [if_neg (by omega), g2] at e
    refine ⟨_, smaller_img hr hv0 g1, by omega, ?_⟩
    rw [img_length]
    omega

theorem PM.len {t v : List UInt8} {l : Nat} (h : PM t v l) : LexLen t v l ∧ l < v.length := by
  obtain ⟨u, g1, g2, g3⟩ := h.ex
  exact ⟨⟨h.bound, .inr ⟨u, g1, g2⟩⟩, by have := lcp_lt_right g1.2.2 (by omega); omega⟩

theorem PE.len {t v : List UInt8} {l : Nat} (h : PE t v l) : LexLen t v l ∧ l < v.length := by
  obtain ⟨u, g1, g2, g3⟩ := h.ex
  refine ⟨⟨fun u hu => ?_, .inr ⟨u, g1, g2⟩⟩, by have := lcp_lt_right' g1.2.2 (by omega); omega⟩
  rcases h.bound u hu with h | h <;> omega

/-- A part of the parse of `t` from `v` to `e` with `m` phrases; in the image of `t` the parse continues `r` letters after the beginning of the
image of `v` and `r'` letters after the beginning of the image of `e`. -/
inductive PdPart (t : List UInt8) : Nat → List UInt8 → Nat → List UInt8 → Nat → Prop
  | refl {r : Nat} {v : List UInt8} : PdPart t r v r v 0
  | consM {r r' l m : Nat} {v e : List UInt8} : PM t v l → PdPart t 3 (v.drop l) r' e m → PdPart t r v r' e (m + 1)
  | consE {r r' l m : Nat} {v e : List UInt8} : PE t v l → PdPart t 0 (v.drop l) r' e m → PdPart t r v r' e (m + 1)

theorem PdPart.trans {t v e f : List UInt8} {r r' r'' m n : Nat} (h : PdPart t r v r' e m) (h' : PdPart t r' e r'' f n) :
    PdPart t r v r'' f (m + n) := by
  induction h with
  | refl => rwa [Nat.zero_add]
  | consM h1 _ ih => rw [Nat.add_right_comm]; exact .consM h1 (ih h')
  | consE h1 _ ih => rw [Nat.add_right_comm]; exact .consE h1 (ih h')

theorem PdPart.phrases {t v e : List UInt8} {r r' m n : Nat} (h : PdPart t r v r' e m) (h' : LexPhrases t e n) :
    LexPhrases t v (m + n) := by
  induction h with
  | refl => rwa [Nat.zero_add]
  | consM h1 _ ih =>
    rw [Nat.add_right_comm]
    have := h1.len
    refine .cons (by rintro rfl; simp at this) this.1 ?_
    rw [Nat.max_eq_right h1.pos]
    exact ih h'
  | consE h1 _ ih =>
    rw [Nat.add_right_comm]
    have := h1.len
    refine .cons (by rintro rfl; simp at this) this.1 ?_
    rw [Nat.max_eq_right (by have := h1.pos; omega)]
    exact ih h'

theorem img_drop (v : List UInt8) (r l r' : Nat) (h : r ≤ 4 * l + r') : (img r v).drop (4 * l + r' - r) = img r' (v.drop l) := by
  rw [img, List.drop_drop, show r + (4 * l + r' - r) = 4 * l + r' by omega, ← List.drop_drop, pdQ_drop, img]

theorem PdPart.img {w v e : List UInt8} {r r' m : Nat} (hw : AbWord w) (hb : NoTwoB w) (h : PdPart w r v r' e m) :
    r < 4 → r ≠ 2 → v <:+ w → PdPart (pdQ w) r (img r v) r' (Verif.img r' e) m := by
  induction h with
  | refl => intro _ _ _; exact .refl
  | @consM r r' l m v e h1 _ ih =>
    intro hr h2 hv
    have hv0 : v ≠ [] := by have := h1.len.2; rintro rfl; simp at this
    refine .consM (h1.img hw hb hv hv0 hr h2) ?_
    rw [img_drop _ _ _ _ (by omega)]
    exact ih (by omega) (by omega) ((List.drop_suffix _ _).trans hv)
  | @consE r r' l m v e h1 _ ih =>
    intro hr h2 hv
    have hv0 : v ≠ [] := by have := h1.len.2; rintro rfl; simp at this
    have := h1.pos
    refine .consE (h1.img hw hb hv hv0 hr h2) ?_
    have e := img_drop v r l 0 (by omega)
    rw [Nat.add_zero] at e
    rw [e]
    exact ih (by omega) (by omega) ((List.drop_suffix _ _).trans hv)

/-! ### Even orders -/

theorem pdQ_noTwoB (w : List UInt8) : NoTwoB (pdQ w) := by
  intro u h
  obtain ⟨r, v, h1, h2, h3, h4⟩ := pdQ_suffix h (by simp)
  cases v with
  | nil => exact absurd rfl h3
  | cons c v =>
    rcases (show r = 0 ∨ r = 1 ∨ r = 2 ∨ r = 3 by omega) with rfl | rfl | rfl | rfl
    · simp [img, pdQ] at h4
    · simp [img, pdQ] at h4
    · simp [img, pdQ] at h4
    · cases v <;> simp [img, pdQ] at h4

/-- What is known of the words of even order. -/
structure LexPdEven (w : List UInt8) (m : Nat) : Prop where
  bin : AbWord w
  bb : NoTwoB w
  fin : ∃ s, w = s ++ [98, 97, 97]
  body : PdPart w 0 w 3 [98, 97, 97] m

theorem end_baa {s u : List UInt8} (h : u <:+ s ++ [98, 97, 97]) (h0 : u ≠ []) :
    u = [97] ∨ u = [97, 97] ∨ ∃ r, u = r ++ [98, 97, 97] := by
  rcases suffix_end3 h with rfl | rfl | rfl | ⟨a, b, c, r, rfl⟩
  · exact absurd rfl h0
  · exact .inl rfl
  · exact .inr (.inl rfl)
  · right; right
    obtain ⟨p, e⟩ := h
    rcases List.append_eq_append_iff.1 e with ⟨q, -, e2⟩ | ⟨q, -, e2⟩
    · exact ⟨q, e2⟩
    · have := congrArg List.length e2
      simp at this
      cases q with
      | nil => exact ⟨[], by simpa using e2.symm⟩
      | cons x q => simp at this; omega

theorem end_baa_b {s u : List UInt8} (h : u <:+ s ++ [98, 97, 97]) : u ≠ [98] ∧ u ≠ [98, 97] := by
  constructor <;> rintro rfl <;> rcases end_baa h (by simp) with e | e | ⟨r, e⟩
  · exact absurd e (by decide)
  · exact absurd e (by decide)
  · have := congrArg List.length e; simp at this
  · exact absurd e (by decide)
  · exact absurd e (by decide)
  · have := congrArg List.length e; simp at this

theorem lt_aa {u : List UInt8} (hu : AbWord u) (h : u < [97, 97]) : u = [] ∨ u = [97] := by
  rcases u with _ | ⟨a, _ | ⟨b, u⟩⟩
  · exact .inl rfl
  · rcases hu.head with rfl | rfl
    · exact .inr rfl
    · exact absurd h (by decide)
  · exfalso
    rcases hu.head with rfl | rfl <;> rcases hu.tail.head with rfl | rfl <;> simp [List.cons_lt_cons_iff] at h

theorem lt_baa {s u : List UInt8} (hw : AbWord (s ++ [98, 97, 97])) (h : u <:+ s ++ [98, 97, 97]) (h0 : u ≠ []) (hl : u < [98, 97, 97]) :
    ∃ x, u = 97 :: x := by
  cases u with
  | nil => exact absurd rfl h0
  | cons c x =>
    have hb := hw.suffix h
    rcases hb.head with rfl | rfl
    · exact ⟨x, rfl⟩
    · rw [List.cons_lt_cons_iff] at hl
      have hl := hl.resolve_left (lt_irrefl _)
      rcases lt_aa hb.tail hl.2 with rfl | rfl
      · exact absurd rfl (end_baa_b h).1
      · exact absurd rfl (end_baa_b h).2

theorem pdEven_next {w : List UInt8} {m : Nat} (h : LexPdEven w m) : LexPdEven (pdQ w) (m + 3) := by
  obtain ⟨s, rfl⟩ := h.fin
  have hw := h.bin
  have hsuf : [98, 97, 97] <:+ s ++ [98, 97, 97] := List.suffix_append _ _
  have hW : pdQ (s ++ [98, 97, 97]) = (pdQ s ++ [97, 98, 97, 98, 97, 98, 97, 97, 97]) ++ [98, 97, 97] := by
    rw [pdQ_append]
    simp [pdQ]
  have hT : [98, 97, 97] <:+ pdQ (s ++ [98, 97, 97]) := ⟨_, hW.symm⟩
  have hT' : [98, 97, 97, 97, 98, 97, 97] <:+ pdQ (s ++ [98, 97, 97]) :=
    img_suffix 1 (u := [97, 97]) (List.IsSuffix.trans ⟨[98], rfl⟩ hsuf)
  have three : ∀ {r : Nat}, r < 4 → r = 0 ∨ r = 1 ∨ r = 2 ∨ r = 3 := fun h => by omega
  have p1 : PM (pdQ (s ++ [98, 97, 97])) [98, 97, 98, 97, 97, 97, 98, 97, 97] 2 := by
    refine ⟨by decide, fun u' hu => ?_, _, ⟨hT', by decide, by decide⟩, by decide, by decide⟩
    rcases img_smaller (r := 3) (v := [98, 97, 97]) (by decide) (by decide) hu with ⟨u, g, rfl⟩ | ⟨r, u, g1, g2, g3, g4, rfl⟩
    · obtain ⟨x, rfl⟩ := lt_baa hw g.1 g.2.1 g.2.2
      simp [img, pdQ, lcpLen]
    · have hub := hw.suffix g3
      have hlt := hu.2.2
      rcases u with _ | ⟨c, _ | ⟨d, u⟩⟩
      · exact absurd rfl g4
      · rcases three g1 with rfl | rfl | rfl | rfl
        · simp [img, pdQ, lcpLen]
        · rcases hub.head with rfl | rfl
          · simp [img, pdQ, lcpLen]
          · exact absurd rfl (end_baa_b g3).1
        · simp [img, pdQ, lcpLen]
        · exact absurd rfl g2
      · rcases three g1 with rfl | rfl | rfl | rfl
        · simp [img, pdQ, lcpLen]
        · rcases hub.head with rfl | rfl
          · simp [img, pdQ, lcpLen]
          · simp [img, pdQ, List.cons_lt_cons_iff] at hlt
        · simp [img, pdQ, lcpLen]
        · exact absurd rfl g2
  have p2 : PE (pdQ (s ++ [98, 97, 97])) [98, 97, 97, 97, 98, 97, 97] 3 := by
    refine ⟨by decide, fun u' hu => ?_, _, ⟨hT, by decide, by decide⟩, by decide, by decide⟩
    rcases img_smaller (r := 1) (v := [97, 97]) (by decide) (by decide) hu with ⟨u, g, rfl⟩ | ⟨r, u, g1, g2, g3, g4, rfl⟩
    · rcases lt_aa (hw.suffix g.1) g.2.2 with rfl | rfl
      · exact absurd rfl g.2.1
      · exact .inr (by decide)
    · left
      have hub := hw.suffix g3
      rcases u with _ | ⟨c, _ | ⟨d, u⟩⟩
      · exact absurd rfl g4
      · rcases three g1 with rfl | rfl | rfl | rfl
        · simp [img, pdQ, lcpLen]
        · exact absurd rfl g2
        · simp [img, pdQ, lcpLen]
        · rcases hub.head with rfl | rfl <;> simp [img, pdQ, lcpLen]
      · rcases three g1 with rfl | rfl | rfl | rfl
        · simp [img, pdQ, lcpLen]
        · exact absurd rfl g2
        · simp [img, pdQ, lcpLen]
        · rcases hub.head with rfl | rfl <;> simp [img, pdQ, lcpLen]
  have p3 : PM (pdQ (s ++ [98, 97, 97])) [97, 98, 97, 97] 1 := by
    refine ⟨by decide, fun u' hu => ?_, [97, 97], ⟨List.IsSuffix.trans ⟨[98], rfl⟩ hT, by decide, by decide⟩, by decide, by decide⟩
    rcases img_smaller (r := 0) (v := [97]) (by decide) (by decide) hu with ⟨u, g, rfl⟩ | ⟨r, u, g1, g2, g3, g4, rfl⟩
    · have : u < [97, 97] := lt_trans g.2.2 (by decide)
      rcases lt_aa (hw.suffix g.1) this with rfl | rfl
      · exact absurd rfl g.2.1
      · exact absurd g.2.2 (lt_irrefl _)
    · have hub := hw.suffix g3
      have hlt := hu.2.2
      rcases u with _ | ⟨c, _ | ⟨d, u⟩⟩
      · exact absurd rfl g4
      · rcases three g1 with rfl | rfl | rfl | rfl
        · exact absurd rfl g2
        · simp [img, pdQ, lcpLen]
        · rcases hub.head with rfl | rfl
          · simp [img, pdQ, lcpLen]
          · exact absurd rfl (end_baa_b g3).1
        · rcases hub.head with rfl | rfl <;> simp [img, pdQ, lcpLen]
      · rcases three g1 with rfl | rfl | rfl | rfl
        · exact absurd rfl g2
        · simp [img, pdQ, lcpLen]
        · rcases hub.head with rfl | rfl
          · simp [img, pdQ, lcpLen]
          · simp [img, pdQ, List.cons_lt_cons_iff] at hlt
        · rcases hub.head with rfl | rfl <;> simp [img, pdQ, lcpLen]
  refine ⟨pdQ_bin hw, pdQ_noTwoB _, ⟨_, hW⟩, ?_⟩
  exact (h.body.img hw h.bb (by decide) (by decide) (List.suffix_refl _)).trans
    (.consM p1 (.consE p2 (.consM p3 .refl)))

theorem baa_phrases {s : List UInt8} (hw : AbWord (s ++ [98, 97, 97])) : LexPhrases (s ++ [98, 97, 97]) [98, 97, 97] 3 := by
  refine lexPhrases_one 0 1 (by simp) ⟨fun u hu => ?_, .inl rfl⟩ rfl
    (lexPhrases_one 1 1 (by simp) ⟨fun u hu => ?_, .inr ⟨[97], ⟨⟨s ++ [98, 97], by simp⟩, by decide, by decide⟩, rfl⟩⟩ rfl
      (lexPhrases_one 0 1 (by simp) ⟨fun u hu => ?_, .inl rfl⟩ rfl .nil))
  · obtain ⟨x, rfl⟩ := lt_baa hw hu.1 hu.2.1 hu.2.2
    simp [lcpLen]
  · rcases lt_aa (hw.suffix hu.1) hu.2.2 with rfl | rfl <;> decide
  · have : u < [97, 97] := lt_trans hu.2.2 (by decide)
    rcases lt_aa (hw.suffix hu.1) this with rfl | rfl
    · decide
    · exact absurd hu.2.2 (by decide)

theorem LexPdEven.phrases {w : List UInt8} {m : Nat} (h : LexPdEven w m) : LexFactors w (m + 3) := by
  obtain ⟨s, hs⟩ := h.fin
  refine h.body.phrases ?_
  rw [hs]
  exact baa_phrases (hs ▸ h.bin)

theorem pdEven_two : LexPdEven [97, 98, 97, 97] 1 := by
  refine ⟨by unfold AbWord; decide, pdQ_noTwoB [97], ⟨[97], rfl⟩, ?_⟩
  refine .consM (l := 1) ⟨by decide, ?_, [97, 97], ⟨by decide, by decide, by decide⟩, by decide, by decide⟩ .refl
  rintro u ⟨h1, h2, h3⟩
  simp only [List.suffix_cons_iff, List.suffix_nil] at h1
  rcases h1 with rfl | rfl | rfl | rfl | rfl
  · exact absurd h3 (by decide)
  · decide
  · decide
  · decide
  · exact absurd rfl h2

/-! ### Odd orders -/

/-- What is known of the words of odd order: `s` is the smallest suffix. -/
structure LexPdOdd (w s : List UInt8) (m n : Nat) : Prop where
  bin : AbWord w
  bb : NoTwoB w
  fin : ∃ x, w = x ++ [98]
  suf : s <:+ w
  pre : ∃ y, s = 97 :: 97 :: 97 :: 98 :: y
  min : ∀ u, u <:+ w → u ≠ [] → ¬ u < s
  first : PdPart w 0 w 0 s m
  mid : PM w (s.drop 1) 2
  last : PdPart w 3 (s.drop 3) 3 [98] n

theorem end_b {x : List UInt8} : ¬ [97] <:+ x ++ [98] := by
  rintro ⟨p, e⟩
  have := congrArg List.getLast? e
  simp at this

theorem pdOdd_next {w s : List UInt8} {m n : Nat} (h : LexPdOdd w s m n) : LexPdOdd (pdQ w) (img 2 s) (m + 1) (n + 1) := by
  obtain ⟨x, hx⟩ := h.fin
  obtain ⟨y, hy⟩ := h.pre
  have hw := h.bin
  have hs0 : s ≠ [] := by rw [hy]; simp
  have hb : [98] <:+ w := ⟨x, hx.symm⟩
  have ha : ¬ [97] <:+ w := by rw [hx]; exact end_b
  have three : ∀ {r : Nat}, r < 4 → r = 0 ∨ r = 1 ∨ r = 2 ∨ r = 3 := fun h => by omega
  have hS : img 2 s <:+ pdQ w := img_suffix 2 h.suf
  have p1 : PE (pdQ w) (pdQ s) 2 := by
    refine ⟨by decide, fun u' hu => ?_, img 2 [98], ⟨img_suffix 2 hb, by decide, ?_⟩, ?_, rfl⟩
    · rcases img_smaller (r := 0) (v := s) (by decide) hs0 hu with ⟨u, g, rfl⟩ | ⟨r, u, g1, g2, g3, g4, rfl⟩
      · exact absurd g.2.2 (h.min u g.1 g.2.1)
      · have hub := hw.suffix g3
        have hlt := hu.2.2
        rw [hy] at hlt ⊢
        rcases u with _ | ⟨c, _ | ⟨d, u⟩⟩
        · exact absurd rfl g4
        · rcases three g1 with rfl | rfl | rfl | rfl <;> rcases hub.head with rfl | rfl <;>
            first | (exact absurd rfl g2) | simp [img, pdQ, lcpLen]
        · rcases three g1 with rfl | rfl | rfl | rfl
          · exact absurd rfl g2
          · simp [img, pdQ, lcpLen]
          · rcases hub.head with rfl | rfl
            · simp [img, pdQ, lcpLen]
            · simp [img, pdQ, List.cons_lt_cons_iff] at hlt
          · rcases hub.head with rfl | rfl <;> simp [img, pdQ, lcpLen]
    · rw [hy]; simp [img, pdQ]
    · rw [hy]; simp [img, pdQ, lcpLen]
  have e3 : (img 2 s).drop 1 = img 3 s := by simp [img, List.drop_drop]
  have p2 : PM (pdQ w) ((img 2 s).drop 1) 2 := by
    rw [e3]
    refine ⟨by decide, fun u' hu => ?_, img 2 s, ⟨hS, img_ne hs0 (by decide), ?_⟩, ?_, ?_⟩
    · rcases img_smaller (r := 3) (v := s) (by decide) hs0 hu with ⟨u, g, rfl⟩ | ⟨r, u, g1, g2, g3, g4, rfl⟩
      · exact absurd g.2.2 (h.min u g.1 g.2.1)
      · have hub := hw.suffix g3
        rw [hy]
        rcases u with _ | ⟨c, _ | ⟨d, u⟩⟩
        · exact absurd rfl g4
        · rcases three g1 with rfl | rfl | rfl | rfl <;> rcases hub.head with rfl | rfl <;>
            first | (exact absurd rfl g2) | simp [img, pdQ, lcpLen]
        · rcases three g1 with rfl | rfl | rfl | rfl
          · simp [img, pdQ, lcpLen]
          · simp [img, pdQ, lcpLen]
          · rcases hub.head with rfl | rfl <;> simp [img, pdQ, lcpLen]
          · exact absurd rfl g2
    · rw [hy]; simp [img, pdQ, List.cons_lt_cons_iff]
    · rw [hy]; simp [img, pdQ, lcpLen]
    · rw [img_length, hy]; simp; omega
  refine ⟨pdQ_bin hw, pdQ_noTwoB _, ⟨pdQ x ++ [97, 98, 97], by rw [hx, pdQ_append]; simp [pdQ]⟩, hS,
    ⟨97 :: 97 :: 97 :: 98 :: 97 :: 97 :: 97 :: 98 :: 97 :: 98 :: pdQ y, by rw [hy]; simp [img, pdQ]⟩, ?_, ?_, p2, ?_⟩
  · intro u' hu hu0 hlt
    obtain ⟨r, u, g1, g2, g3, rfl⟩ := pdQ_suffix hu hu0
    have hub := hw.suffix g2
    rcases three g1 with rfl | rfl | rfl | rfl
    · rw [hy] at hlt
      rcases u with _ | ⟨c, u⟩
      · exact absurd rfl g3
      · simp [img, pdQ, List.cons_lt_cons_iff] at hlt
    · rw [hy] at hlt
      rcases u with _ | ⟨c, u⟩
      · exact absurd rfl g3
      · simp [img, pdQ, List.cons_lt_cons_iff] at hlt
    · exact h.min u g2 g3 ((img_lt g3 hs0 (by decide)).1 hlt)
    · rw [hy] at hlt
      rcases u with _ | ⟨c, _ | ⟨d, u⟩⟩
      · exact absurd rfl g3
      · rcases hub.head with rfl | rfl
        · exact ha g2
        · simp [img, pdQ, List.cons_lt_cons_iff] at hlt
      · rcases hub.head with rfl | rfl <;> simp [img, pdQ, List.cons_lt_cons_iff] at hlt
  · exact (h.first.img hw h.bb (by decide) (by decide) (List.suffix_refl _)).trans (.consE p1 .refl)
  · have q := h.mid.img (r := 1) hw h.bb ((List.drop_suffix _ _).trans h.suf) (by rw [hy]; simp) (by decide) (by decide)
    have e : (img 2 s).drop 3 = img 1 (s.drop 1) := by
      rw [img, List.drop_drop, img, ← pdQ_drop, List.drop_drop]
    rw [e]
    refine .consM q ?_
    rw [img_drop _ _ _ _ (by decide), List.drop_drop]
    exact h.last.img hw h.bb (by decide) (by decide) ((List.drop_suffix _ _).trans h.suf)

theorem LexPdOdd.phrases {w s : List UInt8} {m n : Nat} (h : LexPdOdd w s m n) : LexFactors w (m + n + 3) := by
  have hs0 : s ≠ [] := by obtain ⟨y, hy⟩ := h.pre; rw [hy]; simp
  have hb : LexPhrases w [98] 1 := by
    refine lexPhrases_one 0 1 (by simp) ⟨fun u hu => ?_, .inl rfl⟩ rfl .nil
    rcases u with _ | ⟨c, u⟩
    · simp
    · rcases (h.bin.suffix hu.1).head with rfl | rfl
      · simp [lcpLen]
      · exact absurd hu.2.2 (by simp)
  have h3 := h.last.phrases hb
  have h2 : LexPhrases w (s.drop 1) (n + 1 + 1) := (PdPart.consM (r := 0) (r' := 3) h.mid .refl).phrases (m := 1) (by
    rw [List.drop_drop]; exact h3) |> fun x => by rwa [Nat.add_comm 1] at x
  have h1 : LexPhrases w s (n + 1 + 1 + 1) :=
    lexPhrases_one 0 1 hs0 ⟨fun u hu => absurd hu.2.2 (h.min u hu.1 hu.2.1), .inl rfl⟩ rfl h2
  have h0 := h.first.phrases h1
  rwa [show m + (n + 1 + 1 + 1) = m + n + 3 by omega] at h0

theorem pdOdd_three : LexPdOdd [97, 98, 97, 97, 97, 98, 97, 98] [97, 97, 97, 98, 97, 98] 1 1 := by
  have sufs : ∀ u, u <:+ [97, 98, 97, 97, 97, 98, 97, 98] → u ∈ ([97, 98, 97, 97, 97, 98, 97, 98] : List UInt8).tails := fun u h =>
    (List.mem_tails _ _).2 h
  refine ⟨by unfold AbWord; decide, pdQ_noTwoB [97, 98], ⟨[97, 98, 97, 97, 97, 98, 97], rfl⟩, ⟨[97, 98], rfl⟩, ⟨_, rfl⟩, ?_, ?_, ?_, ?_⟩
  · intro u h
    revert u
    have : ∀ u ∈ ([97, 98, 97, 97, 97, 98, 97, 98] : List UInt8).tails, u ≠ [] → ¬ u < [97, 97, 97, 98, 97, 98] := by decide
    intro u h
    exact this u (sufs u h)
  · refine .consE (l := 2) ⟨by decide, ?_, [97, 98], ⟨⟨[97, 98, 97, 97, 97, 98], rfl⟩, by decide, by decide⟩, by decide, rfl⟩ .refl
    have : ∀ u ∈ ([97, 98, 97, 97, 97, 98, 97, 98] : List UInt8).tails, u < [97, 98, 97, 97, 97, 98, 97, 98] →
      lcpLen u [97, 98, 97, 97, 97, 98, 97, 98] < 2 ∨ lcpLen u [97, 98, 97, 97, 97, 98, 97, 98] = 2 ∧ u.length = 2 := by decide
    exact fun u h => this u (sufs u h.1) h.2.2
  · refine ⟨by decide, ?_, [97, 97, 97, 98, 97, 98], ⟨⟨[97, 98], rfl⟩, by decide, by decide⟩, by decide, by decide⟩
    have : ∀ u ∈ ([97, 98, 97, 97, 97, 98, 97, 98] : List UInt8).tails, u < [97, 97, 98, 97, 98] → lcpLen u [97, 97, 98, 97, 98] ≤ 2 := by
      decide
    exact fun u h => this u (sufs u h.1) h.2.2
  · refine .consM (l := 2) ⟨by decide, ?_, [98, 97, 97, 97, 98, 97, 98], ⟨⟨[97], rfl⟩, by decide, by decide⟩, by decide, by decide⟩ .refl
    have : ∀ u ∈ ([97, 98, 97, 97, 97, 98, 97, 98] : List UInt8).tails, u < [98, 97, 98] → lcpLen u [98, 97, 98] ≤ 2 := by
      decide
    exact fun u h => this u (sufs u h.1) h.2.2

/-! ### The words -/

theorem pdMor_twice {w : List UInt8} (h : AbWord w) : (w.flatMap pdMor).flatMap pdMor = pdQ w := by
  induction w with
  | nil => rfl
  | cons c w ih =>
    rw [List.flatMap_cons, List.flatMap_append, ih h.tail]
    rcases h.head with rfl | rfl <;> rfl

theorem lexPd_even : ∀ j, LexPdEven (iter pdMor (2 * j + 2) [97]) (3 * j + 1)
  | 0 => pdEven_two
  | j + 1 => by
    have h := lexPd_even j
    have e : iter pdMor (2 * (j + 1) + 2) [97] = pdQ (iter pdMor (2 * j + 2) [97]) := by
      rw [← pdMor_twice h.bin]; rfl
    rw [e]
    exact pdEven_next h

theorem lexPd_odd : ∀ j, ∃ s, LexPdOdd (iter pdMor (2 * j + 3) [97]) s (j + 1) (j + 1)
  | 0 => ⟨_, pdOdd_three⟩
  | j + 1 => by
    obtain ⟨s, h⟩ := lexPd_odd j
    have e : iter pdMor (2 * (j + 1) + 3) [97] = pdQ (iter pdMor (2 * j + 3) [97]) := by
      rw [← pdMor_twice h.bin]; rfl
    rw [e]
    exact ⟨_, pdOdd_next h⟩

theorem pd_lexFactors_even (j : Nat) : LexFactors (iter pdMor (2 * j + 2) [97]) (3 * j + 4) := (lexPd_even j).phrases

theorem pd_lexFactors_odd (j : Nat) : LexFactors (iter pdMor (2 * j + 3) [97]) (2 * j + 5) := by
  obtain ⟨s, h⟩ := lexPd_odd j
  have := h.phrases
  rwa [show j + 1 + (j + 1) + 3 = 2 * j + 5 by omega] at this

end Verif
