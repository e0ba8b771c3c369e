import Verif.Lemmas.LexWords
import Verif.Lemmas.Uniform
import Verif.Spec.Morphism

/-! # The lexicographic parse of the Thue–Morse words -/

namespace Verif

open Spec Model

/-- A word over `a` and `b`. -/
def AbWord (w : List UInt8) : Prop := ∀ c ∈ w, c = 97 ∨ c = 98

theorem AbWord.suffix {u w : List UInt8} (h : AbWord w) (hs : u <:+ w) : AbWord u := fun c hc => h c (hs.subset hc)

theorem AbWord.tail {c : UInt8} {w : List UInt8} (h : AbWord (c :: w)) : AbWord w := fun d hd => h d (by simp [hd])

theorem AbWord.head {c : UInt8} {w : List UInt8} (h : AbWord (c :: w)) : c = 97 ∨ c = 98 := h c (by simp)

theorem bin_iff_cons {c : UInt8} {w : List UInt8} : AbWord (c :: w) ↔ (c = 97 ∨ c = 98) ∧ AbWord w :=
  ⟨fun h => ⟨h.head, h.tail⟩, fun h d hd => by
    rcases List.mem_cons.1 hd with rfl | hd
    · exact h.1
    · exact h.2 d hd⟩

/-- A part of the parse of `t`, from the suffix `v` to the suffix `e`, with `m` phrases of which each satisfies `P`. -/
inductive LexPart (t : List UInt8) (P : List UInt8 → Nat → Prop) : List UInt8 → List UInt8 → Nat → Prop
  | refl {e : List UInt8} : LexPart t P e e 0
  | cons {v e : List UInt8} {l m : Nat} : LexLen t v l → 1 ≤ l → l ≤ v.length → P v l → LexPart t P (v.drop l) e m →
      LexPart t P v e (m + 1)

theorem LexPart.trans {t : List UInt8} {P : List UInt8 → Nat → Prop} {v e f : List UInt8} {m n : Nat} (h : LexPart t P v e m)
    (h' : LexPart t P e f n) : LexPart t P v f (m + n) := by
  induction h with
  | refl => rwa [Nat.zero_add]
  | cons h1 h2 h3 h4 _ ih =>
    rw [Nat.add_right_comm]
    exact .cons h1 h2 h3 h4 (ih h')

theorem LexPart.phrases {t : List UInt8} {P : List UInt8 → Nat → Prop} {v e : List UInt8} {m n : Nat} (h : LexPart t P v e m)
    (h' : LexPhrases t e n) : LexPhrases t v (m + n) := by
  induction h with
  | refl => rwa [Nat.zero_add]
  | cons h1 h2 h3 h4 _ ih =>
    rw [Nat.add_right_comm]
    refine .cons (by rintro rfl; simp at h3; omega) h1 ?_
    rw [Nat.max_eq_right h2]
    exact ih h'

theorem LexPart.suffix {t : List UInt8} {P : List UInt8 → Nat → Prop} {v e : List UInt8} {m : Nat} (h : LexPart t P v e m) :
    e <:+ v := by
  induction h with
  | refl => exact List.suffix_refl _
  | cons _ _ _ _ _ ih => exact ih.trans (List.drop_suffix _ _)

/-- the Thue–Morse image of a word -/
def tmH (w : List UInt8) : List UInt8 := w.flatMap tmMor

@[simp] theorem tmH_nil : tmH [] = [] := rfl
theorem tmH_cons (c : UInt8) (w : List UInt8) : tmH (c :: w) = tm0 c :: tm1 c :: tmH w := by
  rw [tmH, List.flatMap_cons, tmMor_eq]; rfl
@[simp] theorem tmH_a (w : List UInt8) : tmH (97 :: w) = 97 :: 98 :: tmH w := tmH_cons _ _
@[simp] theorem tmH_b (w : List UInt8) : tmH (98 :: w) = 98 :: 97 :: tmH w := tmH_cons _ _
theorem tmH_append (u v : List UInt8) : tmH (u ++ v) = tmH u ++ tmH v := List.flatMap_append

theorem tmH_bin (w : List UInt8) : AbWord (tmH w) := by
  induction w with
  | nil => intro c hc; cases hc
  | cons c w ih =>
    rw [tmH_cons, bin_iff_cons, bin_iff_cons]
    refine ⟨?_, ?_, ih⟩
    · unfold tm0; split <;> simp
    · unfold tm1; split <;> simp

theorem tmH_length (w : List UInt8) : (tmH w).length = 2 * w.length := by
  induction w with
  | nil => rfl
  | cons c w ih => rw [tmH_cons]; simp [ih]; omega

theorem tmH_drop (w : List UInt8) : ∀ l, (tmH w).drop (2 * l) = tmH (w.drop l) := by
  induction w with
  | nil => intro l; simp
  | cons c w ih =>
    intro l
    cases l with
    | zero => rfl
    | succ l => rw [tmH_cons, show 2 * (l + 1) = 2 * l + 1 + 1 by omega, List.drop_succ_cons, List.drop_succ_cons, ih,
        List.drop_succ_cons]

theorem tmH_lcp : ∀ {u v : List UInt8}, AbWord u → AbWord v → lcpLen (tmH u) (tmH v) = 2 * lcpLen u v := by
  intro u
  induction u with
  | nil => intro v _ _; simp
  | cons c u ih =>
    intro v hu hv
    cases v with
    | nil => simp
    | cons d v =>
      have := ih hu.tail hv.tail
      rcases hu.head with rfl | rfl <;> rcases hv.head with rfl | rfl <;> simp [lcpLen, this] <;> omega

theorem tmH_lt : ∀ {u v : List UInt8}, AbWord u → AbWord v → (tmH u < tmH v ↔ u < v) := by
  intro u
  induction u with
  | nil =>
    intro v _ hv
    cases v with
    | nil => simp
    | cons d v => rcases hv.head with rfl | rfl <;> simp
  | cons c u ih =>
    intro v hu hv
    cases v with
    | nil => simp
    | cons d v =>
      have := ih hu.tail hv.tail
      rcases hu.head with rfl | rfl <;> rcases hv.head with rfl | rfl <;> simp [List.cons_lt_cons_iff, this]

theorem tmH_suffix {w u' : List UInt8} (h : u' <:+ tmH w) :
    (∃ u, u <:+ w ∧ u' = tmH u) ∨ ∃ c u, (c :: u) <:+ w ∧ u' = tm1 c :: tmH u := by
  induction w with
  | nil => exact .inl ⟨[], List.suffix_refl _, by simpa using h⟩
  | cons c w ih =>
    rw [tmH_cons, List.suffix_cons_iff, List.suffix_cons_iff] at h
    rcases h with h | h | h
    · exact .inl ⟨c :: w, List.suffix_refl _, by rw [h, tmH_cons]⟩
    · exact .inr ⟨c, w, List.suffix_refl _, h⟩
    · rcases ih h with ⟨u, h1, h2⟩ | ⟨d, u, h1, h2⟩
      · exact .inl ⟨u, h1.trans (List.suffix_cons _ _), h2⟩
      · exact .inr ⟨d, u, h1.trans (List.suffix_cons _ _), h2⟩

/-- The other occurrences: only one letter fits. -/
theorem tmH_shift : ∀ {u v : List UInt8} {c : UInt8} {l : Nat}, AbWord u → AbWord v → 2 * l + 1 ≤ lcpLen (c :: tmH u) (tmH v) →
    ∀ y ∈ v.take (l + 1), y = c := by
  intro u v
  induction v generalizing u with
  | nil => intro c l _ _ h; simp at h
  | cons d v ih =>
    intro c l hu hv h y hy
    have h0 : 0 < lcpLen (c :: tmH u) (tmH (d :: v)) := by omega
    have hd : d = c := by
      obtain ⟨x, u1, v1, e1, e2⟩ := lcpLen_pos.1 h0
      injection e1 with e1 _
      rcases hv.head with rfl | rfl
      · rw [tmH_a] at e2; injection e2 with e2 _; rw [e1, e2]
      · rw [tmH_b] at e2; injection e2 with e2 _; rw [e1, e2]
    subst hd
    rw [List.take_succ_cons, List.mem_cons] at hy
    rcases hy with rfl | hy
    · rfl
    cases l with
    | zero => simp at hy
    | succ l =>
      cases u with
      | nil => 
        have := lcpLen_le_left [d] (tmH (d :: v))
        simp only [tmH_nil] at h
        simp at this
        omega
      | cons x u =>
        rcases hv.head with rfl | rfl <;> rcases hu.head with rfl | rfl
        · simp [lcpLen] at h
        · simp only [tmH_a, tmH_b, lcpLen, if_true] at h
          exact ih (u := u) hu.tail hv.tail (l := l) (by omega) y hy
        · simp only [tmH_a, tmH_b, lcpLen, if_true] at h
          exact ih (u := u) hu.tail hv.tail (l := l) (by omega) y hy
        · simp [lcpLen] at h

/-- Two different letters among the first `l + 1`. -/
def Mixed (v : List UInt8) (l : Nat) : Prop :=
  ∃ x ∈ v.take (l + 1), ∃ y ∈ v.take (l + 1), x ≠ y

instance (v : List UInt8) (l : Nat) : Decidable (Mixed v l) := by unfold Mixed; infer_instance

theorem tmH_lexLen {w v : List UInt8} {l : Nat} (hw : AbWord w) (hv : v <:+ w) (h : LexLen w v l) (hm : Mixed v l) :
    LexLen (tmH w) (tmH v) (2 * l) := by
  have hvb := hw.suffix hv
  constructor
  · rintro u' ⟨h1, h2, h3⟩
    rcases tmH_suffix h1 with ⟨u, g1, rfl⟩ | ⟨c, u, g1, rfl⟩
    · have hub := hw.suffix g1
      rw [tmH_lcp hub hvb]
      have := h.1 u ⟨g1, fun e => h2 (by rw [e]; rfl), (tmH_lt hub hvb).1 h3⟩
      omega
    · by_contra hc
      obtain ⟨x, hx, y, hy, hxy⟩ := hm
      have hub := (hw.suffix g1).tail
      have := tmH_shift hub hvb (c := tm1 c) (l := l) (by omega)
      exact hxy ((this x hx).trans (this y hy).symm)
  · rcases h.2 with h0 | ⟨u, ⟨g1, g2, g3⟩, g4⟩
    · left; omega
    · have hub := hw.suffix g1
      refine .inr ⟨tmH u, ⟨?_, ?_, (tmH_lt hub hvb).2 g3⟩, by rw [tmH_lcp hub hvb, g4]⟩
      · obtain ⟨s, rfl⟩ := g1
        exact ⟨tmH s, (tmH_append _ _).symm⟩
      · intro e
        have := congrArg List.length e
        rw [tmH_length] at this
        exact g2 (List.length_eq_zero_iff.1 (by simpa using this))

theorem tmH_part {w v e : List UInt8} {m : Nat} (hw : AbWord w) (hv : v <:+ w) (h : LexPart w Mixed v e m) :
    LexPart (tmH w) Mixed (tmH v) (tmH e) m := by
  induction h with
  | refl => exact .refl
  | @cons v e l m h1 h2 h3 h4 _ ih =>
    refine .cons (tmH_lexLen hw hv h1 h4) (by omega) (by rw [tmH_length]; omega) ?_ ?_
    · cases v with
      | nil => simp at h3; omega
      | cons c v =>
        have : 2 ≤ 2 * l + 1 := by omega
        obtain ⟨n, hn⟩ := Nat.exists_eq_add_of_le' this
        rw [Mixed, tmH_cons, hn]
        refine ⟨tm0 c, by simp, tm1 c, by simp, ?_⟩
        unfold tm0 tm1
        split <;> decide
    · rw [tmH_drop]
      exact ih ((List.drop_suffix _ _).trans hv)

/-! ### The ends -/

/-- No letter three times in a row. -/
def NoTriple (w : List UInt8) : Prop := ∀ a u, ¬ (a :: a :: a :: u) <:+ w

theorem tmH_noTriple {w : List UInt8} : NoTriple (tmH w) := by
  intro a u h
  have h01 : ∀ c, tm0 c ≠ tm1 c := fun c => by unfold tm0 tm1; split <;> decide
  rcases tmH_suffix h with ⟨v, -, e⟩ | ⟨c, v, -, e⟩
  · cases v with
    | nil => cases e
    | cons x v =>
      rw [tmH_cons] at e
      injection e with e1 e; injection e with e2 e
      exact h01 x (e1.symm.trans e2)
  · injection e with _ e
    cases v with
    | nil => cases e
    | cons x v =>
      rw [tmH_cons] at e
      injection e with e1 e; injection e with e2 e
      exact h01 x (e1.symm.trans e2)

/-- The suffixes of a word with known end. -/
theorem suffix_end3 {w u : List UInt8} {x y z : UInt8} (h : u <:+ w ++ [x, y, z]) :
    u = [] ∨ u = [z] ∨ u = [y, z] ∨ ∃ a b c r, u = a :: b :: c :: r := by
  rcases u with _ | ⟨a, _ | ⟨b, _ | ⟨c, r⟩⟩⟩
  · exact .inl rfl
  · obtain ⟨s, e⟩ := h
    have := congrArg List.reverse e
    simp at this
    right; left; rw [this.1]
  · obtain ⟨s, e⟩ := h
    have := congrArg List.reverse e
    simp at this
    right; right; left; rw [this.1, this.2.1]
  · exact .inr (.inr (.inr ⟨a, b, c, r, rfl⟩))

/-- Bounds on the lengths at the end of `tmH w`, when `w` ends with three given letters: it suffices to look at three letters. -/
theorem tm_end {w : List UInt8} {x y z : UInt8} (hw : AbWord (w ++ [x, y, z])) (hc : NoTriple (w ++ [x, y, z])) {v : List UInt8} {l : Nat}
    (h1 : ∀ u ∈ [[tm1 z], tmH [z], tm1 y :: tmH [z], tmH [y, z], tm1 x :: tmH [y, z]], u < v → lcpLen u v ≤ l)
    (h3 : ∀ a b c r, ¬ (a = b ∧ b = c) → (a = 97 ∨ a = 98) → (b = 97 ∨ b = 98) → (c = 97 ∨ c = 98) → ∀ p, (p = [] ∨ ∃ d, (d = 97 ∨ d = 98) ∧ ¬ (d = a ∧ a = b) ∧ p = [tm1 d]) →
      p ++ tmH (a :: b :: c :: r) < v → lcpLen (p ++ tmH (a :: b :: c :: r)) v ≤ l) :
    ∀ u, SmallerSuffix (tmH (w ++ [x, y, z])) u v → lcpLen u v ≤ l := by
  rintro u' ⟨g1, g2, g3⟩
  rcases tmH_suffix g1 with ⟨u, e1, rfl⟩ | ⟨d, u, e1, rfl⟩
  · rcases suffix_end3 e1 with rfl | h | h | ⟨a, b, c, r, rfl⟩
    · exact absurd rfl g2
    · subst h; exact h1 _ (by simp) g3
    · subst h; exact h1 _ (by simp) g3
    · have hb := hw.suffix e1
      exact h3 a b c r (by rintro ⟨rfl, rfl⟩; exact hc _ _ e1) hb.head hb.tail.head hb.tail.tail.head [] (.inl rfl) g3
  · have e2 := (List.suffix_cons d u).trans e1
    rcases suffix_end3 e2 with rfl | h | h | ⟨a, b, c, r, rfl⟩
    · have : d = z := by
        obtain ⟨s, e⟩ := e1
        have := congrArg List.reverse e
        simp at this
        exact this.1
      subst this
      exact h1 _ (by simp) g3
    · subst h
      have : d = y := by
        obtain ⟨s, e⟩ := e1
        have := congrArg List.reverse e
        simp at this
        exact this.1
      subst this
      exact h1 _ (by simp) g3
    · subst h
      have : d = x := by
        obtain ⟨s, e⟩ := e1
        have := congrArg List.reverse e
        simp at this
        exact this.1
      subst this
      exact h1 _ (by simp) g3
    · have hb := hw.suffix e1
      exact h3 a b c r (by rintro ⟨rfl, rfl⟩; exact hc _ _ e2) hb.tail.head hb.tail.tail.head hb.tail.tail.tail.head [tm1 d]
        (.inr ⟨d, hb.head, by rintro ⟨rfl, rfl⟩; exact hc _ _ e1, rfl⟩) g3

/-- A phrase that is not checked for letters. -/
theorem lexPhrases_one {t v : List UInt8} {m : Nat} (l n : Nat) (hv : v ≠ []) (hl : LexLen t v l) (hn : n = max 1 l)
    (h : LexPhrases t (v.drop n) m) : LexPhrases t v (m + 1) := .cons hv hl (hn ▸ h)

set_option hygiene false in
macro "tmend" hw:term:max hc:term:max : tactic =>
  `(tactic| (
    refine tm_end $hw $hc ?_ ?_
    · decide
    · rintro a b c r h (rfl | rfl) (rfl | rfl) (rfl | rfl) p (rfl | ⟨d, rfl | rfl, h', rfl⟩) <;>
        first
        | (simp [List.cons_lt_cons_iff, lcpLen, tm1]; done)
        | (exfalso; revert h; decide)
        | (exfalso; revert h'; decide)))

theorem suffix_tmH {u w : List UInt8} (h : u <:+ w) : tmH u <:+ tmH w := by
  obtain ⟨s, rfl⟩ := h
  exact ⟨tmH s, (tmH_append _ _).symm⟩

theorem even_tail {s : List UInt8} (hw : AbWord (s ++ [97, 97, 98])) (hc : NoTriple (s ++ [97, 97, 98])) :
    LexPhrases (tmH (s ++ [97, 97, 98])) [98, 98, 97] 3 := by
  have hsuf : [98, 98, 97] <:+ tmH (s ++ [97, 97, 98]) := ⟨tmH s ++ [97, 98, 97], by rw [tmH_append]; simp⟩
  refine lexPhrases_one 1 1 (by simp) ⟨?_, .inr ⟨[98, 97], ⟨(List.suffix_cons _ _).trans hsuf, by simp, by decide⟩, rfl⟩⟩ rfl
    (lexPhrases_one 0 1 (by simp) ⟨?_, .inl rfl⟩ rfl (lexPhrases_one 0 1 (by simp) ⟨?_, .inl rfl⟩ rfl .nil))
  · tmend hw hc
  · tmend hw hc
  · tmend hw hc

theorem odd_tail {s : List UInt8} (hw : AbWord (s ++ [98, 98, 97])) (hc : NoTriple (s ++ [98, 98, 97])) :
    LexPhrases (tmH (s ++ [98, 98, 97])) [97, 97, 98] 3 := by
  have hsuf : [97, 97, 98] <:+ tmH (s ++ [98, 98, 97]) := ⟨tmH s ++ [98, 97, 98], by rw [tmH_append]; simp⟩
  refine lexPhrases_one 0 1 (by simp) ⟨?_, .inl rfl⟩ rfl
    (lexPhrases_one 1 1 (by simp) ⟨?_, .inr ⟨[97, 97, 98], ⟨hsuf, by simp, by decide⟩, rfl⟩⟩ rfl
      (lexPhrases_one 0 1 (by simp) ⟨?_, .inl rfl⟩ rfl .nil))
  · tmend hw hc
  · tmend hw hc
  · tmend hw hc

theorem odd_body {s : List UInt8} (hw : AbWord (s ++ [98, 98, 97])) (hc : NoTriple (s ++ [98, 98, 97])) :
    LexPart (tmH (s ++ [98, 98, 97])) Mixed (tmH [98, 98, 97]) [97, 97, 98] 2 := by
  have hsuf : [98, 97, 97, 98] <:+ tmH (s ++ [98, 98, 97]) := ⟨tmH s ++ [98, 97], by rw [tmH_append]; simp⟩
  refine .cons (l := 2) ⟨?_, .inr ⟨_, ⟨hsuf, by simp, by decide⟩, rfl⟩⟩ (by decide) (by decide) (by decide)
    (.cons (l := 1) ⟨?_, .inr ⟨[98], ⟨List.IsSuffix.trans ⟨[98, 97, 97], rfl⟩ hsuf, by simp, by decide⟩, rfl⟩⟩ (by decide)
      (by decide) (by decide) .refl)
  · tmend hw hc
  · tmend hw hc

theorem even_body {s : List UInt8} (hw : AbWord (s ++ [97, 97, 98])) (hc : NoTriple (s ++ [97, 97, 98]))
    (hp : [97, 98, 98, 97] <+: s ++ [97, 97, 98]) :
    LexPart (tmH (s ++ [97, 97, 98])) Mixed (tmH [97, 97, 98]) [98, 98, 97] 1 := by
  obtain ⟨r, hr⟩ := hp
  have hsuf : 97 :: 98 :: 97 :: 97 :: 98 :: tmH r <:+ tmH (s ++ [97, 97, 98]) := ⟨[97, 98, 98], by
    rw [← hr, tmH_append]; simp⟩
  refine .cons (l := 3) ⟨?_, .inr ⟨_, ⟨hsuf, by simp, by simp [List.cons_lt_cons_iff]⟩, by simp [lcpLen]⟩⟩ (by decide) (by decide)
    (by decide) .refl
  tmend hw hc

/-- What is known of the words of even order. -/
structure LexTmEven (w : List UInt8) (m : Nat) : Prop where
  bin : AbWord w
  cube : NoTriple w
  pre : [97, 98, 98, 97] <+: w
  fin : ∃ s, w = s ++ [98, 98, 97]
  body : LexPart w Mixed w [98, 98, 97] m

/-- What is known of the words of odd order. -/
structure LexTmOdd (w : List UInt8) (m : Nat) : Prop where
  bin : AbWord w
  cube : NoTriple w
  pre : [97, 98, 98, 97] <+: w
  fin : ∃ s, w = s ++ [97, 97, 98]
  body : LexPart w Mixed w [97, 97, 98] m

theorem tmH_pre {w : List UInt8} (h : [97, 98, 98, 97] <+: w) : [97, 98, 98, 97] <+: tmH w := by
  obtain ⟨r, rfl⟩ := h
  rw [tmH_append]
  exact ⟨[98, 97, 97, 98] ++ tmH r, by simp⟩

theorem LexTmEven.next {w : List UInt8} {m : Nat} (h : LexTmEven w m) : LexTmOdd (tmH w) (m + 2) := by
  obtain ⟨s, hs⟩ := h.fin
  refine ⟨tmH_bin _, tmH_noTriple, tmH_pre h.pre, ⟨tmH s ++ [98, 97, 98], by rw [hs, tmH_append]; simp⟩, ?_⟩
  refine (tmH_part h.bin (List.suffix_refl _) h.body).trans ?_
  rw [hs]
  exact odd_body (hs ▸ h.bin) (hs ▸ h.cube)

theorem LexTmOdd.next {w : List UInt8} {m : Nat} (h : LexTmOdd w m) : LexTmEven (tmH w) (m + 1) := by
  obtain ⟨s, hs⟩ := h.fin
  refine ⟨tmH_bin _, tmH_noTriple, tmH_pre h.pre, ⟨tmH s ++ [97, 98, 97], by rw [hs, tmH_append]; simp⟩, ?_⟩
  refine (tmH_part h.bin (List.suffix_refl _) h.body).trans ?_
  rw [hs]
  exact even_body (hs ▸ h.bin) (hs ▸ h.cube) (hs ▸ h.pre)

theorem tm_even_two : LexTmEven [97, 98, 98, 97] 1 := by
  refine ⟨by unfold AbWord; decide, tmH_noTriple (w := [97, 98]), List.prefix_refl _, ⟨[97], rfl⟩, ?_⟩
  refine .cons (l := 1) ⟨?_, .inr ⟨[97], ⟨by decide, by decide, by decide⟩, rfl⟩⟩ (by decide) (by decide) (by decide) .refl
  rintro u ⟨h1, h2, h3⟩
  simp only [List.suffix_cons_iff, List.suffix_nil] at h1
  rcases h1 with rfl | rfl | rfl | rfl | rfl
  · exact absurd h3 (by decide)
  · exact absurd h3 (by decide)
  · exact absurd h3 (by decide)
  · decide
  · exact absurd rfl h2

theorem tm_even : ∀ j, LexTmEven (iter tmMor (2 * j + 2) [97]) (3 * j + 1)
  | 0 => tm_even_two
  | j + 1 => (tm_even j).next.next

theorem tm_odd (j : Nat) : LexTmOdd (iter tmMor (2 * j + 3) [97]) (3 * j + 3) := (tm_even j).next

theorem tm_lexFactors {k : Nat} (hk : 3 ≤ k) : LexFactors (iter tmMor k [97]) ((3 * k + 3) / 2) := by
  rcases Nat.even_or_odd' k with ⟨j, rfl | rfl⟩
  · obtain ⟨j, rfl⟩ := Nat.exists_eq_add_of_le' (show 2 ≤ j by omega)
    have h := tm_odd j
    obtain ⟨s, hs⟩ := h.fin
    rw [show (3 * (2 * (j + 2)) + 3) / 2 = 3 * j + 3 + 1 + 3 by omega]
    refine h.next.body.phrases ?_
    rw [hs]
    exact even_tail (hs ▸ h.bin) (hs ▸ h.cube)
  · obtain ⟨j, rfl⟩ := Nat.exists_eq_add_of_le' (show 1 ≤ j by omega)
    have h := tm_even j
    obtain ⟨s, hs⟩ := h.fin
    rw [show (3 * (2 * (j + 1) + 1) + 3) / 2 = 3 * j + 1 + 2 + 3 by omega]
    refine h.next.body.phrases ?_
    rw [hs]
    exact odd_tail (hs ▸ h.bin) (hs ▸ h.cube)

end Verif
