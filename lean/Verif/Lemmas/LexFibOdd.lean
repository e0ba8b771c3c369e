import Verif.Lemmas.LexFib

/-! # The lexicographic parse of the Fibonacci words of odd order

A Fibonacci word of odd order is `ab · fl x`, and the word two orders further on is `ab · fl (psi x · a)`. -/

namespace Verif

open Spec Model

/-- the image `psi u · a` -/
def pa (u : List UInt8) : List UInt8 := psi u ++ [97]

theorem pa_nil : pa [] = [97] := rfl
theorem pa_append (u v : List UInt8) : pa (u ++ v) = psi u ++ pa v := by rw [pa, pa, psi_append, List.append_assoc]
theorem pa_a (u : List UInt8) : pa (97 :: u) = 97 :: 98 :: 97 :: pa u := rfl
theorem pa_b (u : List UInt8) : pa (98 :: u) = 97 :: 98 :: pa u := rfl
theorem pa_head (u : List UInt8) : ∃ r, pa u = 97 :: r := by
  rcases u with _ | ⟨c, u⟩
  · exact ⟨[], rfl⟩
  · obtain ⟨r, hr⟩ := psi_cons c u
    exact ⟨98 :: r ++ [97], by rw [pa, hr]; rfl⟩
theorem pa_head2 {u : List UInt8} (h : u ≠ []) : ∃ r, pa u = 97 :: 98 :: r := by
  obtain ⟨c, u, rfl⟩ := List.exists_cons_of_ne_nil h
  obtain ⟨r, hr⟩ := psi_cons c u
  exact ⟨r ++ [97], by rw [pa, hr]; rfl⟩

theorem pa_aba {u : List UInt8} (h : AbWord u) : AbA (pa u) := by
  refine ⟨bin_append.2 ⟨psi_bin h, by unfold AbWord; decide⟩, .inr ?_⟩
  simp [pa]

theorem pa_suffix_of {u w : List UInt8} (h : u <:+ w) : pa u <:+ pa w := by
  obtain ⟨s, rfl⟩ := h
  exact ⟨psi s, (pa_append _ _).symm⟩

theorem pa_suffix {w u' : List UInt8} (hw : AbWord w) (h : u' <:+ pa w) :
    u' = [] ∨ (∃ u, u <:+ w ∧ u' = pa u) ∨ (∃ u, 97 :: u <:+ w ∧ u' = 97 :: pa u) ∨ ∃ u, u' = 98 :: u := by
  induction w with
  | nil =>
    rw [pa_nil, List.suffix_cons_iff, List.suffix_nil] at h
    rcases h with h | h
    · exact .inr (.inl ⟨[], List.suffix_refl _, h⟩)
    · exact .inl h
  | cons c w ih =>
    have lift : u' <:+ pa w → u' = [] ∨ (∃ u, u <:+ c :: w ∧ u' = pa u) ∨ (∃ u, 97 :: u <:+ c :: w ∧ u' = 97 :: pa u) ∨
        ∃ u, u' = 98 :: u := by
      intro h
      rcases ih hw.tail h with h | ⟨u, h1, h2⟩ | ⟨u, h1, h2⟩ | h
      · exact .inl h
      · exact .inr (.inl ⟨u, h1.trans (List.suffix_cons _ _), h2⟩)
      · exact .inr (.inr (.inl ⟨u, h1.trans (List.suffix_cons _ _), h2⟩))
      · exact .inr (.inr (.inr h))
    rcases hw.head with rfl | rfl
    · rw [pa_a, List.suffix_cons_iff, List.suffix_cons_iff, List.suffix_cons_iff] at h
      rcases h with h | h | h | h
      · exact .inr (.inl ⟨_, List.suffix_refl _, h⟩)
      · exact .inr (.inr (.inr ⟨_, h⟩))
      · exact .inr (.inr (.inl ⟨w, List.suffix_refl _, h⟩))
      · exact lift h
    · rw [pa_b, List.suffix_cons_iff, List.suffix_cons_iff] at h
      rcases h with h | h | h
      · exact .inr (.inl ⟨_, List.suffix_refl _, h⟩)
      · exact .inr (.inr (.inr ⟨_, h⟩))
      · exact lift h

theorem pa_mis {p x y : List UInt8} (hy : y ≠ []) : ∃ x' y', pa (p ++ 97 :: x) = psi p ++ 97 :: 98 :: 97 :: 97 :: x' ∧
    pa (p ++ 98 :: y) = psi p ++ 97 :: 98 :: 97 :: 98 :: y' := by
  obtain ⟨x', hx⟩ := pa_head x
  obtain ⟨y', hy'⟩ := pa_head2 hy
  exact ⟨x', y', by rw [pa_append, pa_a, hx], by rw [pa_append, pa_b, hy']⟩

theorem pa_mis_lcp {p x y : List UInt8} (hy : y ≠ []) : lcpLen (pa (p ++ 97 :: x)) (pa (p ++ 98 :: y)) = (psi p).length + 3 := by
  obtain ⟨x', y', h1, h2⟩ := pa_mis (p := p) (x := x) hy
  rw [h1, h2, lcpLen_append_left]
  simp [lcpLen]

theorem aba_tail_ne {s y : List UInt8} (g : AbA (s ++ 98 :: y)) : y ≠ [] := by
  rintro rfl
  have := g.2
  simp at this

theorem pa_lt_of {u v : List UInt8} (hu : AbA u) (hv : AbA v) (h : u < v) : pa u < pa v := by
  rcases bin_lt hu.1 hv.1 h with ⟨v', h1, rfl⟩ | ⟨p, x, y, rfl, rfl⟩
  · obtain ⟨r, hr⟩ := pa_head2 h1
    rw [pa_append, hr]
    exact lt_of_prefix ⟨98 :: r, by simp [pa]⟩ (by simp [pa])
  · obtain ⟨x', y', h1, h2⟩ := pa_mis (p := p) (x := x) (aba_tail_ne hv)
    rw [h1, h2, append_lt_left]
    simp [List.cons_lt_cons_iff]

theorem pa_lt {u v : List UInt8} (hu : AbA u) (hv : AbA v) : pa u < pa v ↔ u < v := by
  refine ⟨fun h => ?_, pa_lt_of hu hv⟩
  rcases lt_trichotomy u v with g | rfl | g
  · exact g
  · exact absurd h (lt_irrefl _)
  · exact absurd (h.trans (pa_lt_of hv hu g)) (lt_irrefl _)

/-- Among the suffixes of `x` smaller than `v`, the best is the prefix of `v` of length `n`. -/
def PreBest (x v : List UInt8) (n : Nat) : Prop :=
  ∀ u, u <:+ x → u < v → (u <+: v ∧ u.length ≤ n) ∨ lcpLen u v + 2 ≤ n

theorem preBest_aa {x : List UInt8} (hx : AbWord x) : PreBest x [97, 97] 1 := by
  intro u h1 h2
  left
  rcases u with _ | ⟨c, _ | ⟨d, u⟩⟩
  · simp
  · rcases (hx.suffix h1).head with rfl | rfl
    · simp
    · simp [List.cons_lt_cons_iff] at h2
  · rcases (hx.suffix h1).head with rfl | rfl
    · rcases (hx.suffix h1).tail.head with rfl | rfl <;> simp [List.cons_lt_cons_iff] at h2
    · simp [List.cons_lt_cons_iff] at h2

/-- two more letters of `u` after a mismatch -/
theorem split_two {v p y u v' : List UInt8} (h1 : v = p ++ 98 :: y) (h2 : v = u ++ v') (h : p.length + 2 ≤ u.length) :
    ∃ d r, u = p ++ 98 :: d :: r := by
  have hp : p <+: u := List.prefix_of_prefix_length_le (h1 ▸ List.prefix_append _ _) (h2 ▸ List.prefix_append _ _) (by omega)
  obtain ⟨r, rfl⟩ := hp
  rw [List.length_append] at h
  rw [h2, List.append_assoc] at h1
  have h1 := List.append_cancel_left h1
  rcases r with _ | ⟨c, _ | ⟨d, r⟩⟩
  · simp at h
  · simp at h
  · simp at h1
    obtain ⟨rfl, -⟩ := h1
    exact ⟨d, r, rfl⟩

theorem psi_two (d : UInt8) (r : List UInt8) : 2 ≤ (psi (d :: r)).length := by
  obtain ⟨s, hs⟩ := psi_cons d r
  rw [hs]; simp

theorem PreBest.next {x u v' : List UInt8} (hx : AbA x) (hv : u ++ v' <:+ x) (hu : u ≠ []) (h : PreBest x (u ++ v') u.length) :
    PreBest (pa x) (pa (u ++ v')) (pa u).length := by
  have hvA := hx.suffix hv
  have hu2 : 2 ≤ (psi u).length := by
    obtain ⟨d, r, rfl⟩ := List.exists_cons_of_ne_nil hu
    exact psi_two d r
  have hlen : (pa u).length = (psi u).length + 1 := by simp [pa]
  obtain ⟨r0, hr0⟩ := pa_head2 (u := u ++ v') (by simp [hu])
  intro w' g1 g2
  rcases pa_suffix hx.1 g1 with rfl | ⟨w, e1, rfl⟩ | ⟨w, -, rfl⟩ | ⟨w, rfl⟩
  · left; simp
  · have hw := hx.suffix e1
    have hlt := (pa_lt hw hvA).1 g2
    have key : w <+: u ++ v' → w.length ≤ u.length → pa w <+: pa (u ++ v') ∧ (pa w).length ≤ (pa u).length := by
      intro g3 g4
      have hwu : w <+: u := List.prefix_of_prefix_length_le g3 (List.prefix_append _ _) g4
      obtain ⟨r, rfl⟩ := hwu
      refine ⟨?_, by have := psi_len_le (List.prefix_append w r); simp [pa]; exact this⟩
      obtain ⟨s, hs⟩ := pa_head (r ++ v')
      rw [List.append_assoc, pa_append, hs]
      exact ⟨s, by simp [pa]⟩
    rcases h w e1 hlt with ⟨g3, g4⟩ | g3
    · exact .inl (key g3 g4)
    · rcases bin_lt hw.1 hvA.1 hlt with ⟨r, -, e⟩ | ⟨p, a, b, rfl, e⟩
      · left
        rw [e, lcp_prefix] at g3
        exact key ⟨r, e.symm⟩ (by omega)
      · right
        rw [e, lcp_mis] at g3
        obtain ⟨d, r, rfl⟩ := split_two e rfl g3
        rw [e, pa_mis_lcp (aba_tail_ne (e ▸ hvA)), hlen, psi_append, List.length_append, psi_b]
        have := psi_two d r
        simp only [List.length_cons]
        omega
  · right
    obtain ⟨r, hr⟩ := pa_head w
    rw [hr, hr0, hlen]
    simp [lcpLen]
    omega
  · rw [hr0] at g2
    simp [List.cons_lt_cons_iff] at g2

/-- `ab · fl v` is parsed along a chain of shorter and shorter words. -/
inductive FoChain (x : List UInt8) : List UInt8 → Nat → Prop
  | base : [97, 97] <:+ x → FoChain x [97, 97] 1
  | step {u v : List UInt8} {m : Nat} : u ++ 98 :: v <:+ x → u <:+ x → u ≠ [] → PreBest x (u ++ 98 :: v) u.length →
      FoChain x v m → FoChain x (u ++ 98 :: v) (m + 1)

theorem FoChain.next {x v : List UInt8} {m : Nat} (hx : AbA x) (h : FoChain x v m) (h2 : [97, 97] <:+ pa x) :
    FoChain (pa x) (pa v) (m + 1) := by
  induction h with
  | base g =>
    have := PreBest.next (u := [97]) (v' := [97]) hx g (by simp) (preBest_aa hx.1)
    exact .step (u := [97, 98, 97, 97]) (v := [97, 97]) (pa_suffix_of g) (pa_suffix_of ((List.suffix_cons 97 [97]).trans g)) (by simp)
      this (.base h2)
  | @step u v m g1 g2 g3 g4 _ ih =>
    have := PreBest.next hx g1 g3 g4
    have e : pa (u ++ 98 :: v) = pa u ++ 98 :: pa v := by rw [pa_append, pa_b]; simp [pa]
    rw [e] at this ⊢
    exact .step (e ▸ pa_suffix_of g1) (pa_suffix_of g2) (by simp [pa]) this ih

/-! ### Suffixes of `ab · fl x` -/

theorem abfl_suffix_of {u x : List UInt8} (hx : AbWord x) (h : u <:+ x) : 97 :: 98 :: fl u <:+ 97 :: 98 :: fl x := by
  obtain ⟨s, rfl⟩ := h
  rcases List.eq_nil_or_concat s with rfl | ⟨s, c, rfl⟩
  · exact List.suffix_refl _
  · have hc : c = 97 ∨ c = 98 := hx c (by simp)
    rcases hc with rfl | rfl
    · exact ⟨97 :: 98 :: fl s ++ [97], by simp [fl_append]⟩
    · exact ⟨97 :: 98 :: fl s, by simp [fl_append]⟩

theorem abfl_suffix {u' x : List UInt8} (hx : AbWord x) (h : u' <:+ 97 :: 98 :: fl x) :
    u' = [] ∨ (∃ u, u <:+ x ∧ u' = 97 :: 98 :: fl u) ∨ (∃ u, u' = 97 :: 97 :: u) ∨ ∃ u, u <:+ x ∧ u' = 98 :: fl u := by
  rw [List.suffix_cons_iff, List.suffix_cons_iff] at h
  rcases h with h | h | h
  · exact .inr (.inl ⟨x, List.suffix_refl _, h⟩)
  · exact .inr (.inr (.inr ⟨x, List.suffix_refl _, h⟩))
  · induction x with
    | nil => left; simpa using h
    | cons c x ih =>
      have lift : u' <:+ fl x → u' = [] ∨ (∃ u, u <:+ c :: x ∧ u' = 97 :: 98 :: fl u) ∨ (∃ u, u' = 97 :: 97 :: u) ∨
          ∃ u, u <:+ c :: x ∧ u' = 98 :: fl u := by
        intro h
        rcases ih hx.tail h with h | ⟨u, h1, h2⟩ | h | ⟨u, h1, h2⟩
        · exact .inl h
        · exact .inr (.inl ⟨u, h1.trans (List.suffix_cons _ _), h2⟩)
        · exact .inr (.inr (.inl h))
        · exact .inr (.inr (.inr ⟨u, h1.trans (List.suffix_cons _ _), h2⟩))
      rcases hx.head with rfl | rfl
      · rw [fl_a, List.suffix_cons_iff, List.suffix_cons_iff, List.suffix_cons_iff] at h
        rcases h with h | h | h | h
        · exact .inr (.inr (.inl ⟨_, h⟩))
        · exact .inr (.inl ⟨x, List.suffix_cons _ _, h⟩)
        · exact .inr (.inr (.inr ⟨x, List.suffix_cons _ _, h⟩))
        · exact lift h
      · rw [fl_b, List.suffix_cons_iff, List.suffix_cons_iff] at h
        rcases h with h | h | h
        · exact .inr (.inl ⟨x, List.suffix_cons _ _, h⟩)
        · exact .inr (.inr (.inr ⟨x, List.suffix_cons _ _, h⟩))
        · exact lift h

theorem fl_mis_lcp (p x y : List UInt8) : lcpLen (fl (p ++ 97 :: x)) (fl (p ++ 98 :: y)) = (fl p).length + 1 := by
  rw [fl_append, fl_append, lcpLen_append_left]
  simp [lcpLen]

/-- How long the phrases at the images are. -/
theorem PreBest.fl_le {x u v' w : List UInt8} (hx : AbWord x) (hv : AbWord (u ++ v')) (h : PreBest x (u ++ v') u.length)
    (hw : w <:+ x) (hlt : fl w < fl (u ++ v')) : lcpLen (fl w) (fl (u ++ v')) ≤ (fl u).length := by
  have hwb := hx.suffix hw
  have hlt' := (fl_lt hwb hv).1 hlt
  have key : w <+: u ++ v' → w.length ≤ u.length → lcpLen (fl w) (fl (u ++ v')) ≤ (fl u).length := by
    intro g3 g4
    have hwu : w <+: u := List.prefix_of_prefix_length_le g3 (List.prefix_append _ _) g4
    obtain ⟨r, rfl⟩ := hwu
    rw [List.append_assoc, fl_append, lcp_prefix]
    exact fl_len_le (List.prefix_append _ _)
  rcases h w hw hlt' with ⟨g3, g4⟩ | g3
  · exact key g3 g4
  · rcases bin_lt hwb hv hlt' with ⟨r, -, e⟩ | ⟨p, a, b, rfl, e⟩
    · rw [e, lcp_prefix] at g3
      exact key ⟨r, e.symm⟩ (by omega)
    · rw [e, lcp_mis] at g3
      obtain ⟨d, r, rfl⟩ := split_two e rfl g3
      rw [e, fl_mis_lcp, fl_append]
      simp

theorem fo_tail {x : List UInt8} (hx : AbWord x) (h : [97] <:+ x) : LexPhrases (97 :: 98 :: fl x) [97, 97, 98] 3 := by
  have h1 : [97, 97, 98] <:+ 97 :: 98 :: fl x := by
    obtain ⟨s, rfl⟩ := h
    exact ⟨97 :: 98 :: fl s, by simp [fl_append]⟩
  have hb : AbWord (97 :: 98 :: fl x) := by
    rw [bin_iff_cons, bin_iff_cons]; exact ⟨.inl rfl, .inr rfl, fl_bin _⟩
  have h3 : ∀ u, ¬ 97 :: 97 :: 97 :: u <:+ 97 :: 98 :: fl x := by
    intro u g
    rw [List.suffix_cons_iff, List.suffix_cons_iff] at g
    rcases g with g | g | g
    · simp at g
    · simp at g
    · rcases fl_suffix hx g with ⟨w, e1, e⟩ | ⟨w, -, e⟩ | ⟨w, e⟩
      · rcases w with _ | ⟨c, w⟩
        · simp at e
        · rcases (hx.suffix e1).head with rfl | rfl <;> simp at e
      · simp at e
      · simp at e
  refine lexPhrases_one 0 1 (by simp) ⟨?_, .inl rfl⟩ rfl ?_
  · rintro u ⟨g1, g2, g3⟩
    exfalso
    have hu := hb.suffix g1
    rcases u with _ | ⟨c, _ | ⟨d, _ | ⟨e, u⟩⟩⟩
    · exact g2 rfl
    · rcases abfl_suffix hx g1 with e | ⟨u, -, e⟩ | ⟨u, e⟩ | ⟨u, -, e⟩
      · cases e
      · simp at e
      · simp at e
      · simp at e
        obtain ⟨rfl, -⟩ := e
        simp [List.cons_lt_cons_iff] at g3
    · rcases hu.head with rfl | rfl
      · rcases hu.tail.head with rfl | rfl
        · rcases abfl_suffix hx g1 with e | ⟨u, -, e⟩ | ⟨u, e⟩ | ⟨u, -, e⟩
          · cases e
          · simp at e
          · have : [97] <:+ 97 :: 98 :: fl x := (List.suffix_cons _ _).trans g1
            have h5 : [98] <:+ 97 :: 98 :: fl x := ((List.suffix_cons _ _).trans (List.suffix_cons _ _)).trans h1
            have := List.suffix_of_suffix_length_le this h5 (by simp)
            exact absurd this (by decide)
          · simp at e
        · simp [List.cons_lt_cons_iff] at g3
      · simp [List.cons_lt_cons_iff] at g3
    · rcases hu.head with rfl | rfl
      · rcases hu.tail.head with rfl | rfl
        · rcases hu.tail.tail.head with rfl | rfl
          · exact h3 u g1
          · simp at g3
        · simp [List.cons_lt_cons_iff] at g3
      · simp [List.cons_lt_cons_iff] at g3
  refine lexPhrases_one 1 1 (by simp) ⟨?_, .inr ⟨_, ⟨h1, by simp, by decide⟩, by decide⟩⟩ rfl ?_
  · rintro u ⟨g1, g2, g3⟩
    have hu := hb.suffix g1
    rcases u with _ | ⟨c, _ | ⟨d, u⟩⟩
    · simp [lcpLen]
    · exact (lcpLen_le_left _ _)
    · rcases hu.head with rfl | rfl
      · rcases hu.tail.head with rfl | rfl
        · simp [lcpLen]
        · simp at g3
      · simp [List.cons_lt_cons_iff] at g3
  refine lexPhrases_one 0 1 (by simp) ⟨?_, .inl rfl⟩ rfl .nil
  rintro u ⟨g1, g2, g3⟩
  obtain ⟨c, u, rfl⟩ := List.exists_cons_of_ne_nil g2
  rcases (hb.suffix g1).head with rfl | rfl
  · simp [lcpLen]
  · simp at g3

theorem drop_len_append {n : Nat} (u v : List UInt8) (h : n = u.length) : (u ++ v).drop n = v := by subst h; exact List.drop_left

theorem abfl_phrase {x u v' : List UInt8} {m : Nat} (hx : AbWord x) (hv : u ++ v' <:+ x) (hu : u <:+ x) (hv' : v' ≠ [])
    (hb : PreBest x (u ++ v') u.length) (hm : LexPhrases (97 :: 98 :: fl x) (fl v') m) :
    LexPhrases (97 :: 98 :: fl x) (97 :: 98 :: fl (u ++ v')) (m + 1) := by
  have hvb := hx.suffix hv
  have hne : fl v' ≠ [] := by
    obtain ⟨c, v', rfl⟩ := List.exists_cons_of_ne_nil hv'
    rcases (bin_append.1 hvb).2.head with rfl | rfl <;> simp
  refine lexPhrases_one ((fl u).length + 2) ((fl u).length + 2) (by simp) ⟨?_, .inr ⟨97 :: 98 :: fl u, ⟨abfl_suffix_of hx hu, by simp, ?_⟩, ?_⟩⟩
    (by omega) ?_
  · rintro w' ⟨g1, g2, g3⟩
    rcases abfl_suffix hx g1 with rfl | ⟨w, e1, rfl⟩ | ⟨w, rfl⟩ | ⟨w, -, rfl⟩
    · exact absurd rfl g2
    · have := hb.fl_le hx hvb e1 (by simpa [List.cons_lt_cons_iff] using g3)
      simp [lcpLen]
      exact this
    · simp [lcpLen]
    · simp [List.cons_lt_cons_iff] at g3
  · rw [fl_append]
    exact lt_of_prefix (List.prefix_append _ _) (by simpa using hne)
  · rw [fl_append]
    exact lcp_prefix (97 :: 98 :: fl u) _
  · rw [fl_append, show 97 :: 98 :: (fl u ++ fl v') = (97 :: 98 :: fl u) ++ fl v' from rfl, drop_len_append _ _ (by simp)]
    exact hm

theorem FoChain.phrases {x v : List UInt8} {m : Nat} (hx : AbWord x) (ha : [97] <:+ x) (h : FoChain x v m) :
    LexPhrases (97 :: 98 :: fl x) (97 :: 98 :: fl v) (m + 3) := by
  induction h with
  | base g =>
    exact abfl_phrase (u := [97]) (v' := [97]) hx g ha (by simp) (preBest_aa hx) (fo_tail hx ha)
  | @step u v m g1 g2 g3 g4 _ ih => exact abfl_phrase hx g1 g2 (by simp) g4 ih

/-- What is known of the word `x` behind a Fibonacci word of odd order. -/
structure FoInv (x : List UInt8) (m : Nat) : Prop where
  aba : AbA x
  aa : [97, 97] <:+ x
  parts : ∃ s z q v', x = s ++ 98 :: (97 :: q ++ v') ∧ s ++ 97 :: z <:+ x ∧ (∀ u, u <:+ x → u < x → lcpLen u x ≤ s.length) ∧
    97 :: q <:+ x ∧ PreBest x (97 :: q ++ v') (97 :: q).length ∧
    ((v' = [97] ∧ m = 0) ∨ ∃ v, v' = 98 :: v ∧ FoChain x v m)

theorem FoInv.phrases {x : List UInt8} {m : Nat} (h : FoInv x m) : LexFactors (97 :: 98 :: fl x) (m + 5) := by
  obtain ⟨s, z, q, v', h1, h2, h3, h4, h5, h6⟩ := h.parts
  have hx : AbWord x := h.aba.1
  have ha : [97] <:+ x := (List.suffix_cons _ _).trans h.aa
  have hy : 97 :: q ++ v' <:+ x := ⟨s ++ [98], by rw [h1]; simp⟩
  have hyb := hx.suffix hy
  have e : fl x = fl s ++ 97 :: 98 :: fl (97 :: q ++ v') := by conv_lhs => rw [h1, fl_append, fl_b]
  have hrest : LexPhrases (97 :: 98 :: fl x) (fl v') (m + 3) := by
    rcases h6 with ⟨rfl, rfl⟩ | ⟨v, rfl, g⟩
    · exact fo_tail hx ha
    · exact g.phrases hx ha
  have hv' : fl v' ≠ [] := by rcases h6 with ⟨rfl, -⟩ | ⟨v, rfl, g⟩ <;> simp
  refine lexPhrases_one ((fl s).length + 3) ((fl s).length + 3) (by simp)
    ⟨?_, .inr ⟨97 :: 98 :: fl (s ++ 97 :: z), ⟨abfl_suffix_of hx h2, by simp, ?_⟩, ?_⟩⟩ (by omega) ?_
  · rintro w' ⟨g1, g2, g3⟩
    rcases abfl_suffix hx g1 with rfl | ⟨w, e1, rfl⟩ | ⟨w, rfl⟩ | ⟨w, -, rfl⟩
    · exact absurd rfl g2
    · have hwb := hx.suffix e1
      have hlt := (fl_lt hwb hx).1 (by simpa [List.cons_lt_cons_iff] using g3)
      have hle := h3 w e1 hlt
      have hsx : s <+: x := h1 ▸ List.prefix_append _ _
      have : lcpLen (fl w) (fl x) ≤ (fl s).length + 1 := by
        rcases bin_lt hwb hx hlt with ⟨r, -, e⟩ | ⟨p, a, b, rfl, e⟩
        · rw [e, lcp_prefix] at hle
          have := fl_len_le (List.prefix_of_prefix_length_le (e ▸ List.prefix_append _ _) hsx hle : w <+: s)
          rw [e, fl_append, lcp_prefix]
          omega
        · rw [e, lcp_mis] at hle
          have := fl_len_le (List.prefix_of_prefix_length_le (e ▸ List.prefix_append _ _) hsx hle : p <+: s)
          rw [e, fl_mis_lcp]
          omega
      simp [lcpLen]
      exact this
    · simp [lcpLen]
    · simp [List.cons_lt_cons_iff] at g3
  · rw [e, fl_append]
    simp [List.cons_lt_cons_iff, append_lt_left]
  · rw [e, fl_append]
    simp [lcpLen, lcpLen_append_left]
  have e2 : (97 :: 98 :: fl x).drop ((fl s).length + 3) = 98 :: fl (97 :: q ++ v') := by
    rw [e, show 97 :: 98 :: (fl s ++ 97 :: 98 :: fl (97 :: q ++ v')) = (97 :: 98 :: fl s ++ [97]) ++ 98 :: fl (97 :: q ++ v') by simp,
      drop_len_append _ _ (by simp)]
  rw [e2]
  refine lexPhrases_one ((fl (97 :: q)).length + 1) ((fl (97 :: q)).length + 1) (by simp)
    ⟨?_, .inr ⟨98 :: fl (97 :: q), ⟨(List.suffix_cons _ _).trans (abfl_suffix_of hx h4), by simp, ?_⟩, ?_⟩⟩ (by omega) ?_
  · rintro w' ⟨g1, g2, g3⟩
    rcases abfl_suffix hx g1 with rfl | ⟨w, -, rfl⟩ | ⟨w, rfl⟩ | ⟨w, e1, rfl⟩
    · exact absurd rfl g2
    · simp [lcpLen]
    · simp [lcpLen]
    · have := h5.fl_le hx hyb e1 (by simpa [List.cons_lt_cons_iff] using g3)
      simp only [lcpLen, if_true]
      omega
  · rw [fl_append]
    exact lt_of_prefix (List.prefix_append _ _) (by simpa using hv')
  · rw [fl_append]
    exact lcp_prefix (98 :: fl (97 :: q)) _
  rw [fl_append, show 98 :: (fl (97 :: q) ++ fl v') = (98 :: fl (97 :: q)) ++ fl v' from rfl, drop_len_append _ _ (by simp)]
  exact hrest

theorem FoInv.next {x : List UInt8} {m : Nat} (h : FoInv x m) : FoInv (pa x) (m + 1) := by
  obtain ⟨s, z, q, v', h1, h2, h3, h4, h5, h6⟩ := h.parts
  have hx : AbWord x := h.aba.1
  have ha : [97] <:+ x := (List.suffix_cons _ _).trans h.aa
  have haa : [97, 97] <:+ pa x := by
    have : [97, 98, 97, 97] <:+ pa x := pa_suffix_of ha
    exact (List.suffix_append [97, 98] [97, 97]).trans this
  have hy : 97 :: q ++ v' <:+ x := ⟨s ++ [98], by rw [h1]; simp⟩
  have hyA := h.aba.suffix hy
  have hv' : v' ≠ [] := by rcases h6 with ⟨rfl, -⟩ | ⟨v, rfl, g⟩ <;> simp
  obtain ⟨v1, hv1⟩ := pa_head2 hv'
  obtain ⟨z', hz'⟩ := pa_head z
  have epq : pa (q ++ v') = pa q ++ 98 :: v1 := by rw [pa_append, hv1]; simp [pa]
  have ex : pa x = (psi s ++ [97, 98, 97]) ++ 98 :: (97 :: pa q ++ 98 :: v1) := by
    conv_lhs => rw [h1, pa_append, pa_b, List.cons_append, pa_a, epq]
    simp
  refine ⟨pa_aba hx, haa, psi s ++ [97, 98, 97], z', pa q, 98 :: v1, ex, ?_, ?_, ?_, ?_, .inr ⟨v1, rfl, ?_⟩⟩
  · have := pa_suffix_of h2
    rw [pa_append, pa_a, hz'] at this
    simpa using this
  · have hx0 : x ≠ [] := by rw [h1]; simp
    obtain ⟨r0, hr0⟩ := pa_head2 hx0
    have hsx : s <+: x := by
      have := List.prefix_append s (98 :: (97 :: q ++ v'))
      rwa [← h1] at this
    intro w' g1 g2
    rw [List.length_append]
    rcases pa_suffix hx g1 with rfl | ⟨w, e1, rfl⟩ | ⟨w, -, rfl⟩ | ⟨w, rfl⟩
    · simp
    · have hw := h.aba.suffix e1
      have hlt := (pa_lt hw h.aba).1 g2
      have hle := h3 w e1 hlt
      rcases bin_lt hw.1 hx hlt with ⟨r, -, e⟩ | ⟨p, a, b, rfl, e⟩
      · have h7 : lcpLen w x = w.length := by conv_lhs => rw [e, lcp_prefix]
        rw [h7] at hle
        have hws : w <+: s := List.prefix_of_prefix_length_le ⟨r, e.symm⟩ hsx hle
        have := psi_len_le hws
        have h8 := lcpLen_le_left (pa w) (pa x)
        simp only [pa, List.length_append, List.length_cons, List.length_nil] at h8 ⊢
        omega
      · have h7 : lcpLen (p ++ 97 :: a) x = p.length := by conv_lhs => rw [e, lcp_mis]
        rw [h7] at hle
        have hps : p <+: s := List.prefix_of_prefix_length_le ⟨98 :: b, e.symm⟩ hsx hle
        have := psi_len_le hps
        have h8 : lcpLen (pa (p ++ 97 :: a)) (pa x) = (psi p).length + 3 := by
          conv_lhs => rw [e]
          exact pa_mis_lcp (aba_tail_ne (e ▸ h.aba))
        rw [h8]
        simp only [List.length_cons, List.length_nil]
        omega
    · obtain ⟨r, hr⟩ := pa_head w
      rw [hr, hr0]
      simp [lcpLen]
    · rw [hr0]; simp [lcpLen]
  · have := pa_suffix_of h4
    rw [pa_a] at this
    exact ((List.suffix_cons _ _).trans (List.suffix_cons _ _)).trans this
  · have hqA : AbA (q ++ v') := hyA.tail
    have e : 97 :: pa q ++ 98 :: v1 = 97 :: pa (q ++ v') := by rw [epq]; rfl
    rw [e]
    obtain ⟨r1, hr1⟩ := pa_head (q ++ v')
    intro w' g1 g2
    rcases pa_suffix hx g1 with rfl | ⟨w, e1, rfl⟩ | ⟨w, e1, rfl⟩ | ⟨w, rfl⟩
    · left; simp
    · rcases w with _ | ⟨c, w⟩
      · left; exact ⟨⟨_, rfl⟩, by simp [pa_nil]⟩
      · obtain ⟨r, hr⟩ := pa_head2 (u := c :: w) (by simp)
        rw [hr, hr1] at g2
        simp [List.cons_lt_cons_iff] at g2
    · have hw := (h.aba.suffix e1).tail
      have hlt : w < q ++ v' := (pa_lt hw hqA).1 (by simpa [List.cons_lt_cons_iff] using g2)
      have key : w <+: q ++ v' → w.length ≤ q.length → 97 :: pa w <+: 97 :: pa (q ++ v') ∧ (97 :: pa w).length ≤ (97 :: pa q).length := by
        intro g3 g4
        have hwu : w <+: q := List.prefix_of_prefix_length_le g3 (List.prefix_append _ _) g4
        obtain ⟨r, rfl⟩ := hwu
        refine ⟨?_, by have := psi_len_le (List.prefix_append w r); simp [pa]; exact this⟩
        obtain ⟨s, hs⟩ := pa_head (r ++ v')
        rw [List.append_assoc, pa_append, hs]
        exact ⟨s, by simp [pa]⟩
      rcases h5 _ e1 (by simpa [List.cons_lt_cons_iff] using hlt) with ⟨g3, g4⟩ | g3
      · left
        exact key (by simpa using g3) (by simpa using g4)
      · have g3 : lcpLen w (q ++ v') + 2 ≤ q.length := by
          simp [lcpLen] at g3
          omega
        rcases bin_lt hw.1 hqA.1 hlt with ⟨r, -, e⟩ | ⟨p, a, b, rfl, e⟩
        · left
          rw [e, lcp_prefix] at g3
          exact key ⟨r, e.symm⟩ (by omega)
        · right
          rw [e, lcp_mis] at g3
          obtain ⟨d, r, rfl⟩ := split_two e rfl g3
          have h8 := pa_mis_lcp (p := p) (x := a) (aba_tail_ne (e ▸ hqA))
          rw [← e] at h8
          have := psi_two d r
          simp only [lcpLen, if_true, h8]
          simp only [List.length_cons, pa, List.length_append, psi_append, psi_b, List.length_nil]
          omega
    · simp [List.cons_lt_cons_iff] at g2
  · rcases h6 with ⟨rfl, rfl⟩ | ⟨v, rfl, g⟩
    · have : v1 = [97, 97] := by rw [pa_a, pa_nil] at hv1; simpa using hv1.symm
      subst this
      exact .base haa
    · have : v1 = pa v := by rw [pa_b] at hv1; simpa using hv1.symm
      subst this
      exact g.next h.aba haa

theorem fo_one : FoInv [97, 98, 97, 97] 0 := by
  have hs : ∀ u : List UInt8, u <:+ [97, 98, 97, 97] → u ∈ [[97, 98, 97, 97], [98, 97, 97], [97, 97], [97], []] := by
    intro u h
    simpa only [List.suffix_cons_iff, List.suffix_nil, List.mem_cons, List.not_mem_nil, or_false] using h
  refine ⟨⟨by decide, by decide⟩, ⟨[97, 98], rfl⟩, [97], [], [], [97], rfl, ⟨[97, 98], rfl⟩, ?_, ⟨[97, 98, 97], rfl⟩,
    preBest_aa (by unfold AbWord; decide), .inl ⟨rfl, rfl⟩⟩
  intro u h
  have := hs u h
  clear h
  revert u
  decide +kernel

/-- the word behind the Fibonacci word of order `2 i + 5` -/
def foWord : Nat → List UInt8
  | 0 => [97, 98, 97, 97]
  | i + 1 => pa (foWord i)

theorem fo_inv : ∀ i, FoInv (foWord i) i
  | 0 => fo_one
  | i + 1 => (fo_inv i).next

theorem psi_ab {w : List UInt8} (hw : AbWord w) : psi w ++ [97, 98] = 97 :: 98 :: fl w := by
  induction w with
  | nil => rfl
  | cons c w ih =>
    have := ih hw.tail
    rcases hw.head with rfl | rfl
    · rw [psi_a, fl_a, List.cons_append, List.cons_append, List.cons_append, this]
    · rw [psi_b, fl_b, List.cons_append, List.cons_append, this]

theorem fo_word : ∀ i, fibWord (2 * i + 3) = foWord i ++ [98]
  | 0 => rfl
  | i + 1 => by
    rw [show 2 * (i + 1) + 3 = 2 * i + 3 + 2 by omega, psi_fib, fo_word i, psi_append, foWord, pa]
    simp [psi]

theorem fo_eq (i : Nat) : fibWord (2 * i + 5) = 97 :: 98 :: fl (foWord i) := by
  rw [show 2 * i + 5 = 2 * i + 3 + 2 by omega, psi_fib, fo_word, psi_append]
  exact psi_ab (fo_inv i).aba.1

theorem fo_lexFactors (i : Nat) : LexFactors (fibWord (2 * i + 5)) (i + 5) := by
  rw [fo_eq]
  exact (fo_inv i).phrases

theorem fo_three : LexFactors (fibWord 3) 4 :=
  have hs : ∀ u : List UInt8, u <:+ [97, 98, 97, 97, 98] → u ∈ [[97, 98, 97, 97, 98], [98, 97, 97, 98], [97, 97, 98], [97, 98], [98], []] := by
    intro u h
    simpa only [List.suffix_cons_iff, List.suffix_nil, List.mem_cons, List.not_mem_nil, or_false] using h
  have key : ∀ (v : List UInt8) (l : Nat), (∀ u ∈ ([[97, 98, 97, 97, 98], [98, 97, 97, 98], [97, 97, 98], [97, 98], [98]] : List (List UInt8)),
      u < v → lcpLen u v ≤ l) → ∀ u, SmallerSuffix (fibWord 3) u v → lcpLen u v ≤ l := by
    rintro v l h u ⟨h1, h2, h3⟩
    refine h u ?_ h3
    have := hs u h1
    simp only [List.mem_cons, List.not_mem_nil, or_false] at this ⊢
    rcases this with h | h | h | h | h | h
    all_goals first | exact absurd h h2 | simp [h]
  lexPhrases_one 2 2 (by decide) ⟨key _ _ (by decide +kernel), .inr ⟨[97, 98], ⟨⟨[97, 98, 97], rfl⟩, by simp, by decide⟩, by decide⟩⟩ rfl <|
  lexPhrases_one 0 1 (by decide) ⟨key _ _ (by decide +kernel), .inl rfl⟩ rfl <|
  lexPhrases_one 1 1 (by decide) ⟨key _ _ (by decide +kernel), .inr ⟨[97, 97, 98], ⟨⟨[97, 98], rfl⟩, by simp, by decide⟩, by decide⟩⟩ rfl <|
  lexPhrases_one 0 1 (by decide) ⟨key _ _ (by decide +kernel), .inl rfl⟩ rfl .nil

end Verif
