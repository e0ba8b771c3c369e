import Verif.Lemmas.LexTm
import Verif.Lemmas.WordMore
import Verif.Lemmas.FibBwt

/-! # The lexicographic parse of the Fibonacci words and of their Lyndon factors -/

namespace Verif

open Spec Model

theorem bin_append {u v : List UInt8} : AbWord (u ++ v) ↔ AbWord u ∧ AbWord v := by
  simp only [AbWord, List.mem_append]
  exact ⟨fun h => ⟨fun c hc => h c (.inl hc), fun c hc => h c (.inr hc)⟩, fun h c hc => hc.elim (h.1 c) (h.2 c)⟩

/-- A smaller word over two letters ends first or has the smaller letter. -/
theorem bin_lt {u v : List UInt8} (hu : AbWord u) (hv : AbWord v) (h : u < v) :
    (∃ v', v' ≠ [] ∧ v = u ++ v') ∨ ∃ p x y, u = p ++ 97 :: x ∧ v = p ++ 98 :: y := by
  rcases lt_iff_mis.1 h with ⟨⟨r, hr⟩, hne⟩ | ⟨p, a, b, x, y, rfl, rfl, hab⟩
  · exact .inl ⟨r, by rintro rfl; exact hne (by simpa using hr), hr.symm⟩
  · right
    have ha := (bin_append.1 hu).2.head
    have hb := (bin_append.1 hv).2.head
    rcases ha with rfl | rfl <;> rcases hb with rfl | rfl
    · exact absurd hab (lt_irrefl _)
    · exact ⟨p, x, y, rfl, rfl⟩
    · exact absurd hab (by decide)
    · exact absurd hab (lt_irrefl _)

theorem lcp_prefix (p v : List UInt8) : lcpLen p (p ++ v) = p.length := by
  have := lcpLen_append_left p [] v
  simpa using this

theorem lcp_mis (p x y : List UInt8) : lcpLen (p ++ 97 :: x) (p ++ 98 :: y) = p.length := by
  rw [lcpLen_append_left]; simp [lcpLen]

/-! ### The Lyndon factors -/

/-- the image under `a -> aab, b -> ab` -/
def fl (w : List UInt8) : List UInt8 := w.flatMap lyndonMor

@[simp] theorem fl_nil : fl [] = [] := rfl
@[simp] theorem fl_a (w : List UInt8) : fl (97 :: w) = 97 :: 97 :: 98 :: fl w := rfl
@[simp] theorem fl_b (w : List UInt8) : fl (98 :: w) = 97 :: 98 :: fl w := rfl
theorem fl_append (u v : List UInt8) : fl (u ++ v) = fl u ++ fl v := List.flatMap_append

theorem fl_bin (w : List UInt8) : AbWord (fl w) := AB.img w

theorem fl_suffix {w u' : List UInt8} (hw : AbWord w) (h : u' <:+ fl w) :
    (∃ u, u <:+ w ∧ u' = fl u) ∨ (∃ u, u <:+ w ∧ u' = 97 :: 98 :: fl u) ∨ ∃ u, u' = 98 :: fl u := by
  induction w with
  | nil => exact .inl ⟨[], List.suffix_refl _, by simpa using h⟩
  | cons c w ih =>
    have lift : u' <:+ fl w → (∃ u, u <:+ c :: w ∧ u' = fl u) ∨ (∃ u, u <:+ c :: w ∧ u' = 97 :: 98 :: fl u) ∨
        ∃ u, u' = 98 :: fl u := by
      intro h
      rcases ih hw.tail h with ⟨u, h1, h2⟩ | ⟨u, h1, h2⟩ | h
      · exact .inl ⟨u, h1.trans (List.suffix_cons _ _), h2⟩
      · exact .inr (.inl ⟨u, h1.trans (List.suffix_cons _ _), h2⟩)
      · exact .inr (.inr h)
    rcases hw.head with rfl | rfl
    · rw [fl_a, List.suffix_cons_iff, List.suffix_cons_iff, List.suffix_cons_iff] at h
      rcases h with h | h | h | h
      · exact .inl ⟨_, List.suffix_refl _, h⟩
      · exact .inr (.inl ⟨w, List.suffix_cons _ _, h⟩)
      · exact .inr (.inr ⟨w, h⟩)
      · exact lift h
    · rw [fl_b, List.suffix_cons_iff, List.suffix_cons_iff] at h
      rcases h with h | h | h
      · exact .inl ⟨_, List.suffix_refl _, h⟩
      · exact .inr (.inr ⟨w, h⟩)
      · exact lift h

theorem fl_lt_of {u v : List UInt8} (hu : AbWord u) (hv : AbWord v) (h : u < v) : fl u < fl v := by
  rcases bin_lt hu hv h with ⟨v', h1, rfl⟩ | ⟨p, x, y, rfl, rfl⟩
  · rw [fl_append]
    refine lt_of_prefix (List.prefix_append _ _) ?_
    obtain ⟨c, v', rfl⟩ := List.exists_cons_of_ne_nil h1
    rcases (bin_append.1 hv).2.head with rfl | rfl <;> simp
  · rw [fl_append, fl_append, append_lt_left]
    simp [List.cons_lt_cons_iff]

theorem fl_lt {u v : List UInt8} (hu : AbWord u) (hv : AbWord v) : fl u < fl v ↔ u < v := by
  refine ⟨fun h => ?_, fl_lt_of hu hv⟩
  rcases lt_trichotomy u v with g | rfl | g
  · exact g
  · exact absurd h (lt_irrefl _)
  · exact absurd (h.trans (fl_lt_of hv hu g)) (lt_irrefl _)

/-- What is known of a Lyndon factor. -/
structure FlInv (w : List UInt8) : Prop where
  bin : AbWord w
  least : ∀ u, u <:+ w → u ≠ [] → ¬ u < w
  parts : ∃ q p x, w = 97 :: (q ++ (97 :: p ++ [98])) ∧ q ≠ [] ∧ q <:+ w ∧ 97 :: p ++ 97 :: x <:+ w ∧
    (∀ u, u <:+ w → u < q ++ (97 :: p ++ [98]) → lcpLen u (q ++ (97 :: p ++ [98])) ≤ q.length) ∧
    (∀ u, u <:+ w → u < 97 :: p ++ [98] → lcpLen u (97 :: p ++ [98]) ≤ (97 :: p).length)

theorem FlInv.phrases {w : List UInt8} (h : FlInv w) : LexFactors w 4 := by
  obtain ⟨q, p, x, h1, h2, h3, h4, h5, h6⟩ := h.parts
  have hq : 1 ≤ q.length := List.length_pos_iff.2 h2
  have d1 : w.drop 1 = q ++ (97 :: p ++ [98]) := by rw [h1]; rfl
  have d2 : (q ++ (97 :: p ++ [98])).drop q.length = 97 :: p ++ [98] := List.drop_left
  have d3 : (97 :: p ++ [98]).drop (97 :: p).length = [98] := List.drop_left
  refine lexPhrases_one 0 1 (by rw [h1]; simp) ⟨?_, .inl rfl⟩ rfl ?_
  · rintro u ⟨g1, g2, g3⟩
    exact absurd g3 (h.least u g1 g2)
  rw [d1]
  refine lexPhrases_one q.length q.length (by simp) ⟨fun u hu => h5 u hu.1 hu.2.2, .inr ⟨q, ⟨h3, h2, ?_⟩, ?_⟩⟩ (by omega) ?_
  · exact lt_of_prefix (List.prefix_append _ _) (by simp)
  · exact lcp_prefix _ _
  rw [d2]
  refine lexPhrases_one (97 :: p).length (97 :: p).length (by simp) ⟨fun u hu => h6 u hu.1 hu.2.2, .inr ⟨_, ⟨h4, by simp, ?_⟩, ?_⟩⟩
    (by simp) ?_
  · rw [append_lt_left]; simp [List.cons_lt_cons_iff]
  · exact lcp_mis _ _ _
  rw [d3]
  refine lexPhrases_one 0 1 (by simp) ⟨?_, .inl rfl⟩ rfl .nil
  rintro u ⟨g1, g2, g3⟩
  obtain ⟨c, u, rfl⟩ := List.exists_cons_of_ne_nil g2
  rcases (h.bin.suffix g1).head with rfl | rfl
  · simp [lcpLen]
  · simp at g3

theorem fl_len_le {p q : List UInt8} (h : p <+: q) : (fl p).length ≤ (fl q).length := by
  obtain ⟨r, rfl⟩ := h
  rw [fl_append, List.length_append]; omega

theorem FlInv.next {w : List UInt8} (h : FlInv w) : FlInv (fl w) := by
  obtain ⟨q, p, x, h1, h2, h3, h4, h5, h6⟩ := h.parts
  have hw' : ∃ r, w = 97 :: r := ⟨_, h1⟩
  have hyb : AbWord (q ++ (97 :: p ++ [98])) := by have := h.bin; rw [h1] at this; exact this.tail
  have hvb : AbWord (97 :: p ++ [98]) := (bin_append.1 hyb).2
  refine ⟨fl_bin _, ?_, 97 :: 98 :: fl q, 97 :: 98 :: fl p ++ [97], 98 :: fl x, ?_, by simp, ?_, ?_, ?_, ?_⟩
  · intro u' g1 g2 g3
    obtain ⟨r, rfl⟩ := hw'
    rcases fl_suffix h.bin g1 with ⟨u, e1, rfl⟩ | ⟨u, -, rfl⟩ | ⟨u, rfl⟩
    · exact h.least u e1 (by rintro rfl; exact g2 rfl) ((fl_lt (h.bin.suffix e1) h.bin).1 g3)
    · simp [List.cons_lt_cons_iff] at g3
    · simp [List.cons_lt_cons_iff] at g3
  · rw [h1]
    simp [fl_append]
  · have : ∃ c, c :: q <:+ w := by
      obtain ⟨s, hs⟩ := h3
      rcases List.eq_nil_or_concat s with rfl | ⟨s, c, rfl⟩
      · exfalso
        have := congrArg List.length (hs.trans h1)
        simp at this
        omega
      · exact ⟨c, s, by rw [← hs]; simp⟩
    obtain ⟨c, s, hs⟩ := this
    have hc : AbWord (c :: q) := h.bin.suffix ⟨s, hs⟩
    rw [← hs, fl_append]
    rcases hc.head with rfl | rfl
    · exact ⟨fl s ++ [97], by simp⟩
    · exact ⟨fl s, by simp⟩
  · obtain ⟨s, hs⟩ := h4
    rw [← hs, fl_append, fl_append]
    exact ⟨fl s, by simp⟩
  · have sub : ∀ u, u <:+ w → fl u < fl (q ++ (97 :: p ++ [98])) →
        lcpLen (fl u) (fl (q ++ (97 :: p ++ [98]))) ≤ (fl q).length := by
      intro u g1 g2
      have hub := h.bin.suffix g1
      have hlt := (fl_lt hub hyb).1 g2
      have hle := h5 u g1 hlt
      rcases bin_lt hub hyb hlt with ⟨v', -, e⟩ | ⟨s, a, b, rfl, e⟩
      · rw [e, lcp_prefix] at hle
        rw [e, fl_append, lcp_prefix]
        exact fl_len_le (List.prefix_of_prefix_length_le (List.prefix_append _ _) (e ▸ List.prefix_append _ _) hle)
      · rw [e, lcp_mis] at hle
        have hp : s <+: q := List.prefix_of_prefix_length_le (List.prefix_append _ _) (e ▸ List.prefix_append _ _) hle
        obtain ⟨r, rfl⟩ := hp
        rw [List.append_assoc] at e
        have e := List.append_cancel_left e
        rw [List.append_assoc]
        rcases r with _ | ⟨c, r⟩
        · simp at e
        · rw [List.cons_append] at e ⊢
          injection e with e1 e2
          subst e1
          rw [fl_append, fl_append, fl_append, lcpLen_append_left]
          simp [lcpLen]
    have e' : 97 :: 98 :: fl q ++ (97 :: (97 :: 98 :: fl p ++ [97]) ++ [98]) = 97 :: 98 :: fl (q ++ (97 :: p ++ [98])) := by
      simp [fl_append]
    rw [e']
    have sub' : ∀ u, u <:+ w → 97 :: 98 :: fl u < 97 :: 98 :: fl (q ++ (97 :: p ++ [98])) →
        lcpLen (97 :: 98 :: fl u) (97 :: 98 :: fl (q ++ (97 :: p ++ [98]))) ≤ (97 :: 98 :: fl q).length := by
      intro u g1 g2
      have := sub u g1 (by simpa [List.cons_lt_cons_iff] using g2)
      simp [lcpLen]
      exact this
    intro u' g1 g2
    rcases fl_suffix h.bin g1 with ⟨u, e1, rfl⟩ | ⟨u, e1, rfl⟩ | ⟨u, rfl⟩
    · rcases u with _ | ⟨c, u⟩
      · simp
      · rcases (h.bin.suffix e1).head with rfl | rfl
        · simp [lcpLen]
        · exact sub' u ((List.suffix_cons _ _).trans e1) g2
    · exact sub' u e1 g2
    · simp [lcpLen]
  · have e' : 97 :: (97 :: 98 :: fl p ++ [97]) ++ [98] = fl (97 :: p ++ [98]) := by simp [fl_append]
    rw [e']
    intro u' g1 g2
    rcases fl_suffix h.bin g1 with ⟨u, e1, rfl⟩ | ⟨u, e1, rfl⟩ | ⟨u, rfl⟩
    · have hub := h.bin.suffix e1
      have hlt := (fl_lt hub hvb).1 g2
      have hle := h6 u e1 hlt
      have hlen : (97 :: (97 :: 98 :: fl p ++ [97])).length = (fl (97 :: p)).length + 1 := by simp
      rw [hlen]
      rcases bin_lt hub hvb hlt with ⟨v', -, e⟩ | ⟨s, a, b, rfl, e⟩
      · rw [e, lcp_prefix] at hle
        rw [e, fl_append, lcp_prefix]
        have := fl_len_le (List.prefix_of_prefix_length_le (List.prefix_append _ _) (e ▸ List.prefix_append _ _) hle :
          u <+: 97 :: p)
        omega
      · rw [e, lcp_mis] at hle
        have := fl_len_le (List.prefix_of_prefix_length_le (List.prefix_append _ _) (e ▸ List.prefix_append _ _) hle :
          s <+: 97 :: p)
        rw [e, fl_append, fl_append, lcpLen_append_left]
        simp [lcpLen]
        simpa using this
    · simp [lcpLen]
    · simp [lcpLen]

theorem fl_one : FlInv [97, 97, 98, 97, 98] := by
  have hs : ∀ u : List UInt8, u <:+ [97, 97, 98, 97, 98] → u ∈ [[97, 97, 98, 97, 98], [97, 98, 97, 98], [98, 97, 98], [97, 98], [98], []] := by
    intro u h
    simpa only [List.suffix_cons_iff, List.suffix_nil, List.mem_cons, List.not_mem_nil, or_false] using h
  refine ⟨by unfold AbWord; decide, ?_, [97, 98], [], [98, 97, 98], rfl, by simp, ⟨[97, 97, 98], rfl⟩, List.suffix_refl _, ?_, ?_⟩
  · intro u h
    have := hs u h
    clear h
    revert u
    decide
  · intro u h
    have := hs u h
    clear h
    revert u
    decide
  · intro u h
    have := hs u h
    clear h
    revert u
    decide

theorem fl_inv : ∀ k, FlInv (iter lyndonMor (k + 1) [97, 98])
  | 0 => fl_one
  | k + 1 => (fl_inv k).next

/-! ### The Fibonacci words of even order -/

theorem psi_a (w : List UInt8) : psi (97 :: w) = 97 :: 98 :: 97 :: psi w := rfl
theorem psi_b (w : List UInt8) : psi (98 :: w) = 97 :: 98 :: psi w := rfl

theorem psi_suffix {w u' : List UInt8} (hw : AbWord w) (h : u' <:+ psi w) :
    (∃ u, u <:+ w ∧ u' = psi u) ∨ (∃ u, u' = 97 :: psi u) ∨ (∃ u, 97 :: u <:+ w ∧ u' = 98 :: 97 :: psi u) ∨
      ∃ u, 98 :: u <:+ w ∧ u' = 98 :: psi u := by
  induction w with
  | nil => exact .inl ⟨[], List.suffix_refl _, by simpa [psi] using h⟩
  | cons c w ih =>
    have lift : u' <:+ psi w → (∃ u, u <:+ c :: w ∧ u' = psi u) ∨ (∃ u, u' = 97 :: psi u) ∨
        (∃ u, 97 :: u <:+ c :: w ∧ u' = 98 :: 97 :: psi u) ∨ ∃ u, 98 :: u <:+ c :: w ∧ u' = 98 :: psi u := by
      intro h
      rcases ih hw.tail h with ⟨u, h1, h2⟩ | h | ⟨u, h1, h2⟩ | ⟨u, h1, h2⟩
      · exact .inl ⟨u, h1.trans (List.suffix_cons _ _), h2⟩
      · exact .inr (.inl h)
      · exact .inr (.inr (.inl ⟨u, h1.trans (List.suffix_cons _ _), h2⟩))
      · exact .inr (.inr (.inr ⟨u, h1.trans (List.suffix_cons _ _), h2⟩))
    rcases hw.head with rfl | rfl
    · rw [psi_a, List.suffix_cons_iff, List.suffix_cons_iff, List.suffix_cons_iff] at h
      rcases h with h | h | h | h
      · exact .inl ⟨_, List.suffix_refl _, h⟩
      · exact .inr (.inr (.inl ⟨w, List.suffix_refl _, h⟩))
      · exact .inr (.inl ⟨w, h⟩)
      · exact lift h
    · rw [psi_b, List.suffix_cons_iff, List.suffix_cons_iff] at h
      rcases h with h | h | h
      · exact .inl ⟨_, List.suffix_refl _, h⟩
      · exact .inr (.inr (.inr ⟨w, List.suffix_refl _, h⟩))
      · exact lift h

theorem AbA.suffix {u w : List UInt8} (h : AbA w) (hs : u <:+ w) : AbA u := by
  obtain ⟨s, rfl⟩ := hs
  induction s with
  | nil => exact h
  | cons c s ih => exact ih h.tail

theorem psi_lt_iff {u v : List UInt8} (hu : AbA u) (hv : AbA v) : psi u < psi v ↔ u < v := by
  refine ⟨fun h => ?_, psi_lt hu hv⟩
  rcases lt_trichotomy u v with g | rfl | g
  · exact g
  · exact absurd h (lt_irrefl _)
  · exact absurd (h.trans (psi_lt hv hu g)) (lt_irrefl _)

theorem psi_bin {w : List UInt8} (hw : AbWord w) : AbWord (psi w) := by
  induction w with
  | nil => exact hw
  | cons c w ih =>
    have := ih hw.tail
    rcases hw.head with rfl | rfl
    · rw [psi_a, bin_iff_cons, bin_iff_cons, bin_iff_cons]; exact ⟨.inl rfl, .inr rfl, .inl rfl, this⟩
    · rw [psi_b, bin_iff_cons, bin_iff_cons]; exact ⟨.inl rfl, .inr rfl, this⟩

theorem psi_len_le {p q : List UInt8} (h : p <+: q) : (psi p).length ≤ (psi q).length := by
  obtain ⟨r, rfl⟩ := h
  rw [psi_append, List.length_append]; omega

/-- How far the images of two words agree that differ. -/
theorem psi_mis {p x y : List UInt8} (hy : y ≠ []) :
    lcpLen (psi (p ++ 97 :: x)) (psi (p ++ 98 :: y)) = (psi p).length + 3 := by
  obtain ⟨c, y, rfl⟩ := List.exists_cons_of_ne_nil hy
  obtain ⟨r, hr⟩ := psi_cons c y
  rw [psi_append, psi_append, lcpLen_append_left, psi_a, psi_b, hr]
  rcases x with _ | ⟨d, x⟩
  · simp [psi, lcpLen]
  · obtain ⟨s, hs⟩ := psi_cons d x
    rw [hs]
    simp [lcpLen]

/-- What is known of a Fibonacci word of even order. -/
structure FeInv (w : List UInt8) : Prop where
  aba : AbA w
  nobb : ∀ r, ¬ 98 :: 98 :: r <:+ w
  parts : ∃ q p x, w = q ++ (p ++ [98, 97]) ∧ 2 ≤ q.length ∧ q <:+ w ∧ x ≠ [] ∧ 1 ≤ p.length ∧ p ++ 97 :: x <:+ w ∧
    (∀ u, u <:+ w → u < w → (u <+: w ∧ u.length ≤ q.length) ∨ lcpLen u w + 2 ≤ q.length) ∧
    (∀ u, u <:+ w → u < p ++ [98, 97] → lcpLen u (p ++ [98, 97]) ≤ p.length)

theorem FeInv.phrases {w : List UInt8} (h : FeInv w) : LexFactors w 4 := by
  obtain ⟨q, p, x, h1, h2, h3, -, hp1, h4, h5, h6⟩ := h.parts
  have d1 : w.drop q.length = p ++ [98, 97] := by rw [h1, List.drop_left]
  have d2 : (p ++ [98, 97]).drop p.length = [98, 97] := List.drop_left
  refine lexPhrases_one q.length q.length (by rw [h1]; simp) ⟨?_, .inr ⟨q, ⟨h3, by rintro rfl; simp at h2, ?_⟩, ?_⟩⟩ (by omega) ?_
  · rintro u ⟨g1, g2, g3⟩
    rcases h5 u g1 g3 with ⟨⟨r, hr⟩, e⟩ | e
    · rw [← hr, lcp_prefix]; exact e
    · omega
  · rw [h1]; exact lt_of_prefix (List.prefix_append _ _) (by simp)
  · rw [h1]; exact lcp_prefix _ _
  rw [d1]
  refine lexPhrases_one p.length p.length (by simp) ⟨fun u hu => h6 u hu.1 hu.2.2, .inr ⟨_, ⟨h4, by simp, ?_⟩, ?_⟩⟩ (by omega) ?_
  · rw [append_lt_left]; simp [List.cons_lt_cons_iff]
  · exact lcp_mis _ _ _
  rw [d2]
  refine lexPhrases_one 0 1 (by simp) ⟨?_, .inl rfl⟩ rfl (lexPhrases_one 0 1 (by simp) ⟨?_, .inl rfl⟩ rfl .nil)
  · rintro u ⟨g1, g2, g3⟩
    have hu := h.aba.suffix g1
    rcases u with _ | ⟨c, _ | ⟨d, u⟩⟩
    · exact absurd rfl g2
    · have := hu.2
      simp at this
      subst this
      decide
    · rcases hu.1 c (by simp) with rfl | rfl
      · simp [lcpLen]
      · rcases hu.1 d (by simp) with rfl | rfl <;> simp [List.cons_lt_cons_iff] at g3
  · rintro u ⟨g1, g2, g3⟩
    obtain ⟨c, u, rfl⟩ := List.exists_cons_of_ne_nil g2
    rcases (h.aba.suffix g1).1 c (by simp) with rfl | rfl <;> simp [List.cons_lt_cons_iff] at g3

theorem FeInv.next {w : List UInt8} (h : FeInv w) : FeInv (psi w) := by
  obtain ⟨q, p, x, h1, h2, h3, hx, hp1, h4, h5, h6⟩ := h.parts
  have hb : AbWord w := h.aba.1
  have hv : AbA (p ++ [98, 97]) := h.aba.suffix ⟨q, h1.symm⟩
  have hql : 4 ≤ (psi q).length := by
    rcases q with _ | ⟨a, _ | ⟨b, q⟩⟩
    · simp at h2
    · simp at h2
    · unfold psi psi; split <;> split <;> simp
  have one : ∀ u v : List UInt8, v ≠ [] → lcpLen (97 :: psi u) (psi v) = 1 := by
    intro u v hv
    obtain ⟨c, v, rfl⟩ := List.exists_cons_of_ne_nil hv
    obtain ⟨r, hr⟩ := psi_cons c v
    rw [hr]
    rcases u with _ | ⟨d, u⟩
    · simp [psi, lcpLen]
    · obtain ⟨s, hs⟩ := psi_cons d u
      rw [hs]; simp [lcpLen]
  have zero : ∀ u v : List UInt8, v ≠ [] → lcpLen (98 :: u) (psi v) = 0 := by
    intro u v hv
    obtain ⟨c, v, rfl⟩ := List.exists_cons_of_ne_nil hv
    obtain ⟨r, hr⟩ := psi_cons c v
    rw [hr]; simp [lcpLen]
  have hw0 : w ≠ [] := by rw [h1]; simp
  have tailne : ∀ {s y : List UInt8}, AbA (s ++ 98 :: y) → y ≠ [] := by
    rintro s y g rfl
    have := g.2
    simp at this
  obtain ⟨c, x, rfl⟩ := List.exists_cons_of_ne_nil hx
  obtain ⟨r, hr⟩ := psi_cons c x
  refine ⟨⟨psi_bin hb, .inr ?_⟩, ?_, psi q, psi p ++ [97, 98, 97], 98 :: r, ?_, by omega, ?_, by simp, by simp, ?_, ?_, ?_⟩
  · rw [h1, psi_append, psi_append]
    simp [psi, List.getLast?_append]
  · intro r g
    rcases psi_suffix hb g with ⟨u, e1, e2⟩ | ⟨u, e2⟩ | ⟨u, e1, e2⟩ | ⟨u, e1, e2⟩
    · rcases u with _ | ⟨d, u⟩
      · cases e2
      · obtain ⟨s, hs⟩ := psi_cons d u
        rw [hs] at e2; simp at e2
    · simp at e2
    · simp at e2
    · rcases u with _ | ⟨d, u⟩
      · cases e2
      · obtain ⟨s, hs⟩ := psi_cons d u
        rw [hs] at e2; simp at e2
  · rw [h1, psi_append, psi_append]
    simp [psi]
  · obtain ⟨s, hs⟩ := h3
    exact ⟨psi s, by rw [← psi_append, hs]⟩
  · obtain ⟨s, hs⟩ := h4
    refine ⟨psi s, ?_⟩
    rw [← hs, psi_append, psi_append, psi_a, hr]
    simp
  · intro u' g1 g2
    rcases psi_suffix hb g1 with ⟨u, e1, rfl⟩ | ⟨u, rfl⟩ | ⟨u, -, rfl⟩ | ⟨u, -, rfl⟩
    · have hu := h.aba.suffix e1
      have hlt := (psi_lt_iff hu h.aba).1 g2
      rcases h5 u e1 hlt with ⟨g3, g4⟩ | g3
      · left
        obtain ⟨r, hr⟩ := g3
        refine ⟨⟨psi r, by rw [← psi_append, hr]⟩, psi_len_le ?_⟩
        exact List.prefix_of_prefix_length_le ⟨r, hr⟩ (h1 ▸ List.prefix_append _ _) g4
      · rcases bin_lt hu.1 hb hlt with ⟨v', -, e⟩ | ⟨s, a, b, rfl, e⟩
        · left
          rw [e, lcp_prefix] at g3
          rw [e, psi_append]
          refine ⟨List.prefix_append _ _, psi_len_le ?_⟩
          exact List.prefix_of_prefix_length_le (e ▸ List.prefix_append _ _) (h1 ▸ List.prefix_append _ _) (by omega)
        · right
          rw [e, lcp_mis] at g3
          have hbn : b ≠ [] := tailne (e ▸ h.aba)
          have hsq : s <+: q := List.prefix_of_prefix_length_le (e ▸ List.prefix_append _ _) (h1 ▸ List.prefix_append _ _) (by omega)
          obtain ⟨r, hr⟩ := hsq
          have e0 := h1
          rw [← hr, e, List.append_assoc] at e0
          have e0 := List.append_cancel_left e0
          rw [e, psi_mis hbn, ← hr, psi_append, List.length_append]
          rw [← hr, List.length_append] at g3
          rcases r with _ | ⟨c, _ | ⟨d, r⟩⟩
          · simp at g3
          · simp at g3
          · simp at e0
            obtain ⟨rfl, rfl⟩ := e0
            have hd : d = 97 := by
              rcases hb d (by rw [e]; simp) with g | g
              · exact g
              · subst g
                exact absurd ⟨s, e.symm⟩ (h.nobb _)
            subst hd
            simp [psi_a, psi_b]
            omega
    · right; rw [one u w hw0]; omega
    · right; rw [zero _ w hw0]; omega
    · right; rw [zero _ w hw0]; omega
  · have e' : psi p ++ [97, 98, 97] ++ [98, 97] = psi (p ++ [98, 97]) := by rw [psi_append]; simp [psi]
    rw [e']
    intro u' g1 g2
    rw [List.length_append]
    rcases psi_suffix hb g1 with ⟨u, e1, rfl⟩ | ⟨u, rfl⟩ | ⟨u, -, rfl⟩ | ⟨u, -, rfl⟩
    · have hu := h.aba.suffix e1
      have hlt := (psi_lt_iff hu hv).1 g2
      have hle := h6 u e1 hlt
      rcases bin_lt hu.1 hv.1 hlt with ⟨v', -, e⟩ | ⟨s, a, b, rfl, e⟩
      · rw [e, lcp_prefix] at hle
        rw [e, psi_append, lcp_prefix]
        have := psi_len_le (List.prefix_of_prefix_length_le (List.prefix_append _ _) (e ▸ List.prefix_append _ _) hle : u <+: p)
        omega
      · rw [e, lcp_mis] at hle
        have := psi_len_le (List.prefix_of_prefix_length_le (List.prefix_append _ _) (e ▸ List.prefix_append _ _) hle : s <+: p)
        rw [e, psi_mis (tailne (e ▸ hv))]
        simpa using this
    · rw [one u _ (by simp)]; simp
    · rw [zero _ _ (by simp)]; omega
    · rw [zero _ _ (by simp)]; omega

theorem fe_four : FeInv [97, 98, 97, 97, 98, 97, 98, 97] := by
  have hs : ∀ u : List UInt8, u <:+ [97, 98, 97, 97, 98, 97, 98, 97] → u ∈ [[97, 98, 97, 97, 98, 97, 98, 97],
      [98, 97, 97, 98, 97, 98, 97], [97, 97, 98, 97, 98, 97], [97, 98, 97, 98, 97], [98, 97, 98, 97], [97, 98, 97], [98, 97], [97], []] := by
    intro u h
    simpa only [List.suffix_cons_iff, List.suffix_nil, List.mem_cons, List.not_mem_nil, or_false] using h
  refine ⟨⟨by decide, by decide⟩, ?_, [97, 98, 97], [97, 98, 97], [98, 97, 98, 97], rfl, by decide, ⟨[97, 98, 97, 97, 98], rfl⟩,
    by decide, by decide, List.suffix_refl _, ?_, ?_⟩
  · intro r h
    simpa using hs _ h
  · intro u h
    have := hs u h
    clear h
    revert u
    decide +kernel
  · intro u h
    have := hs u h
    clear h
    revert u
    decide +kernel

theorem fe_inv : ∀ i, FeInv (fibWord (2 * i + 4))
  | 0 => fe_four
  | i + 1 => by
    rw [show 2 * (i + 1) + 4 = 2 * i + 4 + 2 by omega, psi_fib]
    exact (fe_inv i).next

end Verif
