import Verif.Lemmas.Lexparse
import Verif.Spec.LexWords

/-! # `count_lexparse` computes the lexicographic parse -/

namespace Verif

open Spec Model

theorem lexLen_unique {t v : List UInt8} {l l' : Nat} (h : LexLen t v l) (h' : LexLen t v l') : l = l' := by
  obtain ⟨h1, h2⟩ := h
  obtain ⟨h3, h4⟩ := h'
  apply le_antisymm
  · rcases h2 with h2 | ⟨u, hu, e⟩
    · omega
    · rw [← e]; exact h3 u hu
  · rcases h4 with h4 | ⟨u, hu, e⟩
    · omega
    · rw [← e]; exact h1 u hu

theorem lexLen_phi {t : List UInt8} {sa phi : List Nat} (hs : IsSuffixArray t sa) (hphi : IsPhi sa phi)
    {i a : Nat} (hi : i < t.length) (ha : phi[i]? = some a) :
    ∃ l, LexLen t (t.drop i) l ∧ max 1 l = max 1 (lcpLen (t.drop a) (t.drop i)) := by
  obtain ⟨r, hr, rfl⟩ := hs.rank hi
  have suf : ∀ u, SmallerSuffix t u (t.drop sa[r]) → ∃ q, ∃ hq : q < sa.length, u = t.drop sa[q] ∧ q < r := by
    rintro u ⟨h1, h2, h3⟩
    have hl := h1.length_le
    have hpos := List.length_pos_iff.2 h2
    obtain ⟨q, hq, e⟩ := hs.rank (x := t.length - u.length) (by omega)
    have hu : u = t.drop sa[q] := by rw [e]; exact List.suffix_iff_eq_drop.1 h1
    refine ⟨q, hq, hu, ?_⟩
    rw [hu] at h3
    exact (hs.lt_iff hq hr).1 h3
  rcases Nat.eq_zero_or_pos r with h0 | h0
  · subst h0
    have := hphi.first hr
    rw [this] at ha
    simp only [Option.some.injEq] at ha
    have h1 := first_last_lcp_le_one hs (by omega)
    rw [ha] at h1
    refine ⟨0, ⟨fun u hu => ?_, .inl rfl⟩, by omega⟩
    obtain ⟨q, hq, -, h2⟩ := suf u hu
    omega
  · have hst := hphi.step r h0 hr
    rw [hst] at ha
    simp only [Option.some.injEq] at ha
    subst ha
    have hlt : t.drop (sa[r - 1]) < t.drop sa[r] := (hs.lt_iff _ _).2 (by omega)
    refine ⟨_, ⟨fun u hu => ?_, .inr ⟨_, ⟨List.drop_suffix _ _, ?_, hlt⟩, rfl⟩⟩, rfl⟩
    · obtain ⟨q, hq, rfl, hqr⟩ := suf u hu
      rcases Nat.eq_or_lt_of_le (show q ≤ r - 1 by omega) with e | e
      · subst e; exact le_refl _
      · exact (lcpLen_le_of_between ((hs.lt_iff hq (by omega)).2 e).le hlt.le).2
    · intro e
      have := congrArg List.length e
      have hlt := hs.lt (i := r - 1) (by omega)
      simp at this
      omega

theorem lexPhrases_length {t : List UInt8} {sa phi : List Nat} (hs : IsSuffixArray t sa) (hphi : IsPhi sa phi) :
    ∀ (fs : List LZFactor) (i m : Nat), i ≤ t.length → LexParse t phi i fs →
      LexPhrases t (t.drop i) m → fs.length = m
  | [], i, m, _, hp, hm => by
    simp only [LexParse] at hp
    subst hp
    rw [List.drop_length] at hm
    cases hm with
    | nil => rfl
    | cons h => exact absurd rfl h
  | f :: fs, i, m, hi, ⟨h1, ⟨a, ha, hl⟩, h3⟩, hm => by
    have hi' : i < t.length := by
      rcases h1 with ⟨-, c, hc, -⟩ | ⟨h, hocc, -⟩
      · exact (List.getElem?_eq_some_iff.1 hc).1
      · have := hocc.2.1; omega
    have hle : i + factorLength f ≤ t.length := by
      rcases h1 with ⟨e, -⟩ | ⟨h, hocc, -⟩
      · simp [factorLength, e]; omega
      · have := hocc.2.1
        rw [factorLength, if_neg (by omega)]; omega
    generalize hv : t.drop i = v at hm
    cases hm with
    | nil =>
      have := congrArg List.length hv
      simp at this
      omega
    | @cons _ l m hne hlen hrest =>
      subst hv
      obtain ⟨l', g1, g2⟩ := lexLen_phi hs hphi hi' ha
      rw [lexLen_unique g1 hlen, ← hl] at g2
      have e2 : factorLength f = max 1 l := by
        rw [factorLength]
        split <;> omega
      rw [List.length_cons, lexPhrases_length hs hphi fs (i + factorLength f) m hle h3 (by
        rw [e2, ← List.drop_drop]; exact hrest)]

/-- The tool reports the number of phrases. -/
theorem lexFactors_count {sufsort : List UInt8 → List Nat} (hsort : SortsSuffixes sufsort) {t : List UInt8} {m : Nat}
    (hn : t.length < 2147483648) (ht : t ≠ []) (hm : LexFactors t m) :
    ∃ fs, countLexparseFactors sufsort t = .ok fs ∧ fs.length = m := by
  obtain ⟨fs, phi, h1, h2, h3⟩ := countLexparse_ok hsort ht hn
  exact ⟨fs, h1, lexPhrases_length (hsort t hn) h2 fs 0 m (by omega) h3 (by rw [List.drop_zero]; exact hm)⟩

end Verif
