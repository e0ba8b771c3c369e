import Verif.Props.LzAttractor
import Verif.Lemmas.Lexparse

/-! # C87: the ends of the lex-parse factors form a string attractor

This connects `count_lexparse` (`src/bin/count_lexparse.rs`) with `is_attractor`
(`src/bin/is_stringattractor.rs`). -/

namespace Verif.Props

open Verif Spec Model

private theorem lex_step {t : List UInt8} {sa phi : List Nat} (hs : IsSuffixArray t sa) (hphi : IsPhi sa phi) :
    ∀ (fs : List LZFactor) (i : Nat), LexParse t phi i fs →
    ∀ j m, i ≤ j → 0 < m → j + m ≤ t.length →
      (∃ p ∈ phraseEnds i (fs.map factorLength), j ≤ p ∧ p < j + m) ∨
      ∃ j', t.drop j' < t.drop j ∧ Occ t j' j m := by
  intro fs
  induction fs with
  | nil =>
    intro i h j m h1 h2 h3
    have : i = t.length := h
    omega
  | cons f fs ih =>
    rintro i ⟨h1, -, h3⟩ j m hj hm hjm
    rw [List.map_cons, phraseEnds]
    by_cases c1 : i + factorLength f ≤ j
    · rcases ih _ h3 j m c1 hm hjm with ⟨p, hp, g⟩ | g
      · exact Or.inl ⟨p, by simp [hp], g⟩
      · exact Or.inr g
    by_cases c2 : i + factorLength f ≤ j + m
    · exact Or.inl ⟨i + factorLength f - 1, by simp, by omega, by omega⟩
    · right
      rcases h1 with ⟨e, -⟩ | ⟨e1, e2, e3, e4⟩
      · simp [factorLength, e] at c1 c2; omega
      · have hfl : factorLength f = f.len := by rw [factorLength, if_neg (by omega)]
        rw [hfl] at c1 c2
        have hil : i < t.length := by omega
        obtain ⟨ri, hri, eri⟩ := hs.rank hil
        have hr0 : 0 < ri := by
          rcases Nat.eq_zero_or_pos ri with h | h
          · exfalso
            subst h
            have h1 := hphi.first hri
            rw [eri, e3, Option.some.injEq] at h1
            have h2 := first_last_lcp_le_one hs hri
            rw [← h1, eri, ← e4] at h2
            omega
          · exact h
        have st := hphi.step ri hr0 hri
        rw [eri, e3, Option.some.injEq] at st
        have hlt : t.drop f.pos < t.drop i := by
          rw [st, ← eri]; exact (hs.lt_iff _ _).2 (by omega)
        have hlt2 := drop_lt_drop_of_lcp (k := j - i) hlt (by omega)
        rw [show i + (j - i) = j by omega] at hlt2
        refine ⟨f.pos + (j - i), hlt2, ?_, by omega, ?_⟩
        · have := e2.1; omega
        · intro k hk
          have := e2.2.2 (j - i + k) (by omega)
          rw [show f.pos + (j - i) + k = f.pos + (j - i + k) by omega, this]
          congr 1; omega

theorem lexparse_ends_attractor {t : List UInt8} {sa phi : List Nat} (hs : IsSuffixArray t sa)
    (hphi : IsPhi sa phi) {fs : List LZFactor} (h : LexParse t phi 0 fs) :
    IsAttractor t (phraseEnds 0 (fs.map factorLength)) := by
  have key : ∀ r (hr : r < sa.length) m, 0 < m → sa[r] + m ≤ t.length →
      ∃ j', Occ t j' sa[r] m ∧ ∃ p ∈ phraseEnds 0 (fs.map factorLength), j' ≤ p ∧ p < j' + m := by
    intro r
    induction r using Nat.strong_induction_on with
    | _ r ih =>
      intro hr m hm hjm
      rcases lex_step hs hphi fs 0 h sa[r] m (by omega) hm hjm with g | ⟨j', g1, g2⟩
      · exact ⟨_, ⟨hjm, hjm, fun _ _ => rfl⟩, g⟩
      · obtain ⟨r', hr', rfl⟩ := hs.rank (show j' < t.length by have := g2.1; omega)
        obtain ⟨j2, f1, f2⟩ := ih r' ((hs.lt_iff hr' hr).1 g1) hr' m hm g2.1
        exact ⟨j2, ⟨f1.1, hjm, fun k hk => (f1.2.2 k hk).trans (g2.2.2 k hk)⟩, f2⟩
  rintro v hv ⟨x, y, rfl⟩
  have hvl := List.length_pos_iff.2 hv
  obtain ⟨r, hr, er⟩ := hs.rank (show x.length < (x ++ v ++ y).length by simp; omega)
  obtain ⟨j', g1, g2⟩ := key r hr v.length hvl (by rw [er]; simp)
  rw [er] at g1
  refine ⟨j', ?_, g2⟩
  have := (occursAt_take (t := x ++ v ++ y) (i := x.length) (l := v.length) (by simp)).2 g1
  simpa using this

/-- C87: for every non-empty zero-free text, `is_attractor` accepts the text (with sentinel) together with the last
positions of the factors that `count_lexparse` finds; so a smallest attractor has at most as many positions as the
lex-parse has factors. -/
theorem C87_lexparse_ends_accepted (sufsort : List UInt8 → List Nat) (hs : SortsSuffixes sufsort)
    (text : List UInt8) (h0 : text ≠ []) (hz : ∀ x ∈ text, x ≠ 0) (hlen : text.length < 2147483647) :
    ∃ fs, countLexparseFactors sufsort text = .ok fs ∧
      (phraseEnds 0 (fs.map factorLength)).length = fs.length ∧
      IsAttractor text (phraseEnds 0 (fs.map factorLength)) ∧
      isAttractor sufsort (text ++ [0]) (phraseEnds 0 (fs.map factorLength)) = .ok true := by
  obtain ⟨fs, phi, h1, h2, h3⟩ := countLexparse_ok hs h0 (by omega)
  have hA := lexparse_ends_attractor (hs text (by omega)) h2 h3
  refine ⟨fs, h1, by rw [phraseEnds_length, List.length_map], hA, ?_⟩
  refine (C25_attractor_exact sufsort hs text h0 hz hlen _ ?_).1.2 hA
  have bound : ∀ (ls : List Nat) (i n : Nat), 0 < n → i + ls.sum = n → ∀ p ∈ phraseEnds i ls, p < n := by
    intro ls
    induction ls with
    | nil => intro i n _ _ p hp; simp [phraseEnds] at hp
    | cons l ls ih =>
      intro i n hn he p hp
      rw [List.sum_cons] at he
      rw [phraseEnds, List.mem_cons] at hp
      rcases hp with rfl | hp
      · omega
      · exact ih (i + l) n hn (by omega) p hp
  intro p hp'
  have := bound _ 0 text.length (List.length_pos_iff.2 h0) h3.sum p hp'
  omega

example := C87_lexparse_ends_accepted naiveSufsort naiveSufsort_sorts [97, 98, 97, 97, 98] (by decide) (by decide) (by decide)

/-- Concrete case: `abab` has the lex-parse `ab|a|b` with the ends 1, 2, 3. -/
example : countLexparseFactors naiveSufsort [97, 98, 97, 98] = .ok [⟨2, 2⟩, ⟨97, 0⟩, ⟨98, 0⟩] ∧
    phraseEnds 0 (([⟨2, 2⟩, ⟨97, 0⟩, ⟨98, 0⟩] : List LZFactor).map factorLength) = [1, 2, 3] ∧
    isAttractor naiveSufsort ([97, 98, 97, 98] ++ [0]) [1, 2, 3] = .ok true := by decide

end Verif.Props
