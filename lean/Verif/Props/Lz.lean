import Verif.Lemmas.Lexparse
import Verif.Props.Bwt

/-! # Properties C19-C22: Lempel-Ziv and lex parses

The specification vocabulary (`Occ`, `GreedyLz`, `IsParse`, `Satisfies`) is in `Verif/Spec/Lz.lean`. -/

namespace Verif.Props

open Verif Spec Model

/-- C19: on every non-empty text the chain of arrays of the `count_z` tool and the parse run without
panic, and `decode_lz77` turns the factors back into the text. -/
theorem C19_lz77_decodes (sufsort : List UInt8 → List Nat) (hs : SortsSuffixes sufsort)
    (text : List UInt8) (h0 : text ≠ []) (hlen : text.length < 2147483648) :
    ∃ fs, countZFactors sufsort text = .ok fs ∧ decodeLz77 fs = .ok text := by
  obtain ⟨fs, h1, -, h3⟩ := countZ_ok hs h0 hlen
  exact ⟨fs, h1, h3⟩

example := C19_lz77_decodes naiveSufsort naiveSufsort_sorts [97, 98, 97, 97, 98, 97, 98] (by decide) (by decide)

/-- C20: the factors are the greedy parse: literal exactly for a new letter, otherwise the longest
previous factor (overlap allowed). -/
theorem C20_lz77_greedy (sufsort : List UInt8 → List Nat) (hs : SortsSuffixes sufsort)
    (text : List UInt8) (h0 : text ≠ []) (hlen : text.length < 2147483648) :
    ∃ fs, countZFactors sufsort text = .ok fs ∧ GreedyLz text 0 fs := by
  obtain ⟨fs, h1, h2, -⟩ := countZ_ok hs h0 hlen
  exact ⟨fs, h1, h2⟩

example := C20_lz77_greedy naiveSufsort naiveSufsort_sorts [97, 98, 97, 97, 98, 97, 98] (by decide) (by decide)

/-- C21: the number of factors is the minimum over all parses into single letters and copies from
earlier starts. -/
theorem C21_lz77_minimal (sufsort : List UInt8 → List Nat) (hs : SortsSuffixes sufsort)
    (text : List UInt8) (h0 : text ≠ []) (hlen : text.length < 2147483648) :
    ∃ fs, countZFactors sufsort text = .ok fs ∧
      (∃ ls, IsParse text 0 ls ∧ ls.length = fs.length) ∧
      ∀ ls, IsParse text 0 ls → fs.length ≤ ls.length := by
  obtain ⟨fs, h1, h2, -⟩ := countZ_ok hs h0 hlen
  exact ⟨fs, h1, ⟨_, greedy_isParse fs 0 h2, by simp⟩,
    fun ls hl => greedy_minimal ls fs 0 0 (Nat.le_refl _) hl h2⟩

example := C21_lz77_minimal naiveSufsort naiveSufsort_sorts [97, 98, 97, 97, 98, 97, 98] (by decide) (by decide)

/-- Concrete case: `abababb`. -/
example : countZFactors naiveSufsort [97, 98, 97, 98, 97, 98, 98] =
    .ok [⟨97, 0⟩, ⟨98, 0⟩, ⟨2, 4⟩, ⟨5, 1⟩] := by decide

example : IsParse [97, 98, 97, 98, 97, 98, 98] 0 [1, 1, 4, 1] :=
  ⟨by decide, .inl rfl, by decide, .inl rfl, by decide,
    .inr ⟨0, by decide, by decide, by decide, by decide⟩, by decide, .inl rfl, rfl⟩

/-- C22 (partial): on every non-empty text the lex parse does not panic, the factor lengths sum to `n`,
the text satisfies the equations the factors state, and if the text contains two different letters it is
the only text that does.  Missing: uniqueness for texts with a single letter, refuted below. -/
theorem C22_lexparse_partial (sufsort : List UInt8 → List Nat) (hs : SortsSuffixes sufsort)
    (text : List UInt8) (h0 : text ≠ []) (hlen : text.length < 2147483648) :
    ∃ fs, countLexparseFactors sufsort text = .ok fs ∧
      (fs.map factorLength).sum = text.length ∧ Satisfies text 0 fs ∧
      ((∃ x ∈ text, ∃ y ∈ text, x ≠ y) → ∀ s, Satisfies s 0 fs → s = text) := by
  obtain ⟨fs, phi, h1, h2, h3⟩ := countLexparse_ok hs h0 hlen
  refine ⟨fs, h1, by simpa using h3.sum, h3.satisfies, ?_⟩
  rintro ⟨x, hx, y, hy, hxy⟩ s hsat
  refine lexparse_unique (hs text hlen) h2 ?_ h3 hsat
  rintro ⟨c, hc⟩
  exact hxy ((hc x hx).trans (hc y hy).symm)

example := C22_lexparse_partial naiveSufsort naiveSufsort_sorts [97, 98, 97, 97, 98, 97, 98] (by decide) (by decide)

/-- Two texts with at least two letters each get different lex parses. -/
theorem C22_lexparse_injective (sufsort : List UInt8 → List Nat) (hs : SortsSuffixes sufsort)
    (s t : List UInt8) (hs1 : s ≠ []) (hs2 : s.length < 2147483648)
    (ht : ∃ x ∈ t, ∃ y ∈ t, x ≠ y) (ht2 : t.length < 2147483648)
    (h : countLexparseFactors sufsort s = countLexparseFactors sufsort t) : s = t := by
  have ht1 : t ≠ [] := by rintro rfl; obtain ⟨x, hx, -⟩ := ht; cases hx
  obtain ⟨fs, h1, -, h3, -⟩ := C22_lexparse_partial sufsort hs s hs1 hs2
  obtain ⟨gs, g1, -, -, g4⟩ := C22_lexparse_partial sufsort hs t ht1 ht2
  rw [h1, g1] at h
  injection h with h
  subst h
  exact g4 ht s h3

example (s : List UInt8) (h1 : s ≠ []) (h2 : s.length < 2147483648)
    (h : countLexparseFactors naiveSufsort s = countLexparseFactors naiveSufsort [97, 98, 97]) : s = [97, 98, 97] :=
  C22_lexparse_injective naiveSufsort naiveSufsort_sorts s [97, 98, 97] h1 h2 (by decide) (by decide) h

/-- C22, the missing case is a real defect: the one-letter texts `a` and `b` have the same lex parse
(`phi` is cyclic, so the lexicographically first suffix copies from the last one), and so do `aa` and
`bb`. -/
theorem C22_lexparse_unary_refuted :
    countLexparseFactors naiveSufsort [97] = countLexparseFactors naiveSufsort [98] ∧
    countLexparseFactors naiveSufsort [97] = .ok [⟨0, 1⟩] ∧
    countLexparseFactors naiveSufsort [97, 97] = countLexparseFactors naiveSufsort [98, 98] ∧
    countLexparseFactors naiveSufsort [97, 97] = .ok [⟨1, 1⟩, ⟨0, 1⟩] := by decide

/-- Concrete case: `abab`. -/
example : countLexparseFactors naiveSufsort [97, 98, 97, 98] =
    .ok [⟨2, 2⟩, ⟨97, 0⟩, ⟨98, 0⟩] := by decide

end Verif.Props
