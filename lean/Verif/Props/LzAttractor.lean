import Verif.Props.Lz
import Verif.Props.Attractor
import Verif.Lemmas.Mus

/-! # C65: the ends of the LZ77 factors form a string attractor

This connects `count_z` (`src/bin/count_z.rs`) with `is_attractor` (`src/bin/is_stringattractor.rs`). -/

namespace Verif.Props

open Verif Spec Model

private theorem parse_step {t : List UInt8} : ∀ (ls : List Nat) (i : Nat), (∀ l ∈ ls, 0 < l) → IsParse t i ls →
    ∀ j m, i ≤ j → 0 < m → j + m ≤ t.length →
      (∃ p ∈ phraseEnds i ls, j ≤ p ∧ p < j + m) ∨ ∃ j', j' < j ∧ Occ t j' j m := by
  intro ls
  induction ls with
  | nil =>
    intro i _ h j m h1 h2 h3
    have : i = t.length := h
    omega
  | cons l ls ih =>
    rintro i hpos ⟨h1, h2, h3⟩ j m hj hm hjm
    have hl := hpos l (by simp)
    by_cases c1 : i + l ≤ j
    · rcases ih (i + l) (fun x hx => hpos x (by simp [hx])) h3 j m c1 hm hjm with ⟨p, hp, g⟩ | g
      · exact Or.inl ⟨p, by rw [phraseEnds]; simp [hp], g⟩
      · exact Or.inr g
    by_cases c2 : i + l ≤ j + m
    · exact Or.inl ⟨i + l - 1, by rw [phraseEnds]; simp, by omega, by omega⟩
    · right
      rcases h2 with rfl | ⟨j0, g1, g2, g3, g4⟩
      · omega
      · refine ⟨j0 + (j - i), by omega, by omega, by omega, ?_⟩
        intro k hk
        have := g4 (j - i + k) (by omega)
        rw [show j0 + (j - i) + k = j0 + (j - i + k) by omega, this]
        congr 1; omega

/-- C65, for every parse into single letters and copies from earlier starts (not only the greedy one): the last
positions of the phrases form a string attractor. -/
theorem C65_parse_ends_attractor (t : List UInt8) (ls : List Nat) (hpos : ∀ l ∈ ls, 0 < l) (h : IsParse t 0 ls) :
    IsAttractor t (phraseEnds 0 ls) := by
  have key : ∀ j m, 0 < m → j + m ≤ t.length → ∃ j', Occ t j' j m ∧ ∃ p ∈ phraseEnds 0 ls, j' ≤ p ∧ p < j' + m := by
    intro j
    induction j using Nat.strong_induction_on with
    | _ j ih =>
      intro m hm hjm
      rcases parse_step ls 0 hpos h j m (by omega) hm hjm with g | ⟨j', g1, g2⟩
      · exact ⟨j, ⟨hjm, hjm, fun _ _ => rfl⟩, g⟩
      · obtain ⟨j2, f1, f2⟩ := ih j' g1 m hm g2.1
        exact ⟨j2, ⟨f1.1, hjm, fun k hk => (f1.2.2 k hk).trans (g2.2.2 k hk)⟩, f2⟩
  rintro v hv ⟨x, y, rfl⟩
  obtain ⟨j', g1, g2⟩ := key x.length v.length (List.length_pos_iff.2 hv) (by simp)
  refine ⟨j', ?_, g2⟩
  have := (occursAt_take (t := x ++ v ++ y) (i := x.length) (l := v.length) (by simp)).2 g1
  simpa using this

example := C65_parse_ends_attractor [97, 97, 97, 97] [1, 3] (by decide) 
  ⟨by decide, Or.inl rfl, by decide, Or.inr ⟨0, by decide, by decide, by decide, by decide⟩, rfl⟩

theorem phraseEnds_lt {t : List UInt8} : ∀ (ls : List Nat) (i : Nat), (∀ l ∈ ls, 0 < l) → IsParse t i ls →
    ∀ p ∈ phraseEnds i ls, p < t.length := by
  intro ls
  induction ls with
  | nil => intro i _ _ p hp; simp [phraseEnds] at hp
  | cons l ls ih =>
    rintro i hpos ⟨h1, -, h3⟩ p hp
    have hl := hpos l (by simp)
    rw [phraseEnds, List.mem_cons] at hp
    rcases hp with rfl | hp
    · omega
    · exact ih (i + l) (fun x hx => hpos x (by simp [hx])) h3 p hp

theorem phraseEnds_length : ∀ (ls : List Nat) (i : Nat), (phraseEnds i ls).length = ls.length := by
  intro ls
  induction ls with
  | nil => intro i; rfl
  | cons l ls ih => intro i; rw [phraseEnds]; simp [ih]

/-- C65, through the two tools: for every non-empty zero-free text, `is_attractor` accepts the text (with
sentinel) together with the last positions of the factors that `count_z` finds; there are as many of them as
factors, so a smallest attractor has at most `z` positions. -/
theorem C65_lz77_ends_accepted (sufsort : List UInt8 → List Nat) (hs : SortsSuffixes sufsort)
    (text : List UInt8) (h0 : text ≠ []) (hz : ∀ x ∈ text, x ≠ 0) (hlen : text.length < 2147483647) :
    ∃ fs, countZFactors sufsort text = .ok fs ∧
      (phraseEnds 0 (fs.map factorLength)).length = fs.length ∧
      IsAttractor text (phraseEnds 0 (fs.map factorLength)) ∧
      isAttractor sufsort (text ++ [0]) (phraseEnds 0 (fs.map factorLength)) = .ok true := by
  obtain ⟨fs, h1, h2⟩ := C20_lz77_greedy sufsort hs text h0 (by omega)
  have hp := greedy_isParse fs 0 h2
  have hpos : ∀ l ∈ fs.map factorLength, 0 < l := by
    intro l hl
    obtain ⟨f, -, rfl⟩ := List.mem_map.1 hl
    rw [factorLength]; split_ifs <;> omega
  have hA := C65_parse_ends_attractor text _ hpos hp
  refine ⟨fs, h1, by rw [phraseEnds_length, List.length_map], hA, ?_⟩
  refine (C25_attractor_exact sufsort hs text h0 hz hlen _ ?_).1.2 hA
  intro p hp'
  have := phraseEnds_lt _ 0 hpos hp p hp'
  omega

example := C65_lz77_ends_accepted naiveSufsort naiveSufsort_sorts [97, 98, 97, 97, 98, 97, 98] (by decide) (by decide) (by decide)

/-- Concrete case: `abababb` has the factors `a|b|abab|b` with the ends 0, 1, 5, 6. -/
example : phraseEnds 0 (([⟨97, 0⟩, ⟨98, 0⟩, ⟨2, 4⟩, ⟨5, 1⟩] : List LZFactor).map factorLength) = [0, 1, 5, 6] ∧
    isAttractor naiveSufsort ([97, 98, 97, 98, 97, 98, 98] ++ [0]) [0, 1, 5, 6] = .ok true := by decide

end Verif.Props
