import Verif.Lemmas.Lz

/-! # Lex-parse -/

namespace Verif

open Spec Model

/-- Arrays of the lex-parse tool. -/
structure LexArrays (t : List UInt8) (sa plcp phi : List Nat) : Prop where
  hs : IsSuffixArray t sa
  hphi : IsPhi sa phi
  hplcp : ∀ b, b < t.length → ∃ a, phi[b]? = some a ∧ a < t.length ∧
    plcp[b]? = some (lcpLen (t.drop a) (t.drop b))

theorem lexparseStep_ok {t : List UInt8} {sa plcp phi : List Nat} (A : LexArrays t sa plcp phi)
    {i : Nat} (hi : i < t.length) (fs : List LZFactor) :
    ∃ f, lexparseStep t plcp phi (i, fs) = .ok (i + factorLength f, fs ++ [f]) ∧
      ((f.len = 0 ∧ ∃ c, t[i]? = some c ∧ f.pos = c.toNat) ∨
        (0 < f.len ∧ Occ t f.pos i f.len ∧ phi[i]? = some f.pos ∧
          f.len = lcpLen (t.drop f.pos) (t.drop i))) ∧
      ∃ a, phi[i]? = some a ∧ f.len = lcpLen (t.drop a) (t.drop i) := by
  obtain ⟨a, h1, h2, h3⟩ := A.hplcp i hi
  simp only [lexparseStep]
  rw [rd_some h3, ok_bind]
  by_cases h0 : lcpLen (t.drop a) (t.drop i) = 0
  · rw [if_pos h0, rd_ok hi, ok_bind]
    exact ⟨⟨t[i].toNat, 0⟩, rfl, Or.inl ⟨rfl, t[i], List.getElem?_eq_getElem hi, rfl⟩, a, h1, h0.symm⟩
  · rw [if_neg h0, rd_some h1, ok_bind]
    refine ⟨⟨a, lcpLen (t.drop a) (t.drop i)⟩, ?_, Or.inr ⟨by dsimp only; omega, ?_, h1, rfl⟩, a, h1, rfl⟩
    · simp [factorLength, h0, pure_ok]
    · rw [occ_iff_lcp (by omega) (by dsimp only; omega)]

/-- What `compute_lexparse` produces. -/
def LexParse (t : List UInt8) (phi : List Nat) : Nat → List LZFactor → Prop
  | i, [] => i = t.length
  | i, f :: fs =>
    ((f.len = 0 ∧ ∃ c, t[i]? = some c ∧ f.pos = c.toNat) ∨
      (0 < f.len ∧ Occ t f.pos i f.len ∧ phi[i]? = some f.pos ∧
        f.len = lcpLen (t.drop f.pos) (t.drop i))) ∧
    (∃ a, phi[i]? = some a ∧ f.len = lcpLen (t.drop a) (t.drop i)) ∧ LexParse t phi (i + factorLength f) fs

theorem computeLexparse_ok {t : List UInt8} {sa plcp phi : List Nat} (A : LexArrays t sa plcp phi) :
    ∃ fs, computeLexparse t plcp phi = .ok fs ∧ LexParse t phi 0 fs := by
  obtain ⟨⟨k, fs⟩, h1, ⟨h2, h3⟩, h4⟩ := whileLoop_inv
    (fun s : Nat × List LZFactor => s.1 ≤ t.length ∧
      ∀ gs, LexParse t phi s.1 gs → LexParse t phi 0 (s.2 ++ gs)) (fun s => t.length - s.1)
    (fuel := t.length + 1)
    (cond := fun (s : Nat × List LZFactor) => pure (decide (s.1 < t.length)))
    (body := lexparseStep t plcp phi) (s := (0, []))
    ⟨by omega, fun gs h => by simpa using h⟩ (by dsimp only; omega) (by
      rintro ⟨i, fs⟩ ⟨hi, hg⟩
      dsimp only at hi hg
      by_cases hlt : i < t.length
      · right
        obtain ⟨f, e, hcase, hlen⟩ := lexparseStep_ok A hlt fs
        refine ⟨by simp [hlt, pure_ok], _, e, ?_⟩
        have hb : 0 < factorLength f ∧ i + factorLength f ≤ t.length := by
          rcases hcase with ⟨a1, -⟩ | ⟨a1, a2, -⟩
          · simp [factorLength, a1]; omega
          · have := a2.2.1
            rw [factorLength, if_neg (by omega)]; omega
        refine ⟨⟨hb.2, ?_⟩, by dsimp only; omega⟩
        intro gs hgs
        rw [List.append_assoc]
        exact hg _ ⟨hcase, hlen, hgs⟩
      · left; simp [hlt, pure_ok])
  simp only [pure_ok, Except.ok.injEq, decide_eq_false_iff_not] at h4
  refine ⟨fs, by simp only [computeLexparse]; rw [h1, ok_bind]; rfl, ?_⟩
  have := h3 [] (by simp only [LexParse]; dsimp only at h2; omega)
  simpa using this

theorem countLexparse_ok {sufsort : List UInt8 → List Nat} (hsort : SortsSuffixes sufsort)
    {t : List UInt8} (ht : t ≠ []) (hn : t.length < 2147483648) :
    ∃ fs phi, countLexparseFactors sufsort t = .ok fs ∧ IsPhi (sufsort t) phi ∧ LexParse t phi 0 fs := by
  have h0 : 0 < t.length := List.length_pos_iff.2 ht
  obtain ⟨phi, plcp, lcp, g1, g2, g3, g4, g5, -⟩ := lcpChain (hsort t hn) h0 (by omega)
  obtain ⟨fs, h1, h2⟩ := computeLexparse_ok (t := t) (plcp := plcp) (phi := phi) ⟨hsort t hn, g2, g5⟩
  refine ⟨fs, phi, ?_, g2, h2⟩
  simp only [countLexparseFactors]
  rw [g1, ok_bind, g3, ok_bind, h1]

theorem LexParse.satisfies {t : List UInt8} {phi : List Nat} : ∀ (fs : List LZFactor) (i : Nat),
    LexParse t phi i fs → Satisfies t i fs
  | [], _, h => h
  | f :: fs, i, ⟨h1, _, h2⟩ => ⟨by
      rcases h1 with h | ⟨h, h', -⟩
      · exact Or.inl h
      · exact Or.inr ⟨h, h'⟩, LexParse.satisfies fs _ h2⟩

theorem LexParse.sum {t : List UInt8} {phi : List Nat} : ∀ (fs : List LZFactor) (i : Nat),
    LexParse t phi i fs → i + (fs.map factorLength).sum = t.length
  | [], _, h => by simpa [LexParse] using h
  | f :: fs, i, ⟨_, _, h2⟩ => by
      have := LexParse.sum fs _ h2
      rw [List.map_cons, List.sum_cons]; omega

/-- Any text satisfying the equations agrees with `t` at a position whose suffix is lexicographically
small, by induction on the rank. -/
theorem LexParse.position {t s : List UInt8} {phi : List Nat} {P : Nat → Prop} :
    ∀ (fs : List LZFactor) (i : Nat), LexParse t phi i fs → Satisfies s i fs →
    ∀ p, i ≤ p → p < t.length →
      (∀ j a k, j ≤ p → p = j + k → phi[j]? = some a → k < lcpLen (t.drop a) (t.drop j) →
        s[p]? = s[a + k]? → t[p]? = t[a + k]? → P p) →
      (s[p]? = t[p]? → P p) → P p
  | [], i, h, _, p, hp1, hp2, _, _ => by simp only [LexParse] at h; omega
  | f :: fs, i, ⟨h1, _, h2⟩, ⟨g1, g2⟩, p, hp1, hp2, hcopy, hlit => by
      by_cases hlt : p < i + factorLength f
      · rcases h1 with ⟨e1, c, e2, e3⟩ | ⟨e1, e2, e3, e4⟩
        · have hpi : p = i := by simp [factorLength, e1] at hlt; omega
          subst hpi
          rcases g1 with ⟨-, c', e5, e6⟩ | ⟨e5, -⟩
          · apply hlit
            rw [e2, e5]
            congr 1
            exact UInt8.toNat_inj.1 (e6.symm.trans e3)
          · omega
        · rcases g1 with ⟨e5, -⟩ | ⟨-, e6⟩
          · omega
          · have hfl : factorLength f = f.len := by rw [factorLength, if_neg (by omega)]
            refine hcopy i f.pos (p - i) hp1 (by omega) e3 (by omega) ?_ ?_
            · have := e6.2.2 (p - i) (by omega)
              rw [this]; congr 1; omega
            · have := e2.2.2 (p - i) (by omega)
              rw [this]; congr 1; omega
      · exact LexParse.position fs (i + factorLength f) h2 g2 p (by omega) hp2 hcopy hlit

theorem Satisfies.length {s : List UInt8} : ∀ (fs : List LZFactor) (i : Nat),
    Satisfies s i fs → i + (fs.map factorLength).sum = s.length
  | [], _, h => by simpa [Satisfies] using h
  | f :: fs, i, ⟨_, h2⟩ => by
      have := Satisfies.length fs _ h2
      rw [List.map_cons, List.sum_cons]; omega

/-- Shifting two suffixes with a long common prefix keeps their order. -/
theorem drop_lt_drop_of_lcp {t : List UInt8} {a b k : Nat} (h : t.drop a < t.drop b)
    (hk : k ≤ lcpLen (t.drop a) (t.drop b)) : t.drop (a + k) < t.drop (b + k) := by
  obtain ⟨h1, h2, h3⟩ := le_lcpLen.1 hk
  rw [← List.take_append_drop k (t.drop a), ← List.take_append_drop k (t.drop b), h3,
    append_lt_left, List.drop_drop, List.drop_drop] at h
  exact h

theorem lexparse_unique {t s : List UInt8} {sa phi : List Nat} (hs : IsSuffixArray t sa)
    (hphi : IsPhi sa phi) (hun : ¬ ∃ c, ∀ x ∈ t, x = c) {fs : List LZFactor}
    (hf : LexParse t phi 0 fs) (hsat : Satisfies s 0 fs) : s = t := by
  have hlen : s.length = t.length := by
    rw [← Satisfies.length fs 0 hsat, ← hf.sum]
  have key : ∀ r, ∀ hr : r < sa.length, s[sa[r]]? = t[sa[r]]? := by
    intro r
    induction r using Nat.strongRecOn with
    | _ r ih =>
      intro hr
      have hp := hs.lt hr
      refine LexParse.position (P := fun p => s[p]? = t[p]?) fs 0 hf hsat sa[r] (by omega) hp ?_
        (fun h => h)
      intro j a k hj e hphij hk e1 e2
      have hjlt : j < t.length := by omega
      obtain ⟨rj, hrj, rfl⟩ := hs.rank hjlt
      -- the start of the factor is not the first suffix
      have hrj0 : 0 < rj := by
        rcases Nat.eq_zero_or_pos rj with h0 | h0
        · exfalso
          subst h0
          have := hphi.first hrj
          rw [this] at hphij
          simp only [Option.some.injEq] at hphij
          have h1 := (first_last_lcp hs (by omega)).2 hun
          rw [hphij] at h1
          omega
        · exact h0
      have hst := hphi.step rj hrj0 hrj
      rw [hst] at hphij
      simp only [Option.some.injEq] at hphij
      subst hphij
      have hlt : t.drop (sa[rj - 1]) < t.drop sa[rj] := (hs.lt_iff _ _).2 (by omega)
      have hlt2 := drop_lt_drop_of_lcp hlt hk.le
      have hak : sa[rj - 1] + k < t.length := by
        have := lcpLen_le_left (t.drop sa[rj - 1]) (t.drop sa[rj])
        rw [List.length_drop] at this; omega
      obtain ⟨r', hr', er'⟩ := hs.rank hak
      rw [← e, ← er'] at hlt2
      have := (hs.lt_iff hr' hr).1 hlt2
      rw [e1, e2, ← er']
      exact ih r' this hr'
  apply List.ext_getElem?
  intro p
  by_cases hp : p < t.length
  · obtain ⟨r, hr, rfl⟩ := hs.rank hp
    exact key r hr
  · rw [List.getElem?_eq_none (by omega), List.getElem?_eq_none (by omega)]

end Verif
