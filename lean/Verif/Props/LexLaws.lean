import Verif.Lemmas.LexLaws
import Verif.Props.LexWords
import Verif.Props.Streams

/-! # C127: laws of the number of phrases `count_lexparse` reports

`LexCount sufsort t v` says that the chain of `count_lexparse` finds `v` phrases in the text `t`.  `LexSplit` (all ways of splitting
a text into letters and copies from smaller suffixes) is in `Verif/Spec/LexLaws.lean`, `IsRuns` in `Verif/Spec/Streams.lean`. -/

namespace Verif.Props

open Verif Spec Model

/-- `count_lexparse` finds `v` phrases in `t`. -/
def LexCount (sufsort : List UInt8 → List Nat) (t : List UInt8) (v : Nat) : Prop :=
  ∃ fs, countLexparseFactors sufsort t = .ok fs ∧ fs.length = v

theorem lexCount_iff {sufsort : List UInt8 → List Nat} (hs : SortsSuffixes sufsort) {t : List UInt8} {v : Nat} (h0 : t ≠ [])
    (hlen : t.length < 2147483648) : LexCount sufsort t v ↔ LexFactors t v := by
  obtain ⟨m, h1, h2⟩ := C126_unique t
  obtain ⟨fs, g1, g2⟩ := lexFactors_count hs hlen h0 h1
  constructor
  · rintro ⟨gs, f1, f2⟩
    rw [g1] at f1
    injection f1 with f1
    subst f1
    rw [← f2, g2]
    exact h1
  · intro h
    rw [h2 v h]
    exact ⟨fs, g1, g2⟩

/-- C127: every non-empty text of less than `2^31` bytes has a number of phrases, and only one. -/
theorem C127_defined (sufsort : List UInt8 → List Nat) (hs : SortsSuffixes sufsort) (t : List UInt8) (h0 : t ≠ [])
    (hlen : t.length < 2147483648) : ∃! v, LexCount sufsort t v := by
  obtain ⟨m, h1, h2⟩ := C126_unique t
  exact ⟨m, (lexCount_iff hs h0 hlen).2 h1, fun v h => h2 v ((lexCount_iff hs h0 hlen).1 h)⟩

example := C127_defined naiveSufsort naiveSufsort_sorts [97, 98, 97, 97] (by decide) (by decide)

/-- C127: no way of splitting the text into letters and copies of beginnings of smaller suffixes has fewer phrases. -/
theorem C127_minimal (sufsort : List UInt8 → List Nat) (hs : SortsSuffixes sufsort) (t : List UInt8) (h0 : t ≠ [])
    (hlen : t.length < 2147483648) (v : Nat) (hv : LexCount sufsort t v) : LexSplit t t v ∧ ∀ v', LexSplit t t v' → v ≤ v' :=
  lex_optimal ((lexCount_iff hs h0 hlen).1 hv)

theorem lexCount_abaab : LexCount naiveSufsort [97, 98, 97, 97, 98] 4 := by
  unfold LexCount
  exact ⟨_, rfl, by decide⟩

example := C127_minimal naiveSufsort naiveSufsort_sorts [97, 98, 97, 97, 98] (by decide) (by decide) 4 lexCount_abaab

/-- C127: at least as many phrases as different letters, at most as many as letters, and at most two for every run of equal letters. -/
theorem C127_bounds (sufsort : List UInt8 → List Nat) (hs : SortsSuffixes sufsort) (t : List UInt8) (h0 : t ≠ [])
    (hlen : t.length < 2147483648) (v : Nat) (hv : LexCount sufsort t v) (rs : List (UInt8 × Nat)) (hrs : IsRuns rs t) :
    t.toFinset.card ≤ v ∧ v ≤ t.length ∧ v ≤ 2 * rs.length := by
  have h := (lexCount_iff hs h0 hlen).1 hv
  exact ⟨(lex_bounds h).1, (lex_bounds h).2, lex_runs h hrs.1 hrs.2.1 hrs.2.2⟩

example := C127_bounds naiveSufsort naiveSufsort_sorts [97, 98, 97, 97, 98] (by decide) (by decide) 4 lexCount_abaab
  [(97, 1), (98, 1), (97, 2), (98, 1)] (by unfold IsRuns; decide)

/-- C127: text in front costs at most one phrase for each of its letters; taking the first letter away at most doubles the number. -/
theorem C127_front (sufsort : List UInt8 → List Nat) (hs : SortsSuffixes sufsort) (t : List UInt8) (h0 : t ≠ []) (v : Nat)
    (hv : LexCount sufsort t v) :
    (∀ u v', (u ++ t).length < 2147483648 → LexCount sufsort (u ++ t) v' → v' ≤ u.length + v) ∧
    ∀ c v', (c :: t).length < 2147483648 → LexCount sufsort (c :: t) v' → v ≤ 2 * v' := by
  constructor
  · intro u v' hlen h'
    rw [lexCount_iff hs h0 (by simp at hlen; omega)] at hv
    rw [lexCount_iff hs (by simp [h0]) hlen] at h'
    exact lex_prepend hv h'
  · intro c v' hlen h'
    rw [lexCount_iff hs h0 (by simp at hlen; omega)] at hv
    rw [lexCount_iff hs (by simp) hlen] at h'
    exact lex_unprepend hv h'

example := (C127_front naiveSufsort naiveSufsort_sorts [98, 97, 97, 98] (by decide) 4 ⟨_, rfl, by decide⟩).2 97 4 (by decide) lexCount_abaab

/-- C127: renaming the letters without changing their order does not change the number. -/
theorem C127_rename (sufsort : List UInt8 → List Nat) (hs : SortsSuffixes sufsort) (t : List UInt8) (h0 : t ≠ [])
    (hlen : t.length < 2147483648) (f : UInt8 → UInt8) (hf : ∀ x ∈ t, ∀ y ∈ t, x < y → f x < f y) (v : Nat) :
    LexCount sufsort (t.map f) v ↔ LexCount sufsort t v := by
  rw [lexCount_iff hs h0 hlen, lexCount_iff hs (by simpa using h0) (by simpa using hlen)]
  obtain ⟨a, ha, -⟩ := C126_unique t
  obtain ⟨b, hb, -⟩ := C126_unique (t.map f)
  have := lex_rename hf ha hb
  subst this
  constructor
  · intro h
    rw [← lex_rename hf ha h]
    exact ha
  · intro h
    rw [lex_rename hf h hb]
    exact hb

example := C127_rename naiveSufsort naiveSufsort_sorts [97, 98, 97, 97, 98] (by decide) (by decide) (fun c => 2 * (c - 90)) (by decide) 4

/-- C127, and the order matters: exchanging the two letters of `abbaba` changes the number. -/
theorem C127_rename_order : LexCount naiveSufsort [97, 98, 98, 97, 98, 97] 4 ∧ LexCount naiveSufsort [98, 97, 97, 98, 97, 98] 5 :=
  ⟨⟨_, rfl, by decide⟩, ⟨_, rfl, by decide⟩⟩

/-- C127: from the second repetition on, repeating a text changes nothing; the first repetition costs at most one phrase, and
cannot do away with more than half of them. -/
theorem C127_power (sufsort : List UInt8 → List Nat) (hs : SortsSuffixes sufsort) (w : List UInt8) (hw : w ≠ []) (k : Nat) (hk : 2 ≤ k)
    (hlen : k * w.length < 2147483648) (a b c : Nat) (ha : LexCount sufsort w a) (hb : LexCount sufsort (w ++ w) b)
    (hc : LexCount sufsort (List.replicate k w).flatten c) : c = b ∧ b ≤ a + 1 ∧ a + 2 ≤ 2 * b := by
  have hw' := List.length_pos_iff.2 hw
  have h2 := Nat.mul_le_mul_right w.length hk
  have e : ∀ k, (List.replicate k w).flatten = power w k := fun k => by
    induction k with
    | zero => rfl
    | succ k ih => rw [List.replicate_succ, List.flatten_cons, ih]; rfl
  have hne : (List.replicate k w).flatten ≠ [] := by
    rw [← List.length_pos_iff]; simp; omega
  rw [lexCount_iff hs hw (by omega)] at ha
  rw [lexCount_iff hs (by simp [hw]) (by simp; omega)] at hb
  rw [lexCount_iff hs hne (by simp; omega), e] at hc
  exact lex_power hw hk ha hb hc

example := C127_power naiveSufsort naiveSufsort_sorts [97, 98] (by decide) 3 (by decide) (by decide) 2 3 3
  ⟨_, rfl, by decide⟩ ⟨_, rfl, by decide⟩ ⟨_, rfl, by decide⟩

/-- C127, and a repetition can save phrases: `aaaabaaba` has six, its square five. -/
theorem C127_power_saves : LexCount naiveSufsort [97, 97, 97, 97, 98, 97, 97, 98, 97] 6 ∧
    LexCount naiveSufsort ([97, 97, 97, 97, 98, 97, 97, 98, 97] ++ [97, 97, 97, 97, 98, 97, 97, 98, 97]) 5 :=
  ⟨⟨_, rfl, by decide⟩, ⟨_, rfl, by decide +kernel⟩⟩

/-- C127, refuted: the number is not monotone.  However large `d` is (up to what fits the sorter), some text has `d` phrases more than a text it is a
beginning of: the Fibonacci words of order `2d + 3` and `2d + 4`. -/
theorem C127_monotone_refuted (sufsort : List UInt8 → List Nat) (hs : SortsSuffixes sufsort) (d : Nat)
    (hlen : (fibWord (2 * d + 4)).length < 2147483648) :
    fibWord (2 * d + 3) <+: fibWord (2 * d + 4) ∧ LexCount sufsort (fibWord (2 * d + 3)) (d + 4) ∧
      LexCount sufsort (fibWord (2 * d + 4)) 4 := by
  have hp : fibWord (2 * d + 3) <+: fibWord (2 * d + 4) := ⟨fibWord (2 * d + 2), rfl⟩
  have hne : ∀ k, fibWord k ≠ [] := fun k => by
    induction k using fibWord.induct with
    | case1 => simp [fibWord]
    | case2 => simp [fibWord]
    | case3 k ih _ => simp [fibWord, ih]
  refine ⟨hp, ?_, ?_⟩
  · rw [lexCount_iff hs (hne _) (lt_of_le_of_lt hp.length_le hlen)]
    exact C126_fibonacci_odd (d + 1) (by omega)
  · rw [lexCount_iff hs (hne _) hlen]
    exact C126_fibonacci_even (d + 2) (by omega)

example := C127_monotone_refuted naiveSufsort naiveSufsort_sorts 4 (by decide +kernel)

end Verif.Props
