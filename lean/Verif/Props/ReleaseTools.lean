import Verif.Lemmas.ReleaseTools2
import Verif.Props.Rounding
import Verif.Props.LyndonTool
import Verif.Props.AttractorReport

/-! # C124: the library functions and the analysis tools in the release build

`Build.checked` is the build with overflow checks and debug assertions, `Build.wrapping` the release build. -/

namespace Verif.Props

open Verif Spec Model

variable {α : Type}

/-- C124: with overflow checks and debug assertions, the functions of `Verif/Model/ReleaseTools.lean` are those of the other
claims. -/
theorem C124_checked [LinearOrder α] :
    (∀ t : List α, duvalB .checked t = duval t ∧ lyndonConjugateB .checked t = lyndonConjugate t ∧
      borderArrayB .checked t = borderArray t ∧ isPrimitiveB .checked t = isPrimitive t ∧
      bwtByMatrixNaiveB .checked t = bwtByMatrixNaive t ∧ bbwtNaiveB .checked t = bbwtNaive t ∧
      computePsvB .checked t = computePsv t ∧ computeNsvB .checked t = computeNsv t ∧
      computePlcpB .checked t = computePlcp t ∧ bwtFromSaB .checked t = bwtFromSa t) ∧
    smallestPeriodB .checked = smallestPeriod ∧ isaLyndonFactorizationB .checked = isaLyndonFactorization ∧
    computePhiB .checked = computePhi ∧ computeLcpB .checked = computeLcp ∧ decodeLz77B .checked = decodeLz77 ∧
    bwtFromTextBySaB .checked = bwtFromTextBySa ∧ bwtByMatrixB .checked = bwtByMatrix ∧
    countZFactorsB .checked = countZFactors ∧ countLexparseFactorsB .checked = countLexparseFactors ∧
    musToolB .checked = musTool ∧ bwtToolB .checked = bwtTool ∧ countRB .checked = countR ∧
    attractorReportB .checked = attractorReport ∧ lyndonfactorizationMainB .checked = lyndonfactorizationMain :=
  ⟨fun _ => ⟨rfl, rfl, rfl, rfl, rfl, rfl, rfl, rfl, rfl, rfl⟩, rfl, rfl, rfl, rfl, rfl, bwtFromTextBySaB_checked,
    bwtByMatrixB_checked, countZFactorsB_checked, rfl, rfl, bwtToolB_checked, countRB_checked, rfl,
    lyndonfactorizationMainB_checked⟩

theorem Sim_eq {x y : Res α} {E : Panic → Prop} (h : Res.Sim E x y) (hx : ∃ v, x = .ok v) : y = x := by
  obtain ⟨v, hv⟩ := hx
  rw [h.le v hv, hv]

theorem usubB_of_le (m : Build) {a b : Nat} (h : b ≤ a) : usubB m a b = usub a b := by
  unfold usubB usub
  rw [if_pos h, if_pos h]

theorem bwtFromSaB_eq (m : Build) (t : List α) (sa : List Nat) : bwtFromSaB m t sa = bwtFromSa t sa := by
  unfold bwtFromSaB bwtFromSa
  rcases Nat.eq_zero_or_pos t.length with h0 | h0
  · rw [rd_err (by omega)]
    rfl
  · dsimp only
    congr 1
    funext c
    refine forRange_congr fun i s _ _ => ?_
    congr 1
    funext x
    rw [usubB_of_le m (by omega)]

theorem bwtByMatrixNaiveB_eq [LinearOrder α] (t : List α) : bwtByMatrixNaiveB .wrapping t = bwtByMatrixNaive t :=
  Sim_eq (Res.Sim.bwtByMatrixNaiveB t) (C96_texts t).2.2.1

theorem lyndonConjugateB_eq [LinearOrder α] (t : List α) : lyndonConjugateB .wrapping t = lyndonConjugate t := by
  by_cases h : t = []
  · subst h; rfl
  · exact Sim_eq (Res.Sim.lyndonConjugateB t) ((C96_texts t).2.2.2.2.2.1.2 h)

/-- C124: for every text over every ordered alphabet, the library functions on texts do in the release build what they do
with overflow checks: they return the same value, or panic where the other build panics (`compute_nsv` of an empty array is
the only one whose message differs). -/
theorem C124_texts [LinearOrder α] (t : List α) :
    duvalB .wrapping t = duval t ∧ lyndonConjugateB .wrapping t = lyndonConjugate t ∧
    borderArrayB .wrapping t = borderArray t ∧ isPrimitiveB .wrapping t = isPrimitive t ∧
    bwtByMatrixNaiveB .wrapping t = bwtByMatrixNaive t ∧ bbwtNaiveB .wrapping t = bbwtNaive t ∧
    (∀ sa, bwtFromSaB .wrapping t sa = bwtFromSa t sa) ∧
    computePsvB .wrapping t = computePsv t ∧ (t ≠ [] → computeNsvB .wrapping t = computeNsv t) ∧
    computeNsv ([] : List α) = .error .arith ∧ computeNsvB .wrapping ([] : List α) = .error .index := by
  have h := C96_texts t
  refine ⟨Sim_eq (Res.Sim.duvalB t) h.1, lyndonConjugateB_eq t, Sim_eq (Res.Sim.borderArrayB t) h.2.2.2.1, ?_,
    bwtByMatrixNaiveB_eq t, ?_, fun sa => bwtFromSaB_eq _ t sa, ?_, ?_, rfl, rfl⟩
  · obtain ⟨r, hr, -⟩ := h.2.2.2.2.1
    exact Sim_eq (Res.Sim.isPrimitiveB t) ⟨r, hr⟩
  · by_cases h0 : t = []
    · subst h0; rfl
    · obtain ⟨r, hr⟩ := h.2.2.2.2.2.2.1.2 h0
      rw [Res.Le.bbwtNaiveB t r hr, hr]
  · unfold computePsvB computePsv
    dsimp only
    congr 1
    funext s
    refine forRange_congr fun i s hi _ => ?_
    rw [usubB_of_le _ hi]
  · intro h0
    have : 1 ≤ t.length := List.length_pos_iff.2 h0
    unfold computeNsvB computeNsv
    rw [usubB_of_le _ this]

example := C124_texts [2, 1, 2, 1, (0 : Nat)]
example : bbwtNaiveB .wrapping [2, 1, 2, 1, (0 : Nat)] = .ok [0, 1, 2, 1, 2] := by
  rw [(C124_texts _).2.2.2.2.2.1]; decide +kernel

/-- C124: the functions on arrays.  `compute_phi` and `isa_lyndon_factorization` do the same in both builds on every array.
Without debug assertions, `compute_plcp` and `compute_lcp` also accept an array that is longer than the first one and ignore the
rest of it, and `smallest_period` of an array whose last entry is too large wraps around instead of panicking. -/
theorem C124_arrays [DecidableEq α] (t : List α) (a b : List Nat) :
    computePhiB .wrapping a = computePhi a ∧ isaLyndonFactorizationB .wrapping a = isaLyndonFactorization a ∧
    (∀ r, computePlcpB .wrapping t a = .ok r ↔ t.length ≤ a.length ∧ computePlcp t (a.take t.length) = .ok r) ∧
    (∀ r, computeLcpB .wrapping a b = .ok r ↔ a.length ≤ b.length ∧ computeLcp a (b.take a.length) = .ok r) ∧
    (∀ p, smallestPeriodB .wrapping a = .ok p ↔ ∃ l, a[a.length - 1]? = some l ∧
      p = if l < a.length then a.length - 1 - l else a.length - 1 + 18446744073709551616 - l) := by
  have rdtake : ∀ (l : List Nat) n i, i < n → rd (l.take n) i = rd l i := by
    intro l n i hi
    unfold rd
    rw [List.getElem?_take_of_lt hi]
  refine ⟨?_, ?_, fun r => ?_, fun r => ?_, fun p => ?_⟩
  · unfold computePhiB computePhi
    dsimp only
    rcases Nat.eq_zero_or_pos a.length with h0 | h0
    · rw [List.eq_nil_of_length_eq_zero h0]; rfl
    · rw [usubB_of_le _ h0]
      congr 1
      funext _
      congr 1
      refine forRange_congr fun i s hi _ => ?_
      rw [usubB_of_le _ hi]
  · by_cases h0 : a = []
    · subst h0; rfl
    · exact Sim_eq (Res.Sim.isaLyndonFactorizationB a) ((C96_isa_factorization a).1.2 h0)
  · by_cases hl : t.length ≤ a.length
    · have : computePlcpB .wrapping t a = computePlcp t (a.take t.length) := by
        unfold computePlcpB computePlcp
        rw [show assertR (decide (t.length = (a.take t.length).length)) = .ok () by
          simp [assertR, hl]]
        rw [show dassertB .wrapping (decide (t.length = a.length)) = .ok () from rfl, ok_bind, ok_bind]
        congr 1
        refine forRange_congr fun i s _ hi => ?_
        rw [rdtake a t.length i hi]
      rw [this]
      exact ⟨fun h => ⟨hl, h⟩, fun h => h.2⟩
    · constructor
      · intro h
        exfalso
        unfold computePlcpB at h
        obtain ⟨_, -, h⟩ := bind_eq_ok h
        obtain ⟨s, h, -⟩ := bind_eq_ok h
        obtain ⟨-, hb⟩ := forRange_returned (fun _ _ => True) (Nat.zero_le _) h trivial (fun _ _ _ _ _ _ _ => trivial)
        obtain ⟨s, s', -, hb⟩ := hb a.length (by omega) (by omega)
        dsimp only at hb
        rw [rd_err (by omega)] at hb
        cases hb
      · exact fun h => absurd h.1 hl
  · by_cases hl : a.length ≤ b.length
    · have : computeLcpB .wrapping a b = computeLcp a (b.take a.length) := by
        unfold computeLcpB computeLcp
        rw [show assertR (decide (a.length = (b.take a.length).length)) = .ok () by
          simp [assertR, hl]]
        rw [show dassertB .wrapping (decide (a.length = b.length)) = .ok () from rfl, ok_bind, ok_bind]
        refine forRange_congr fun i s _ hi => ?_
        rw [rdtake b a.length i hi]
      rw [this]
      exact ⟨fun h => ⟨hl, h⟩, fun h => h.2⟩
    · constructor
      · intro h
        exfalso
        unfold computeLcpB at h
        obtain ⟨_, -, h⟩ := bind_eq_ok h
        obtain ⟨-, hb⟩ := forRange_returned (fun _ _ => True) (Nat.zero_le _) h trivial (fun _ _ _ _ _ _ _ => trivial)
        obtain ⟨s, s', -, hb⟩ := hb b.length (by omega) (by omega)
        rw [rd_err (by omega)] at hb
        cases hb
      · exact fun h => absurd h.1 hl
  · rcases Nat.eq_zero_or_pos a.length with h0 | h0
    · rw [List.eq_nil_of_length_eq_zero h0]
      constructor
      · intro h; cases h
      · rintro ⟨l, h, -⟩; cases h
    · have e : smallestPeriodB .wrapping a = usubB .wrapping (a.length - 1) (a[a.length - 1]'(by omega)) := by
        unfold smallestPeriodB
        rw [show usubB .wrapping a.length 1 = .ok (a.length - 1) by unfold usubB; rw [if_pos (by omega)], ok_bind,
          rd_ok (by omega), ok_bind]
      rw [e, List.getElem?_eq_getElem (by omega)]
      generalize a[a.length - 1]'(by omega) = l
      have hl : (l ≤ a.length - 1) ↔ l < a.length := by omega
      unfold usubB
      by_cases h : l < a.length
      · rw [if_pos (hl.2 h)]
        constructor
        · intro hp; injection hp with hp; exact ⟨l, rfl, by rw [if_pos h]; exact hp.symm⟩
        · rintro ⟨_, h1, h2⟩
          injection h1 with h1
          subst h1
          rw [if_pos h] at h2
          rw [h2]
      · rw [if_neg (by omega)]
        constructor
        · intro hp; injection hp with hp; exact ⟨l, rfl, by rw [if_neg h]; exact hp.symm⟩
        · rintro ⟨_, h1, h2⟩
          injection h1 with h1
          subst h1
          rw [if_neg h] at h2
          rw [h2]

example := C124_arrays [97, 98, (97 : Nat)] [1, 2, 0, 7] [2, 0, 1]
/-- The builds differ on arrays no caller in the repository passes. -/
example : smallestPeriod [0, 5] = .error .arith ∧ smallestPeriodB .wrapping [0, 5] = .ok 18446744073709551612 ∧
    computePlcp [97, 98, (97 : Nat)] [1, 2, 0, 7] = .error .assert ∧
    computePlcpB .wrapping [97, 98, (97 : Nat)] [1, 2, 0, 7] = .ok [0, 0, 1] := by decide

/-- C124: the two suffix-sorting transforms and the tools built on them. -/
theorem C124_bwt (sufsort : List UInt8 → List Nat) (t : List UInt8) :
    (t ≠ [] → bwtFromTextBySaB .wrapping sufsort t = bwtFromTextBySa sufsort t) ∧
    bwtFromTextBySa sufsort [] = .error .arith ∧ bwtFromTextBySaB .wrapping sufsort [] = .error .index ∧
    bwtByMatrixB .wrapping sufsort t = bwtByMatrix sufsort t ∧
    (∀ useMatrix noDollar, (useMatrix = true ∨ noDollar = false ∨ t ≠ []) →
      bwtToolB .wrapping sufsort useMatrix noDollar t = bwtTool sufsort useMatrix noDollar t ∧
      countRB .wrapping sufsort useMatrix noDollar t = countR sufsort useMatrix noDollar t) := by
  have key : ∀ t : List UInt8, t ≠ [] → bwtFromTextBySaB .wrapping sufsort t = bwtFromTextBySa sufsort t := by
    intro t h0
    have : 1 ≤ t.length := List.length_pos_iff.2 h0
    rw [← bwtFromTextBySaB_checked]
    unfold bwtFromTextBySaB
    rw [usubB_of_le _ this, usubB_of_le _ this]
    simp only [bwtFromSaB_eq]
  have key2 : ∀ t, bwtByMatrixB .wrapping sufsort t = bwtByMatrix sufsort t := by
    intro t
    unfold bwtByMatrixB bwtByMatrix
    rw [lyndonConjugateB_eq]
    dsimp only
    congr 1
    funext _
    congr 1
    funext s
    rw [key _ (by simp)]
  have key3 : ∀ useMatrix noDollar, (useMatrix = true ∨ noDollar = false ∨ t ≠ []) →
      bwtToolTransformB .wrapping sufsort useMatrix (bwtToolText noDollar t) =
        bwtToolTransform sufsort useMatrix (bwtToolText noDollar t) := by
    intro u d hud
    unfold bwtToolTransformB bwtToolTransform
    rw [key2, bwtByMatrixNaiveB_eq]
    cases u
    · simp only [Bool.false_eq_true, if_false]
      refine key _ ?_
      unfold bwtToolText
      cases d
      · simp
      · simpa using hud
    · rfl
  refine ⟨key t, rfl, rfl, key2 t, fun u d hud => ⟨key3 u d hud, ?_⟩⟩
  unfold countRB countR
  rw [key3 u d hud]

example := (C124_bwt naiveSufsort [98, 97, 98]).2.2.2.2 false false (by decide)

theorem lzCount_empty (sufsort : List UInt8 → List Nat) (hs : SortsSuffixes sufsort) : sufsort [] = [] :=
  List.eq_nil_of_length_eq_zero (by rw [(hs [] (by decide)).length]; rfl)

/-- C124: the analysis tools on every text that fits the 32-bit suffix sorter: `count_z`, `count_lexparse`, `mus`,
`lyndonfactorization` and (for zero-free texts before the sentinel and all positions, valid or not) `is_stringattractor` do in
the release build exactly what they do with overflow checks and debug assertions, so no debug assertion ever fires where the
release build would go on. -/
theorem C124_tools (sufsort : List UInt8 → List Nat) (hs : SortsSuffixes sufsort) (t : List UInt8)
    (hlen : t.length < 2147483647) :
    countZFactorsB .wrapping sufsort t = countZFactors sufsort t ∧
    countLexparseFactorsB .wrapping sufsort t = countLexparseFactors sufsort t ∧
    musToolB .wrapping sufsort t = musTool sufsort t ∧
    lyndonfactorizationMainB .wrapping t = lyndonfactorizationMain t ∧
    ((∀ x ∈ t, x ≠ 0) → ∀ positions, attractorReportB .wrapping sufsort (t ++ [0]) positions =
      attractorReport sufsort (t ++ [0]) positions) := by
  have h00 := lzCount_empty sufsort hs
  refine ⟨?_, ?_, ?_, ?_, fun hT positions => attractorReportB_eq hs hT hlen positions⟩
  · by_cases h0 : t = []
    · subst h0
      unfold countZFactorsB countZFactors
      dsimp only
      rw [h00]
      rfl
    · obtain ⟨fs, h, -⟩ := C19_lz77_decodes sufsort hs t h0 (by omega)
      rw [Res.Le.countZFactorsB sufsort t fs (by rw [countZFactorsB_checked]; exact h), h]
  · by_cases h0 : t = []
    · subst h0
      unfold countLexparseFactorsB countLexparseFactors
      dsimp only
      rw [h00]
      rfl
    · obtain ⟨fs, h, -⟩ := C22_lexparse_partial sufsort hs t h0 (by omega)
      exact Sim_eq (Res.Sim.countLexparseFactorsB sufsort t) ⟨fs, h⟩
  · by_cases h0 : t = []
    · subst h0
      unfold musToolB musTool
      dsimp only
      rw [h00]
      rfl
    · have : 1 ≤ (sufsort t).length := by
        rw [(hs t (by omega)).length]
        exact List.length_pos_iff.2 h0
      obtain ⟨isa, phi, plcp, lcp, h1, h2, h3, h4, A⟩ := musArrays_build h0 (by omega) (hs t (by omega))
      unfold musToolB musTool
      simp only [computePhiB_ge .wrapping _ _ h2, computePlcpB_ge .wrapping _ _ _ h3, computeLcpB_ge .wrapping _ _ _ h4,
        h1, h2, h3, h4, ok_bind]
      unfold getMusB getMus
      rw [usubB_of_le _ this]
  · by_cases h0 : t = []
    · subst h0; rfl
    · rw [← lyndonfactorizationMainB_checked]
      obtain ⟨f, fs, -, h⟩ := C55_lyndon_report t h0
      exact Sim_eq (Res.Sim.lyndonfactorizationMainB t) ⟨_, by rw [lyndonfactorizationMainB_checked]; exact h⟩

example := C124_tools naiveSufsort naiveSufsort_sorts [97, 98, 97, 97, 98] (by decide)
example := (C124_tools naiveSufsort naiveSufsort_sorts [97, 98, 97, 97, 98] (by decide)).2.2.2.2 (by decide) [2, 77]

/-- C124: `decode_lz77` returns the same text in both builds, or none, whatever the factors are (the fields are `u32`). -/
theorem C124_decode (fs : List LZFactor) (hfs : ∀ f ∈ fs, f.pos < 4294967296) (t : List UInt8) :
    decodeLz77B .wrapping fs = .ok t ↔ decodeLz77 fs = .ok t := by
  constructor
  swap
  · exact fun h => (Res.Sim.decodeLz77B fs).le t h
  unfold decodeLz77B decodeLz77 forEach
  generalize ([] : List UInt8) = s
  induction fs generalizing s with
  | nil => exact fun h => h
  | cons f fs ih =>
    intro h
    rw [List.foldlM_cons] at h ⊢
    obtain ⟨u, h1, h2⟩ := bind_eq_ok h
    have : decodeFactor f s = .ok u := by
      rw [← h1]
      unfold decodeFactor decodeFactorB
      split
      · rfl
      · next hl =>
        by_cases hp : f.pos ≤ s.length
        · rw [usubB_of_le _ hp]
        · exfalso
          have hf := hfs f (by simp)
          unfold decodeFactorB at h1
          rw [if_neg hl, usubB, if_neg hp] at h1
          rw [ok_bind, forRange_step (by omega), rd_err (by omega)] at h1
          cases h1
    rw [this, ok_bind]
    exact ih (fun g hg => hfs g (by simp [hg])) u h2

example : decodeLz77B .wrapping [⟨97, 0⟩, ⟨98, 0⟩, ⟨2, 3⟩] = .ok [97, 98, 97, 98, 97] :=
  (C124_decode _ (by decide) _).2 (by decide)
/-- A reference before the beginning panics in both builds. -/
example (t : List UInt8) : decodeLz77B .wrapping [⟨97, 0⟩, ⟨2, 1⟩] ≠ .ok t := by
  rw [Ne, C124_decode _ (by decide)]
  exact fun h => by cases h

/-- C124: `entropy --order k` on every non-empty zero-free text: the release build computes a number, the one the other build
computes, within `2^-17` of the entropy. -/
theorem C124_entropy (A : Arith) (hA : Binary64 A) (sufsort : List UInt8 → List Nat) (hs : SortsSuffixes sufsort)
    (T : List UInt8) (h0 : T ≠ []) (hT : ∀ x ∈ T, x ≠ 0) (hlen : T.length < 2147483647) (k : Nat) (hk : 0 < k) (m : Build) :
    ∃ y, kthOrderEntropyF A sufsort (T ++ [0]) k = .ok y ∧ kthOrderEntropyB m A sufsort (T ++ [0]) k = .ok (some y) ∧
      0 ≤ y ∧ |y - kthOrder (T ++ [0]) k| ≤ 1 / 2 ^ 17 := by
  obtain ⟨y, h1, h2, h3⟩ := C98_kth_order_f64 A hA sufsort hs T h0 hT hlen k hk
  obtain ⟨w, h4, rfl⟩ := kthB_rel m A sufsort (T ++ [0]) k y h1
  exact ⟨y, h1, h4, h2, h3⟩

example (A : Arith) (hA : Binary64 A) :=
  C124_entropy A hA naiveSufsort naiveSufsort_sorts [97, 98, 97, 98] (by decide) (by decide) (by decide) 2 (by decide) .wrapping

/-- C124 (finding): on an empty input, `entropy --order 1` panics with overflow checks, whereas the release build computes
`0.0 / 0.0` and prints `NaN`. -/
theorem C124_entropy_empty_input (A : Arith) (sufsort : List UInt8 → List Nat) (hs : SortsSuffixes sufsort) :
    kthOrderEntropyB .checked A sufsort [0] 1 = .error .arith ∧ kthOrderEntropyB .wrapping A sufsort [0] 1 = .ok none := by
  have e : sufsort [0] = [0] := by
    have h := hs [0] (by decide)
    exact sentinel_array h
  exact ⟨kthB_sentinel_checked A sufsort e, kthB_sentinel A sufsort e⟩

example (A : Arith) := C124_entropy_empty_input A naiveSufsort naiveSufsort_sorts

end Verif.Props
