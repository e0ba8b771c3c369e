import Verif.Lemmas.ResultLine
import Verif.Props.LyndonTool
import Verif.Props.Mus
import Verif.Props.LexRuns
import Verif.Props.EntropyBounds

/-! # C89, C90: the result lines of the analytic tools, and the table of `compute_stats.sh`

README.md: "The output format of the analytic tools is compatible with sqlplot", that is, `RESULT` followed by
`key=value` fields separated by blanks. -/

namespace Verif.Props

open Verif Spec Model

/-- The input file (or the standard input) contains `t`. -/
def Contains (inn : Option String) (stdin : List UInt8) (w : World) (t : List UInt8) : Prop :=
  match inn with
  | none => stdin = t
  | some n => w.files n = some t

/-- What is printed as the name of the input: the name itself, or `none`. -/
def printedName (inn : Option String) : List UInt8 :=
  match inn with
  | none => [110, 111, 110, 101]
  | some n => nameBytes n

/-- The name of the input file (if there is one) contains no blank. -/
def PlainName (inn : Option String) : Prop := ∀ n, inn = some n → ∀ c ∈ nameBytes n, isBlank c = false

theorem printedName_eq (inn : Option String) : nameBytes (getFilename inn) = printedName inn := by
  cases inn with
  | none => decide +kernel
  | some n => rfl

theorem printedName_free {inn : Option String} (h : PlainName inn) : BlankFree (printedName inn) := by
  cases inn with
  | none => decide
  | some n => exact h n rfl

theorem readVector_contains {inn : Option String} {stdin : List UInt8} {w : World} {t : List UInt8}
    (h : Contains inn stdin w t) (hlen : t.length < 18446744073709551616) : readVector inn 0 stdin w = .ok t := by
  cases inn with
  | none => rw [show t = stdin from h.symm]; rfl
  | some n => rw [readVector_file h 0 stdin hlen]; rfl

theorem fieldText_cons (f : List UInt8 × List UInt8 × List UInt8) (fs : List (List UInt8 × List UInt8 × List UInt8)) :
    fieldText (f :: fs) = f.1 ++ (f.2.1 ++ 61 :: (f.2.2 ++ fieldText fs)) := by
  simp [fieldText, List.append_assoc]

theorem fieldText_nil : fieldText [] = [] := rfl

theorem readable {sp k v : List UInt8}
    (h : sp ≠ [] ∧ (∀ c ∈ sp, isBlank c = true) ∧ (∀ c ∈ k, isBlank c = false) ∧ (61 : UInt8) ∉ k)
    (hv : BlankFree v) : Readable (sp, k, v) := ⟨h.1, h.2.1, h.2.2.1, h.2.2.2, hv⟩

theorem countSigmaLine_eq (inn : Option String) (time n : Nat) (s : UInt8) :
    countSigmaLine inn time n s = ascii "RESULT" ++ fieldText
      [([32], ascii "algo", ascii "count_sigma"), ([32], ascii "time_ms", decimal time),
        ([32], ascii "length", decimal n), ([32], ascii "sigma", decimal s.toNat),
        ([32], ascii "file", printedName inn)] ++ [10] := by
  have e1 : ascii "RESULT algo=count_sigma time_ms=" =
    ascii "RESULT" ++ ([32] ++ (ascii "algo" ++ 61 :: (ascii "count_sigma" ++ ([32] ++ (ascii "time_ms" ++ [61]))))) := by
    decide +kernel
  have e2 : ascii " length=" = [32] ++ (ascii "length" ++ [61]) := by decide +kernel
  have e3 : ascii " sigma=" = [32] ++ (ascii "sigma" ++ [61]) := by decide +kernel
  have e4 : ascii " file=" = [32] ++ (ascii "file" ++ [61]) := by decide +kernel
  rw [countSigmaLine, e1, e2, e3, e4, printedName_eq]
  simp only [fieldText_cons, List.append_assoc, List.cons_append, List.nil_append, fieldText_nil]

theorem countSigmaLine_fields {inn : Option String} (h : PlainName inn) (time n : Nat) (s : UInt8) :
    resultFields (countSigmaLine inn time n s) = some
      [(ascii "algo", ascii "count_sigma"), (ascii "time_ms", decimal time), (ascii "length", decimal n),
        (ascii "sigma", decimal s.toNat), (ascii "file", printedName inn)] := by
  rw [countSigmaLine_eq, resultFields_of]
  · rfl
  · have hn := printedName_free h
    simp only [List.mem_cons, List.not_mem_nil, or_false]
    rintro f (rfl | rfl | rfl | rfl | rfl) <;>
      refine readable (by decide +kernel) ?_ <;>
      first | exact decimal_blankFree _ | exact hn | decide +kernel

theorem showBool_free (b : Bool) : BlankFree (showBool b) := by cases b <;> decide +kernel

theorem countRLine_eq (inn : Option String) (useMatrix noDollar : Bool) (time n r : Nat) :
    countRLine inn useMatrix noDollar time n r = ascii "RESULT" ++ fieldText
      [([32], ascii "algo", ascii "bwt"), ([32], ascii "time_ms", decimal time),
        ([32], ascii "length", decimal n), ([32], ascii "bwt_runs", decimal r),
        ([32], ascii "file", printedName inn), ([32], ascii "no_dollar", showBool noDollar),
        ([32], ascii "use_matrix", showBool useMatrix)] ++ [10] := by
  have e1 : ascii "RESULT algo=bwt time_ms=" =
    ascii "RESULT" ++ ([32] ++ (ascii "algo" ++ 61 :: (ascii "bwt" ++ ([32] ++ (ascii "time_ms" ++ [61]))))) := by
    decide +kernel
  have e2 : ascii " length=" = [32] ++ (ascii "length" ++ [61]) := by decide +kernel
  have e3 : ascii " bwt_runs=" = [32] ++ (ascii "bwt_runs" ++ [61]) := by decide +kernel
  have e4 : ascii " file=" = [32] ++ (ascii "file" ++ [61]) := by decide +kernel
  have e5 : ascii " no_dollar=" = [32] ++ (ascii "no_dollar" ++ [61]) := by decide +kernel
  have e6 : ascii " use_matrix=" = [32] ++ (ascii "use_matrix" ++ [61]) := by decide +kernel
  rw [countRLine, e1, e2, e3, e4, e5, e6, printedName_eq]
  simp only [fieldText_cons, List.append_assoc, List.cons_append, List.nil_append, fieldText_nil]

theorem countRLine_fields {inn : Option String} (h : PlainName inn) (useMatrix noDollar : Bool) (time n r : Nat) :
    resultFields (countRLine inn useMatrix noDollar time n r) = some
      [(ascii "algo", ascii "bwt"), (ascii "time_ms", decimal time), (ascii "length", decimal n),
        (ascii "bwt_runs", decimal r), (ascii "file", printedName inn), (ascii "no_dollar", showBool noDollar),
        (ascii "use_matrix", showBool useMatrix)] := by
  rw [countRLine_eq, resultFields_of]
  · rfl
  · have hn := printedName_free h
    simp only [List.mem_cons, List.not_mem_nil, or_false]
    rintro f (rfl | rfl | rfl | rfl | rfl | rfl | rfl) <;>
      refine readable (by decide +kernel) ?_ <;>
      first | exact decimal_blankFree _ | exact hn | exact showBool_free _ | decide +kernel

theorem factorLine_eq (inn : Option String) (algo : List UInt8) (time n z : Nat) :
    factorLine algo inn time n z = ascii "RESULT" ++ fieldText
      [([32], ascii "file", printedName inn), ([32], ascii "length", decimal n), ([32, 32], ascii "algo", algo),
        ([32], ascii "time_ms", decimal time), ([32], ascii "factors", decimal z)] ++ [10] := by
  have e1 : ascii "RESULT file=" = ascii "RESULT" ++ ([32] ++ (ascii "file" ++ [61])) := by decide +kernel
  have e2 : ascii " length=" = [32] ++ (ascii "length" ++ [61]) := by decide +kernel
  have e3 : ascii " " = [32] := by decide +kernel
  have e4 : ascii " algo=" = [32] ++ (ascii "algo" ++ [61]) := by decide +kernel
  have e5 : ascii " time_ms=" = [32] ++ (ascii "time_ms" ++ [61]) := by decide +kernel
  have e6 : ascii " factors=" = [32] ++ (ascii "factors" ++ [61]) := by decide +kernel
  rw [factorLine, e1, e2, e3, e4, e5, e6, printedName_eq]
  simp only [fieldText_cons, List.append_assoc, List.cons_append, List.nil_append, fieldText_nil]

theorem factorLine_fields {inn : Option String} (h : PlainName inn) {algo : List UInt8} (ha : BlankFree algo)
    (time n z : Nat) :
    resultFields (factorLine algo inn time n z) = some
      [(ascii "file", printedName inn), (ascii "length", decimal n), (ascii "algo", algo),
        (ascii "time_ms", decimal time), (ascii "factors", decimal z)] := by
  rw [factorLine_eq, resultFields_of]
  · rfl
  · have hn := printedName_free h
    simp only [List.mem_cons, List.not_mem_nil, or_false]
    rintro f (rfl | rfl | rfl | rfl | rfl) <;>
      refine readable (by decide +kernel) ?_ <;>
      first | exact decimal_blankFree _ | exact hn | exact ha

theorem entropyLine_eq (inn : Option String) (algo : List UInt8) (showF : ℝ → List UInt8) (x : ℝ) (order time n : Nat) :
    entropyLine algo showF inn order time n x = ascii "RESULT" ++ fieldText
      [([32], ascii "algo", algo), ([32], ascii "order", decimal order), ([32], ascii "time_ms", decimal time),
        ([32], ascii "length", decimal n), ([32], ascii "entropy", showF x),
        ([32], ascii "input", printedName inn)] ++ [10] := by
  have e1 : ascii "RESULT algo=" = ascii "RESULT" ++ ([32] ++ (ascii "algo" ++ [61])) := by decide +kernel
  have e2 : ascii " length=" = [32] ++ (ascii "length" ++ [61]) := by decide +kernel
  have e3 : ascii " order=" = [32] ++ (ascii "order" ++ [61]) := by decide +kernel
  have e4 : ascii " entropy=" = [32] ++ (ascii "entropy" ++ [61]) := by decide +kernel
  have e5 : ascii " time_ms=" = [32] ++ (ascii "time_ms" ++ [61]) := by decide +kernel
  have e6 : ascii " input=" = [32] ++ (ascii "input" ++ [61]) := by decide +kernel
  rw [entropyLine, e1, e2, e3, e4, e5, e6, printedName_eq]
  simp only [fieldText_cons, List.append_assoc, List.cons_append, List.nil_append, fieldText_nil]

theorem entropyLine_fields {inn : Option String} (h : PlainName inn) {algo : List UInt8} (ha : BlankFree algo)
    {showF : ℝ → List UInt8} {x : ℝ} (hf : BlankFree (showF x)) (order time n : Nat) :
    resultFields (entropyLine algo showF inn order time n x) = some
      [(ascii "algo", algo), (ascii "order", decimal order), (ascii "time_ms", decimal time),
        (ascii "length", decimal n), (ascii "entropy", showF x), (ascii "input", printedName inn)] := by
  rw [entropyLine_eq, resultFields_of]
  · rfl
  · have hn := printedName_free h
    simp only [List.mem_cons, List.not_mem_nil, or_false]
    rintro f (rfl | rfl | rfl | rfl | rfl | rfl) <;>
      refine readable (by decide +kernel) ?_ <;>
      first | exact decimal_blankFree _ | exact hn | exact ha | exact hf

/-! ## C89 -/

/-- C89, `count_sigma`: if the file name has no blank and fewer than 256 different bytes occur, the printed line consists
of these fields. -/
theorem C89_count_sigma_partial (m : Build) (inn : Option String) (stdin : List UInt8) (w : World) (t : List UInt8)
    (hin : Contains inn stdin w t) (hlen : t.length < 18446744073709551616) (hname : PlainName inn)
    (hsig : t.toFinset.card < 256) (time : Nat) :
    ∃ line, countSigmaOut m inn 0 stdin time w = .ok line ∧ resultFields line = some
      [(ascii "algo", ascii "count_sigma"), (ascii "time_ms", decimal time), (ascii "length", decimal t.length),
        (ascii "sigma", decimal t.toFinset.card), (ascii "file", printedName inn)] := by
  obtain ⟨s, h1, h2⟩ := C29_count_sigma_partial m t hsig
  refine ⟨_, ?_, h2 ▸ countSigmaLine_fields hname time t.length s⟩
  rw [countSigmaOut, countSigmaMain, readVector_contains hin hlen, ok_bind, h1]
  rfl

/-- C89, `count_r` (without `--use-matrix` and `--no-dollar`) on zero-free inputs: `r` is the number of runs of the
Burrows-Wheeler transform of the input with its sentinel. -/
theorem C89_count_r_partial (sufsort : List UInt8 → List Nat) (hs : SortsSuffixes sufsort) (inn : Option String)
    (stdin : List UInt8) (w : World) (t : List UInt8) (hin : Contains inn stdin w t)
    (h0 : ∀ x ∈ t, x ≠ 0) (hlen : t.length < 2147483646) (hname : PlainName inn) (time : Nat)
    (b : List UInt8) (hb : IsMatrixBwt (t ++ [0]) b) (rs : List (UInt8 × Nat)) (hrs : IsRuns rs b) :
    ∃ line, countROut sufsort false false inn 0 stdin time w = .ok line ∧ resultFields line = some
      [(ascii "algo", ascii "bwt"), (ascii "time_ms", decimal time), (ascii "length", decimal (t.length + 1)),
        (ascii "bwt_runs", decimal rs.length), (ascii "file", printedName inn), (ascii "no_dollar", ascii "false"),
        (ascii "use_matrix", ascii "false")] := by
  obtain ⟨b', h1, -, h2, h3⟩ := C12_bwt_sa_eq_matrix sufsort hs t h0 (by omega)
  have hbb : b' = b := map_some_inj ((isMatrixBwt_iff.1 h2).trans (isMatrixBwt_iff.1 hb).symm)
  subst hbb
  refine ⟨_, ?_, countRLine_fields hname false false time (t.length + 1) rs.length⟩
  have e : bwtToolTransform sufsort false (bwtToolText false t) = .ok b' := h1
  have hr : numberOfRuns (sliceReader b') = rs.length :=
    (C28_number_of_runs (sliceReader b')).1 rs (by rwa [delivered_slice])
  rw [countROut, readVector_contains hin (by omega), ok_bind, countR, e]
  simp only [ok_bind, pure_ok, hr, h3.length_eq, List.length_append, List.length_singleton]

/-- C89, `count_z`: `factors=` is the number of factors of the greedy parse. -/
theorem C89_count_z_partial (sufsort : List UInt8 → List Nat) (hs : SortsSuffixes sufsort) (inn : Option String)
    (stdin : List UInt8) (w : World) (t : List UInt8) (hin : Contains inn stdin w t) (h0 : t ≠ [])
    (hlen : t.length < 2147483648) (hname : PlainName inn) (time : Nat) :
    ∃ line fs, GreedyLz t 0 fs ∧ countZOut sufsort inn 0 stdin time w = .ok line ∧ resultFields line = some
      [(ascii "file", printedName inn), (ascii "length", decimal t.length), (ascii "algo", ascii "lz77"),
        (ascii "time_ms", decimal time), (ascii "factors", decimal fs.length)] := by
  obtain ⟨fs, h1, h2⟩ := C20_lz77_greedy sufsort hs t h0 hlen
  refine ⟨_, fs, h2, ?_, factorLine_fields hname (by decide +kernel) time t.length fs.length⟩
  rw [countZOut, readVector_contains hin (by omega), ok_bind, h1]
  rfl

/-- C89, `count_lexparse`: `factors=` is the number of factors of a lex-parse of the text. -/
theorem C89_count_lexparse_partial (sufsort : List UInt8 → List Nat) (hs : SortsSuffixes sufsort) (inn : Option String)
    (stdin : List UInt8) (w : World) (t : List UInt8) (hin : Contains inn stdin w t) (h0 : t ≠ [])
    (hlen : t.length < 2147483648) (hname : PlainName inn) (time : Nat) :
    ∃ line fs, countLexparseFactors sufsort t = .ok fs ∧ (fs.map factorLength).sum = t.length ∧ Satisfies t 0 fs ∧
      countLexparseOut sufsort inn 0 stdin time w = .ok line ∧ resultFields line = some
      [(ascii "file", printedName inn), (ascii "length", decimal t.length), (ascii "algo", ascii "lexparse"),
        (ascii "time_ms", decimal time), (ascii "factors", decimal fs.length)] := by
  obtain ⟨fs, h1, h2, h3, -⟩ := C22_lexparse_partial sufsort hs t h0 hlen
  refine ⟨_, fs, h1, h2, h3, ?_, factorLine_fields hname (by decide +kernel) time t.length fs.length⟩
  rw [countLexparseOut, readVector_contains hin (by omega), ok_bind, h1]
  rfl

/-- C89, `lyndonfactorization`: `factors=` is the number of Lyndon factors (but `length=` is the prefix length of the
command line, C78). -/
theorem C89_lyndonfactorization_partial (inn : Option String) (stdin : List UInt8) (w : World) (t : List UInt8)
    (hin : Contains inn stdin w t) (h0 : t ≠ []) (hlen : t.length < 18446744073709551616) (hname : PlainName inn)
    (time : Nat) (fs : List (List UInt8)) (hfs : IsLyndonFactorization fs t) :
    ∃ line, lyndonfactorizationOut inn 0 stdin time w = .ok line ∧ resultFields line = some
      [(ascii "file", printedName inn), (ascii "length", decimal 0), (ascii "algo", ascii "duval"),
        (ascii "time_ms", decimal time), (ascii "factors", decimal fs.length)] := by
  cases fs with
  | nil => exact absurd hfs.1.symm h0
  | cons f fs =>
    refine ⟨_, ?_, factorLine_fields hname (by decide +kernel) time 0 (f :: fs).length⟩
    rw [lyndonfactorizationOut, readVector_contains hin hlen, ok_bind, lyndonfactorizationMain_ok hfs]
    rfl

/-- C89, `entropy` and `entropy_kmer`, if numbers are printed without blanks: the entropy printed is that of the
requested order of the input with its sentinel. -/
theorem C89_entropy_partial (sufsort : List UInt8 → List Nat) (hs : SortsSuffixes sufsort) (showF : ℝ → List UInt8)
    (hF : ∀ x, ∀ c ∈ showF x, isBlank c = false) (inn : Option String)
    (stdin : List UInt8) (w : World) (T : List UInt8) (hin : Contains inn stdin w T) (h0 : T ≠ [])
    (hT : ∀ x ∈ T, x ≠ 0) (hlen : T.length < 2147483647) (hname : PlainName inn) (order time : Nat) (H : ℝ)
    (hH : H = if order = 0 then zeroOrder (T ++ [0]) else kthOrder (T ++ [0]) order) :
    (∃ line, entropyOut sufsort showF order inn 0 stdin time w = .ok line ∧ resultFields line = some
      [(ascii "algo", ascii "count_entropy"), (ascii "order", decimal order), (ascii "time_ms", decimal time),
        (ascii "length", decimal (T.length + 1)), (ascii "entropy", showF H), (ascii "input", printedName inn)]) ∧
    (1 ≤ order → order ≤ 7 → order ≤ T.length + 1 →
      ∃ line, entropyKmerOut showF order inn 0 stdin time w = .ok line ∧ resultFields line = some
        [(ascii "algo", ascii "count_entropy_hash"), (ascii "order", decimal order), (ascii "time_ms", decimal time),
          (ascii "length", decimal (T.length + 1)), (ascii "entropy", showF H), (ascii "input", printedName inn)]) := by
  have hrd := readVector_contains hin (by omega)
  constructor
  · refine ⟨_, ?_, entropyLine_fields hname (by decide +kernel) (hF H) order time (T.length + 1)⟩
    rw [entropyOut, entropyMain, hrd, ok_bind]
    by_cases hk : order = 0
    · rw [if_pos hk, C26_zero_order _ (by simp)]
      simp [pure_ok, hH, hk]
    · rw [if_neg hk, C26_kth_order sufsort hs T h0 hT hlen order (by omega)]
      simp [pure_ok, hH, hk]
  · intro h1 h7 hl
    refine ⟨_, ?_, entropyLine_fields hname (by decide +kernel) (hF H) order time (T.length + 1)⟩
    obtain ⟨h, -, e2, e3⟩ := C27_tools_agree sufsort hs T h0 hT hlen order h1 h7 (by simpa using hl)
    have e : H = h := by rw [hH, if_neg (by omega), e3]
    rw [entropyKmerOut, entropyKmerMain, assertR, if_pos (by simp; omega), ok_bind, assertR,
      if_pos (by simpa using h7), ok_bind, hrd, ok_bind]
    simp only [e2, ok_bind, pure_ok, e, List.length_append, List.length_singleton]

/-- C89 fails for `mus`: as soon as something is found, the list `[(i, l), ..]` contains a blank, and the field `mus` is
only `[(i,`. -/
theorem C89_mus_refuted (sufsort : List UInt8 → List Nat) (inn : Option String)
    (stdin : List UInt8) (w : World) (t : List UInt8) (hin : Contains inn stdin w t)
    (hlen : t.length < 18446744073709551616) (hname : PlainName inn) (time i l : Nat) (ms : List (Nat × Nat))
    (hms : musTool sufsort t = .ok ((i, l) :: ms)) :
    ∃ line more, musOut sufsort inn 0 stdin time w = .ok line ∧ resultFields line = some
      ([(ascii "file", printedName inn), (ascii "length", decimal t.length), (ascii "time_ms", decimal time),
        (ascii "mus", ascii "[(" ++ decimal i ++ ascii ",")] ++ more) := by
  have hn := printedName_free hname
  obtain ⟨d, hd⟩ : ∃ d, List.intercalate (ascii ", ") (showPair (i, l) :: ms.map showPair) = showPair (i, l) ++ d := by
    cases ms with
    | nil => exact ⟨[], by simp [List.intercalate]⟩
    | cons p ms => exact ⟨_, by simp [List.intercalate]; rfl⟩
  rw [musOut, readVector_contains hin hlen, ok_bind, hms, ok_bind]
  refine ⟨_, ?_, rfl, ?_⟩
  rotate_left
  · have e : ascii "RESULT file=" ++ nameBytes (getFilename inn) ++ ascii " length=" ++ decimal t.length ++ ascii " " ++
        ascii " time_ms=" ++ decimal time ++ ascii " mus=" ++ showPairs ((i, l) :: ms) ++ [10] =
        ascii "RESULT" ++ fieldText [([32], ascii "file", printedName inn), ([32], ascii "length", decimal t.length),
          ([32, 32], ascii "time_ms", decimal time), ([32], ascii "mus", ascii "[(" ++ decimal i ++ ascii ",")] ++
        32 :: ((decimal l ++ ascii ")") ++ (d ++ ascii "]" ++ [10])) := by
      have e1 : ascii "RESULT file=" = ascii "RESULT" ++ ([32] ++ (ascii "file" ++ [61])) := by decide +kernel
      have e2 : ascii " length=" = [32] ++ (ascii "length" ++ [61]) := by decide +kernel
      have e3 : ascii " " = [32] := by decide +kernel
      have e4 : ascii " mus=" = [32] ++ (ascii "mus" ++ [61]) := by decide +kernel
      have e5 : ascii " time_ms=" = [32] ++ (ascii "time_ms" ++ [61]) := by decide +kernel
      have e6 : ascii "[(" = ascii "[" ++ ascii "(" := by decide +kernel
      have e7 : ascii ", " = ascii "," ++ [32] := by decide +kernel
      rw [printedName_eq, showPairs, List.map_cons, hd]
      rw [showPair, e1, e2, e3, e4, e5, e6, e7]
      simp only [fieldText_cons, List.append_assoc, List.cons_append, List.nil_append, fieldText_nil]
    rw [e, resultFields_prefix _ ?_ (by decide)]
    · rfl
    · simp only [List.mem_cons, List.not_mem_nil, or_false]
      rintro f (rfl | rfl | rfl | rfl) <;>
        refine readable (by decide +kernel) ?_ <;>
        first
          | exact decimal_blankFree _
          | exact hn
          | exact blankFree_append (blankFree_append (by decide +kernel) (decimal_blankFree _)) (by decide +kernel)

/-- One file of the given name and content. -/
def oneFile (name : String) (c : List UInt8) : World := { files := fun m => if m = name then some c else none, stdout := [] }

/-- C89 fails for file names with blanks: the name `x length=9` adds a second field `length`. -/
theorem C89_name_refuted : ∃ line, countSigmaOut .checked (some "x length=9") 0 [] 5 (oneFile "x length=9" [97, 98]) =
      .ok line ∧ resultFields line = some
      [(ascii "algo", ascii "count_sigma"), (ascii "time_ms", ascii "5"), (ascii "length", ascii "2"),
        (ascii "sigma", ascii "2"), (ascii "file", ascii "x"), (ascii "length", ascii "9")] := by
  refine ⟨countSigmaLine (some "x length=9") 5 2 2, ?_, ?_⟩ <;> decide +kernel

/-- Concrete case: the hypotheses hold for the file `ab.txt` containing `ab`. -/
example : Contains (some "ab.txt") [] (oneFile "ab.txt" [97, 98]) [97, 98] ∧ PlainName (some "ab.txt") ∧
    countZOut naiveSufsort (some "ab.txt") 0 [] 7 (oneFile "ab.txt" [97, 98]) =
      .ok (ascii "RESULT file=ab.txt length=2  algo=lz77 time_ms=7 factors=2\n") := by
  refine ⟨by simp [Contains, oneFile], ?_, by decide +kernel⟩
  rintro n ⟨⟩
  decide +kernel

/-! ## C90 -/

theorem dropLast_line (x : List UInt8) : (x ++ [10]).dropLast = x := by simp

theorem resultLine_ok (l : List UInt8) : resultLine (.ok l) = l.dropLast := rfl

theorem isDigit_blank : isDigit 32 = false ∧ isDigitOrDot 32 = false := by decide

theorem sigma_cells {inn : Option String} (h : PlainName inn) (time n : Nat) (s : UInt8) :
    sed (ascii " length=") isDigit (ascii " ") (countSigmaLine inn time n s).dropLast = decimal n ∧
    sed (ascii " sigma=") isDigit (ascii " ") (countSigmaLine inn time n s).dropLast = decimal s.toNat := by
  have hn := printedName_free h
  have k1 : ascii " length=" = 32 :: (ascii "length" ++ [61]) := by decide +kernel
  have k2 : ascii " sigma=" = 32 :: (ascii "sigma" ++ [61]) := by decide +kernel
  have k3 : ascii " " = [32] := by decide +kernel
  rw [countSigmaLine_eq, dropLast_line, k1, k2, k3]
  have r1 : Readable ([32], ascii "algo", ascii "count_sigma") := readable (by decide +kernel) (by decide +kernel)
  have r2 : Readable ([32], ascii "time_ms", decimal time) := readable (by decide +kernel) (decimal_blankFree _)
  have r3 : Readable ([32], ascii "length", decimal n) := readable (by decide +kernel) (decimal_blankFree _)
  have r4 : Readable ([32], ascii "sigma", decimal s.toNat) := readable (by decide +kernel) (decimal_blankFree _)
  have r5 : Readable ([32], ascii "file", printedName inn) := readable (by decide +kernel) hn
  constructor
  · refine sed_record (by decide +kernel) (decimal_ne_nil _) (decimal_blankFree _) (decimal_isDigit _) isDigit_blank.1
      [_, _] [_, _] ?_ ?_ (Or.inr ⟨rfl, _, _, _, rfl⟩)
    · simp only [List.mem_cons, List.not_mem_nil, or_false]
      rintro f (rfl | rfl)
      · exact ⟨r1, by decide +kernel⟩
      · exact ⟨r2, by show ascii "length" ≠ ascii "time_ms"; decide +kernel⟩
    · simp only [List.mem_cons, List.not_mem_nil, or_false]
      rintro f (rfl | rfl)
      · exact ⟨r4, by show ascii "length" ≠ ascii "sigma"; decide +kernel⟩
      · exact ⟨r5, by show ascii "length" ≠ ascii "file"; decide +kernel⟩
  · refine sed_record (by decide +kernel) (decimal_ne_nil _) (decimal_blankFree _) (decimal_isDigit _) isDigit_blank.1
      [_, _, _] [_] ?_ ?_ (Or.inr ⟨rfl, _, _, _, rfl⟩)
    · simp only [List.mem_cons, List.not_mem_nil, or_false]
      rintro f (rfl | rfl | rfl)
      · exact ⟨r1, by decide +kernel⟩
      · exact ⟨r2, by show ascii "sigma" ≠ ascii "time_ms"; decide +kernel⟩
      · exact ⟨r3, by show ascii "sigma" ≠ ascii "length"; decide +kernel⟩
    · simp only [List.mem_cons, List.not_mem_nil, or_false]
      rintro f rfl
      exact ⟨r5, by show ascii "sigma" ≠ ascii "file"; decide +kernel⟩

theorem runs_cell {inn : Option String} (h : PlainName inn) (u d : Bool) (time n r : Nat) :
    sed (ascii " bwt_runs=") isDigit (ascii " ") (countRLine inn u d time n r).dropLast = decimal r := by
  have hn := printedName_free h
  have k1 : ascii " bwt_runs=" = 32 :: (ascii "bwt_runs" ++ [61]) := by decide +kernel
  have k3 : ascii " " = [32] := by decide +kernel
  rw [countRLine_eq, dropLast_line, k1, k3]
  refine sed_record (by decide +kernel) (decimal_ne_nil _) (decimal_blankFree _) (decimal_isDigit _) isDigit_blank.1
    [_, _, _] [_, _, _] ?_ ?_ (Or.inr ⟨rfl, _, _, _, rfl⟩)
  · simp only [List.mem_cons, List.not_mem_nil, or_false]
    rintro f (rfl | rfl | rfl)
    · exact ⟨readable (by decide +kernel) (by decide +kernel), by decide +kernel⟩
    · exact ⟨readable (by decide +kernel) (decimal_blankFree _), by show ascii "bwt_runs" ≠ ascii "time_ms"; decide +kernel⟩
    · exact ⟨readable (by decide +kernel) (decimal_blankFree _), by show ascii "bwt_runs" ≠ ascii "length"; decide +kernel⟩
  · simp only [List.mem_cons, List.not_mem_nil, or_false]
    rintro f (rfl | rfl | rfl)
    · exact ⟨readable (by decide +kernel) hn, by show ascii "bwt_runs" ≠ ascii "file"; decide +kernel⟩
    · exact ⟨readable (by decide +kernel) (showBool_free _), by show ascii "bwt_runs" ≠ ascii "no_dollar"; decide +kernel⟩
    · exact ⟨readable (by decide +kernel) (showBool_free _), by show ascii "bwt_runs" ≠ ascii "use_matrix"; decide +kernel⟩

theorem factors_cell {inn : Option String} (h : PlainName inn) {algo : List UInt8} (ha : BlankFree algo)
    (time n z : Nat) : sed (ascii " factors=") isDigit [] (factorLine algo inn time n z).dropLast = decimal z := by
  have hn := printedName_free h
  have k1 : ascii " factors=" = 32 :: (ascii "factors" ++ [61]) := by decide +kernel
  rw [factorLine_eq, dropLast_line, k1]
  refine sed_record (by decide +kernel) (decimal_ne_nil _) (decimal_blankFree _) (decimal_isDigit _) isDigit_blank.1
    [_, _, _, _] [] ?_ (by simp) (Or.inl ⟨rfl, rfl⟩)
  simp only [List.mem_cons, List.not_mem_nil, or_false]
  rintro f (rfl | rfl | rfl | rfl)
  · exact ⟨readable (by decide +kernel) hn, by show ascii "factors" ≠ ascii "file"; decide +kernel⟩
  · exact ⟨readable (by decide +kernel) (decimal_blankFree _), by show ascii "factors" ≠ ascii "length"; decide +kernel⟩
  · exact ⟨readable (by decide +kernel) ha, by show ascii "factors" ≠ ascii "algo"; decide +kernel⟩
  · exact ⟨readable (by decide +kernel) (decimal_blankFree _), by show ascii "factors" ≠ ascii "time_ms"; decide +kernel⟩

theorem entropy_cell {inn : Option String} (h : PlainName inn) {algo : List UInt8} (ha : BlankFree algo)
    {showF : ℝ → List UInt8} {x : ℝ} (h1 : showF x ≠ []) (h2 : ∀ c ∈ showF x, isDigitOrDot c = true)
    (order time n : Nat) :
    sed (ascii " entropy=") isDigitOrDot (ascii " ") (entropyLine algo showF inn order time n x).dropLast = showF x := by
  have hn := printedName_free h
  have hb : BlankFree (showF x) := by
    intro c hc
    have := h2 c hc
    revert this
    revert c
    have : ∀ n : Nat, n < 256 → isDigitOrDot (UInt8.ofNat n) = true → isBlank (UInt8.ofNat n) = false := by decide +kernel
    intro c _ hc
    have e : UInt8.ofNat c.toNat = c := by simp
    rw [← e] at hc ⊢
    exact this c.toNat c.toNat_lt hc
  have k1 : ascii " entropy=" = 32 :: (ascii "entropy" ++ [61]) := by decide +kernel
  have k3 : ascii " " = [32] := by decide +kernel
  rw [entropyLine_eq, dropLast_line, k1, k3]
  refine sed_record (by decide +kernel) h1 hb h2 isDigit_blank.2
    [_, _, _, _] [_] ?_ ?_ (Or.inr ⟨rfl, _, _, _, rfl⟩)
  · simp only [List.mem_cons, List.not_mem_nil, or_false]
    rintro f (rfl | rfl | rfl | rfl)
    · exact ⟨readable (by decide +kernel) ha, by show ascii "entropy" ≠ ascii "algo"; decide +kernel⟩
    · exact ⟨readable (by decide +kernel) (decimal_blankFree _), by show ascii "entropy" ≠ ascii "order"; decide +kernel⟩
    · exact ⟨readable (by decide +kernel) (decimal_blankFree _), by show ascii "entropy" ≠ ascii "time_ms"; decide +kernel⟩
    · exact ⟨readable (by decide +kernel) (decimal_blankFree _), by show ascii "entropy" ≠ ascii "length"; decide +kernel⟩
  · simp only [List.mem_cons, List.not_mem_nil, or_false]
    rintro f rfl
    exact ⟨readable (by decide +kernel) hn, by show ascii "entropy" ≠ ascii "input"; decide +kernel⟩

theorem card_lt_of_zero_free {t : List UInt8} (h0 : ∀ x ∈ t, x ≠ 0) : t.toFinset.card < 256 := by
  have : (t.toFinset.image UInt8.toNat).card = t.toFinset.card :=
    Finset.card_image_of_injective _ (fun a b h => UInt8.toNat_inj.1 h)
  rw [← this]
  refine Nat.lt_of_le_of_lt (Finset.card_le_card (t := Finset.Ico 1 256) ?_) (by simp)
  intro n hn
  obtain ⟨x, hx, rfl⟩ := Finset.mem_image.1 hn
  have := h0 x (by simpa using hx)
  have hx0 : x.toNat ≠ 0 := fun e => this (UInt8.toNat_inj.1 (by simpa using e))
  exact Finset.mem_Ico.2 ⟨by omega, x.toNat_lt⟩

/-- C90: for a non-empty zero-free file whose name contains no blank, the row printed by `compute_stats.sh` consists of
the name, the length, the number of different letters, the number of runs of the Burrows-Wheeler transform, the number of
LZ77 factors, and the entropies of orders 0 to 4, whatever the running times are.  (Missing: other names and texts, and
the columns announced by the header are in another order, see below.) -/
theorem C90_row_partial (m : Build) (sufsort : List UInt8 → List Nat) (hs : SortsSuffixes sufsort)
    (showF : ℝ → List UInt8) (hF : ∀ x : ℝ, 0 ≤ x → showF x ≠ [] ∧ ∀ c ∈ showF x, isDigitOrDot c = true)
    (file : String) (hname : ∀ c ∈ nameBytes file, isBlank c = false) (times : Nat → Nat) (w : World)
    (t : List UInt8) (hw : w.files file = some t) (hne : t ≠ []) (h0 : ∀ x ∈ t, x ≠ 0) (hlen : t.length < 2147483646)
    (b : List UInt8) (hb : IsMatrixBwt (t ++ [0]) b) (rs : List (UInt8 × Nat)) (hrs : IsRuns rs b) :
    ∃ fs, GreedyLz t 0 fs ∧ statsCells m sufsort showF file times w =
      [basename (nameBytes file), decimal t.length, decimal t.toFinset.card, decimal rs.length, decimal fs.length,
        showF (zeroOrder (t ++ [0])), showF (kthOrder (t ++ [0]) 1), showF (kthOrder (t ++ [0]) 2),
        showF (kthOrder (t ++ [0]) 3), showF (kthOrder (t ++ [0]) 4)] := by
  have hp : PlainName (some file) := by rintro n ⟨⟩; exact hname
  have hin : Contains (some file) [] w t := hw
  have hrd := readVector_contains hin (by omega)
  obtain ⟨s, hs1, hs2⟩ := C29_count_sigma_partial m t (card_lt_of_zero_free h0)
  obtain ⟨fs, z1, z2⟩ := C20_lz77_greedy sufsort hs t hne (by omega)
  obtain ⟨b', h1, -, h2, h3⟩ := C12_bwt_sa_eq_matrix sufsort hs t h0 (by omega)
  have hbb : b' = b := map_some_inj ((isMatrixBwt_iff.1 h2).trans (isMatrixBwt_iff.1 hb).symm)
  subst hbb
  have hr : numberOfRuns (sliceReader b') = rs.length :=
    (C28_number_of_runs (sliceReader b')).1 rs (by rwa [delivered_slice])
  have e1 : countSigmaOut m (some file) 0 [] (times 0) w = .ok (countSigmaLine (some file) (times 0) t.length s) := by
    rw [countSigmaOut, countSigmaMain, hrd, ok_bind, hs1]
    rfl
  have e2 : countROut sufsort false false (some file) 0 [] (times 1) w =
      .ok (countRLine (some file) false false (times 1) (t.length + 1) rs.length) := by
    have e : bwtToolTransform sufsort false (bwtToolText false t) = .ok b' := h1
    rw [countROut, hrd, ok_bind, countR, e]
    simp only [ok_bind, pure_ok, hr, h3.length_eq, List.length_append, List.length_singleton]
  have e3 : countZOut sufsort (some file) 0 [] (times 2) w =
      .ok (factorLine (ascii "lz77") (some file) (times 2) t.length fs.length) := by
    rw [countZOut, hrd, ok_bind, z1]
    rfl
  have e4 : ∀ k, entropyOut sufsort showF k (some file) 0 [] (times (3 + k)) w =
      .ok (entropyLine (ascii "count_entropy") showF (some file) k (times (3 + k)) (t.length + 1)
        (if k = 0 then zeroOrder (t ++ [0]) else kthOrder (t ++ [0]) k)) := by
    intro k
    rw [entropyOut, entropyMain, hrd, ok_bind]
    by_cases hk : k = 0
    · rw [if_pos hk, C26_zero_order _ (by simp)]
      simp [pure_ok, hk]
    · rw [if_neg hk, C26_kth_order sufsort hs t hne h0 (by omega) k (by omega)]
      simp [pure_ok, hk]
  have e5 : ∀ k, sed (ascii " entropy=") isDigitOrDot (ascii " ")
      (resultLine (entropyOut sufsort showF k (some file) 0 [] (times (3 + k)) w)) =
      showF (if k = 0 then zeroOrder (t ++ [0]) else kthOrder (t ++ [0]) k) := by
    intro k
    rw [e4]
    have hnn : (0 : ℝ) ≤ if k = 0 then zeroOrder (t ++ [0]) else kthOrder (t ++ [0]) k := by
      split
      · exact zeroOrder_nonneg _
      · exact kthOrder_nonneg _ _
    exact entropy_cell hp (by decide +kernel) (hF _ hnn).1 (hF _ hnn).2 _ _ _
  refine ⟨fs, z2, ?_⟩
  have c1 := sigma_cells hp (times 0) t.length s
  rw [statsCells]
  simp only [e5, e1, e2, e3, resultLine_ok, c1.1, c1.2, hs2, runs_cell hp, factors_cell hp (algo := ascii "lz77") (by decide +kernel)]
  simp [List.range_succ]

theorem GreedyLz_length_unique {t : List UInt8} {fs gs : List LZFactor} (hf : GreedyLz t 0 fs) (hg : GreedyLz t 0 gs) :
    fs.length = gs.length := by
  have h1 := greedy_minimal _ fs 0 0 (Nat.le_refl _) (greedy_isParse gs 0 hg) hf
  have h2 := greedy_minimal _ gs 0 0 (Nat.le_refl _) (greedy_isParse fs 0 hf) hg
  simp only [List.length_map] at h1 h2
  omega

/-- C90 fails for the columns: the header announces `z` before `r`, the row lists the runs first.  For the file `ab` the
cell below `z` is 3 and the cell below `r` is 2, but `ab` has two LZ77 factors and the Burrows-Wheeler transform of `ab$`
has three runs. -/
theorem C90_columns_refuted (m : Build) (sufsort : List UInt8 → List Nat) (hs : SortsSuffixes sufsort)
    (showF : ℝ → List UInt8) (hF : ∀ x : ℝ, 0 ≤ x → showF x ≠ [] ∧ ∀ c ∈ showF x, isDigitOrDot c = true)
    (times : Nat → Nat) :
    statsHeader = ["dataset", "$n$", "$\\sigma$", "$z$", "$r$", "$H_0$", "$H_1$", "$H_2$", "$H_3$", "$H_4$"] ∧
    (statsCells m sufsort showF "ab.txt" times (oneFile "ab.txt" [97, 98]))[3]? = some (ascii "3") ∧
    (statsCells m sufsort showF "ab.txt" times (oneFile "ab.txt" [97, 98]))[4]? = some (ascii "2") ∧
    (∀ fs, GreedyLz [97, 98] 0 fs → fs.length = 2) ∧
    (∀ b rs, IsMatrixBwt ([97, 98, 0] : List UInt8) b → IsRuns rs b → rs.length = 3) := by
  obtain ⟨gs, g1, g2⟩ := C20_lz77_greedy naiveSufsort naiveSufsort_sorts [97, 98] (by simp) (by decide)
  have hz : ∀ fs, GreedyLz [97, 98] 0 fs → fs.length = 2 := by
    intro fs hfs
    rw [GreedyLz_length_unique hfs g2]
    have : countZFactors naiveSufsort [97, 98] = .ok [⟨97, 0⟩, ⟨98, 0⟩] := by decide
    rw [this] at g1
    cases g1
    rfl
  have hb : IsMatrixBwt ([97, 98, 0] : List UInt8) [98, 0, 97] := by
    obtain ⟨c, h1, h2⟩ := naive_isMatrixBwt ([97, 98, 0] : List UInt8)
    have h3 : bwtByMatrixNaive ([97, 98, 0] : List UInt8) = .ok [98, 0, 97] := by decide
    rw [h3] at h1
    cases h1
    exact h2
  have hr0 : IsRuns [(98, 1), (0, 1), (97, 1)] ([98, 0, 97] : List UInt8) := by
    refine ⟨by decide, by decide, ?_⟩
    simp
  obtain ⟨fs, h1, h2⟩ := C90_row_partial m sufsort hs showF hF "ab.txt" (by decide +kernel) times
    (oneFile "ab.txt" [97, 98]) [97, 98] (by simp [oneFile]) (by simp) (by decide) (by decide) _ hb _ hr0
  rw [h2, hz fs h1]
  refine ⟨rfl, ?_, ?_, hz, ?_⟩
  · show some (decimal 3) = some (ascii "3")
    decide +kernel
  · show some (decimal 2) = some (ascii "2")
    decide +kernel
  intro b rs hb' hrs
  have hbb : b = [98, 0, 97] := map_some_inj ((isMatrixBwt_iff.1 hb').trans (isMatrixBwt_iff.1 hb).symm)
  subst hbb
  have e1 := (C28_number_of_runs (sliceReader [98, 0, 97])).1 rs (by rwa [delivered_slice])
  rw [← e1]
  decide

/-- C90 fails for file names with blanks: the greedy pattern finds the text of the name.  For the file `x length=9 y`
containing `ab`, the length in the table is 9. -/
theorem C90_name_refuted (sufsort : List UInt8 → List Nat) (showF : ℝ → List UInt8) :
    (statsCells .checked sufsort showF "x length=9 y" (fun _ => 0) (oneFile "x length=9 y" [97, 98]))[1]? =
      some (ascii "9") := by
  have e : (statsCells .checked sufsort showF "x length=9 y" (fun _ => 0) (oneFile "x length=9 y" [97, 98]))[1]? =
      some (sed (ascii " length=") isDigit (ascii " ")
        (resultLine (countSigmaOut .checked (some "x length=9 y") 0 [] 0 (oneFile "x length=9 y" [97, 98])))) := rfl
  rw [e]
  decide +kernel

/-! ## Instances: the file `ab.txt` with `ab` -/

theorem ab_contains : Contains (some "ab.txt") [] (oneFile "ab.txt" [97, 98]) [97, 98] := by simp [Contains, oneFile]

theorem ab_plain : PlainName (some "ab.txt") := by
  rintro n ⟨⟩
  decide +kernel

theorem ab_bwt : IsMatrixBwt ([97, 98] ++ [0] : List UInt8) [98, 0, 97] :=
  ⟨[[0, 97, 98], [97, 98, 0], [98, 0, 97]], ⟨by decide +kernel, by decide +kernel⟩, by decide⟩

theorem ab_runs : IsRuns [(98, 1), (0, 1), (97, 1)] ([98, 0, 97] : List UInt8) := ⟨by decide, by decide, by decide⟩

example := C89_count_sigma_partial .checked (some "ab.txt") [] _ _ ab_contains (by decide) ab_plain (by decide) 7
example := C89_count_r_partial naiveSufsort naiveSufsort_sorts (some "ab.txt") [] _ _ ab_contains (by decide) (by decide) ab_plain 7
  _ ab_bwt _ ab_runs
example := C89_count_z_partial naiveSufsort naiveSufsort_sorts (some "ab.txt") [] _ _ ab_contains (by decide) (by decide) ab_plain 7
example := C89_count_lexparse_partial naiveSufsort naiveSufsort_sorts (some "ab.txt") [] _ _ ab_contains (by decide) (by decide)
  ab_plain 7
example := C89_lyndonfactorization_partial (some "ab.txt") [] _ _ ab_contains (by decide) (by decide) ab_plain 7 [[97, 98]]
  ⟨by decide, by decide, by decide⟩
example := C89_entropy_partial naiveSufsort naiveSufsort_sorts (fun _ => ascii "0.5") (fun _ => by decide) (some "ab.txt") [] _ _
  ab_contains (by decide) (by decide) (by decide) ab_plain 1 7 _ rfl
example := C89_mus_refuted naiveSufsort none [97, 97, 98] (oneFile "ab.txt" []) [97, 97, 98] rfl (by decide) (fun n hn => by cases hn) 7
  0 2 [] (by decide)
example := C90_row_partial .checked naiveSufsort naiveSufsort_sorts (fun _ => ascii "0.5") (fun _ _ => by decide) "ab.txt"
  (ab_plain _ rfl) id _ [97, 98] ab_contains (by decide) (by decide) (by decide) _ ab_bwt _ ab_runs
example := C90_columns_refuted .checked naiveSufsort naiveSufsort_sorts (fun _ => ascii "0.5") (fun _ _ => by decide) id

end Verif.Props
