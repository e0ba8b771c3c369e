import Verif.Props.CliOrder
import Verif.Lemmas.Release
import Verif.Props.BwtMore
import Verif.Props.Generators
import Verif.Props.Mus
import Verif.Props.LyndonFile
import Verif.Props.ResultLines
import Verif.Spec.Settings

/-! # C108: every command, from its command line to its effects -/

namespace Verif.Props

open Verif Spec Spec.Cli Model Model.Cli

/-- The text a tool works on: the first `p` bytes (all of them if `p = 0`) of the input file or of the standard input; the
standard input must have that many. -/
def Input (inn : Option String) (p : Nat) (stdin : List UInt8) (w : World) (t : List UInt8) : Prop :=
  match inn with
  | some n => ∃ c, w.files n = some c ∧ c.length < 2 ^ 64 ∧ t = if p = 0 then c else c.take p
  | none => p ≤ stdin.length ∧ t = if p = 0 then stdin else stdin.take p

/-- From `w` to `w'`, `line` was printed, and `c` was written into the output file if there is one; nothing else changed. -/
def PrintedWrote (w : World) (line : List UInt8) (out : Option String) (c : List UInt8) (w' : World) : Prop :=
  w'.stdout = w.stdout ++ line ∧
  match out with
  | none => w'.files = w.files
  | some o => w'.files o = some c ∧ ∀ n, n ≠ o → w'.files n = w.files n

/-- From `w` to `w'`, `c` was written into the output file, or to the standard output if there is none. -/
def Emitted (w : World) (out : Option String) (c : List UInt8) (w' : World) : Prop :=
  match out with
  | none => Printed w c w'
  | some o => Wrote w o c w'

theorem readVector_input {inn : Option String} {p : Nat} {stdin : List UInt8} {w : World} {t : List UInt8}
    (h : Input inn p stdin w t) : readVector inn p stdin w = .ok t := by
  cases inn with
  | some n =>
    obtain ⟨c, h1, h2, rfl⟩ := h
    exact readVector_file h1 p stdin h2
  | none =>
    obtain ⟨h1, rfl⟩ := h
    obtain ⟨a, -, c⟩ := C53_stdin_prefix stdin p
    by_cases hp : p = 0
    · subst hp; exact (C53_stdin_prefix stdin 0).2.2
    · rw [if_neg hp]; exact a (by omega) h1

theorem strIs_eq {t : Tool} (ht : t ∈ tools) (hr : t ≠ rleArgs) {argv : List (List Char)} {occ : List (Field × Val)}
    (h : Line t argv occ) (o : Opt) (ho : o ∈ t.opts) (ha : o.action = .set .str) {x : Option String}
    (hx : StrIs occ o.field x) : getStr occ o.field = x := by
  have F := (C101_fields ht hr h o ho).1 ha
  cases x with
  | some s => exact (F s).2 hx
  | none =>
    cases hg : getStr occ o.field with
    | none => rfl
    | some s => exact absurd ((F s).1 hg) (hx _)

theorem numIs_eq {t : Tool} (ht : t ∈ tools) (hr : t ≠ rleArgs) {argv : List (List Char)} {occ : List (Field × Val)}
    (h : Line t argv occ) (o : Opt) (ho : o ∈ t.opts) (ha : o.action = .set .usize ∨ o.action = .set .u8) {d n : Nat}
    (hx : NumIs occ o.field d n) : getNum occ o.field d = n := by
  have F := (C101_fields ht hr h o ho).2.1 ha d
  rcases hx with hx | ⟨hx, rfl⟩
  · exact (F.1 n hx).1
  · exact F.2 hx

theorem flagIs_eq {t : Tool} (ht : t ∈ tools) (hr : t ≠ rleArgs) {argv : List (List Char)} {occ : List (Field × Val)}
    (h : Line t argv occ) (o : Opt) (ho : o ∈ t.opts) (ha : o.action = .setTrue) {b : Bool}
    (hx : FlagIs occ o.field b) : getFlag occ o.field = b := by
  have F := (C101_fields ht hr h o ho).2.2.1 ha
  rw [Bool.eq_iff_iff, F]
  exact hx.symm

theorem numsAre_eq {t : Tool} (ht : t ∈ tools) (hr : t ≠ rleArgs) {argv : List (List Char)} {occ : List (Field × Val)}
    (h : Line t argv occ) (o : Opt) (ho : o ∈ t.opts) (ha : o.action = .append .u8 ∨ o.action = .appendMany .u64)
    {ns : List Nat} (hx : NumsAre occ o.field ns) : getNums occ o.field = ns := by
  have F := (C101_fields ht hr h o ho).2.2.2.1 ha
  exact List.map_injective_iff.2 (fun a b hab => by cases hab; rfl) (F.trans hx)

theorem tool_ne {t : Tool} (h : t.opts ≠ rleArgs.opts) : t ≠ rleArgs := fun e => h (congrArg Tool.opts e)

theorem printLine_ok {o : Res (List UInt8)} {l : List UInt8} (h : o = .ok l) (w : World) :
    ∃ w', printLine o w = (w', .ok 0) ∧ Printed w l w' := by
  subst h
  exact ⟨{ w with stdout := w.stdout ++ l }, rfl, rfl, rfl⟩

theorem lineThenFactors {E : Env} {factorize : List UInt8 → Res (List LZFactor)} {line : Res (List UInt8)}
    {l : List UInt8} {inn out : Option String} {p : Nat} {w : World} {t : List UInt8} {fs : List LZFactor}
    (hl : line = .ok l) (hin : Input inn p (delivered E.stdin) w t) (hc : ∀ o, out = some o → E.creatable o = true)
    (hf : factorize t = .ok fs) :
    ∃ w', lineThenFile line (factorMain E.creatable factorize inn out p (delivered E.stdin)) w = (w', .ok 0) ∧
      PrintedWrote w l out (factorBytes fs) w' := by
  subst hl
  have hin' : Input inn p (delivered E.stdin) { w with stdout := w.stdout ++ l } t := by cases inn <;> exact hin
  cases out with
  | none =>
    refine ⟨{ w with stdout := w.stdout ++ l }, ?_, rfl, rfl⟩
    simp only [lineThenFile, factorMain, readVector_input hin', hf, finish]
    rfl
  | some o =>
    obtain ⟨a, b, c⟩ := writeOut_some (w := { w with stdout := w.stdout ++ l }) (o := o) (c := factorBytes fs)
    refine ⟨_, ?_, a, b, c⟩
    simp only [lineThenFile, factorMain, readVector_input hin', hf, openOut, hc o rfl, if_true, finish]
    rfl

/-! ## tools that print a line -/

/-- C108: `count_runs` prints the number of maximal runs of its input. -/
theorem C108_count_runs (E : Env) (argv : List (List Char)) (occ : List (Field × Val)) (h : Line countRunsArgs argv occ)
    (inn : Option String) (hi : StrIs occ .infilename inn) (w : World) (t : List UInt8)
    (hin : Contains inn (delivered E.stdin) w t) (rs : List (UInt8 × Nat)) (hrs : IsRuns rs t) :
    ∃ w', countRunsCmd E.m E.usage argv E.stdin w = (w', .ok 0) ∧ Printed w (decimal rs.length ++ [10]) w' := by
  have ht : countRunsArgs ∈ tools := by simp [tools]
  have hr : countRunsArgs ≠ rleArgs := tool_ne (by decide +kernel)
  have h1 := strIs_eq ht hr h optIn (by simp [countRunsArgs]) rfl hi
  have h1' : getStr occ .infilename = inn := h1
  have key : countRunsMain inn E.stdin w = .ok rs.length := by
    cases inn with
    | none =>
      have hin' : delivered E.stdin = t := hin
      have := (C28_number_of_runs E.stdin).1 rs (by rw [hin']; exact hrs)
      simp only [countRunsMain, openIn, readIn, this]
    | some n => exact C71_count_runs n E.stdin w t hin rs hrs
  refine ⟨{ w with stdout := w.stdout ++ (decimal rs.length ++ [10]) }, ?_, rfl, rfl⟩
  unfold countRunsCmd
  rw [run_of_line ht hr h]
  simp only [h1', key]
  rfl

/-- C108: `count_sigma` prints the length of the text and its number of distinct bytes (if these are not all 256). -/
theorem C108_count_sigma (E : Env) (argv : List (List Char)) (occ : List (Field × Val)) (h : Line countSigmaArgs argv occ)
    (inn : Option String) (hi : StrIs occ .infilename inn) (p : Nat) (hp : NumIs occ .prefixlength 0 p) (w : World)
    (t : List UInt8) (hin : Input inn p (delivered E.stdin) w t) (hname : PlainName inn) (hsig : t.toFinset.card < 256) :
    ∃ w' line, countSigmaCmd E.m E.usage E.time argv (delivered E.stdin) w = (w', .ok 0) ∧ Printed w line w' ∧
      resultFields line = some
        [(ascii "algo", ascii "count_sigma"), (ascii "time_ms", decimal E.time), (ascii "length", decimal t.length),
          (ascii "sigma", decimal t.toFinset.card), (ascii "file", printedName inn)] := by
  have ht : countSigmaArgs ∈ tools := by simp [tools]
  have hr : countSigmaArgs ≠ rleArgs := tool_ne (by decide +kernel)
  have h1 : getStr occ .infilename = inn := strIs_eq ht hr h optIn (by simp [countSigmaArgs]) rfl hi
  have h2 : getNum occ .prefixlength 0 = p := numIs_eq ht hr h optPrefix (by simp [countSigmaArgs]) (Or.inl rfl) hp
  obtain ⟨s, e1, e2⟩ := C29_count_sigma_partial E.m t hsig
  have key : countSigmaOut E.m inn p (delivered E.stdin) E.time w = .ok (countSigmaLine inn E.time t.length s) := by
    rw [countSigmaOut, countSigmaMain, readVector_input hin, ok_bind, e1]
    rfl
  refine ⟨{ w with stdout := w.stdout ++ countSigmaLine inn E.time t.length s }, _, ?_, ⟨rfl, rfl⟩,
    e2 ▸ countSigmaLine_fields hname E.time t.length s⟩
  unfold countSigmaCmd
  rw [run_of_line ht hr h]
  simp only [h1, h2, key]
  rfl

/-- C108: `count_r` prints the number of runs of the transform of the text, with the sentinel unless `--no-dollar`; for the
combinations of the flags in which the tool computes that transform (the others are in C16). -/
theorem C108_count_r (E : Env) (hs : SortsSuffixes E.sufsort) (argv : List (List Char)) (occ : List (Field × Val))
    (h : Line countRArgs argv occ)
    (inn : Option String) (hi : StrIs occ .infilename inn) (p : Nat) (hp : NumIs occ .prefixlength 0 p)
    (useMatrix noDollar : Bool) (hu : FlagIs occ .useMatrix useMatrix) (hn : FlagIs occ .noDollar noDollar) (w : World)
    (t : List UInt8) (hin : Input inn p (delivered E.stdin) w t) (hname : PlainName inn)
    (hne : t ≠ []) (h0 : ∀ x ∈ t, x ≠ 0) (hlen : t.length < 2147483646)
    (hflags : useMatrix = noDollar ∨ (useMatrix = true ∧ t.length < 99))
    (b : List UInt8) (hb : IsMatrixBwt (if noDollar then t else t ++ [0]) b) (rs : List (UInt8 × Nat)) (hrs : IsRuns rs b) :
    ∃ w' line, countRCmd E.m E.usage E.sufsort E.time argv (delivered E.stdin) w = (w', .ok 0) ∧ Printed w line w' ∧
      resultFields line = some
        [(ascii "algo", ascii "bwt"), (ascii "time_ms", decimal E.time),
          (ascii "length", decimal (if noDollar then t.length else t.length + 1)),
          (ascii "bwt_runs", decimal rs.length), (ascii "file", printedName inn),
          (ascii "no_dollar", if noDollar then ascii "true" else ascii "false"),
          (ascii "use_matrix", if useMatrix then ascii "true" else ascii "false")] := by
  have ht : countRArgs ∈ tools := by simp [tools]
  have hr : countRArgs ≠ rleArgs := tool_ne (by decide +kernel)
  have h1 : getStr occ .infilename = inn := strIs_eq ht hr h optIn (by simp [countRArgs]) rfl hi
  have h2 : getNum occ .prefixlength 0 = p := numIs_eq ht hr h optPrefix (by simp [countRArgs]) (Or.inl rfl) hp
  have h3 : getFlag occ .useMatrix = useMatrix := flagIs_eq ht hr h optMatrix (by simp [countRArgs]) rfl hu
  have h4 : getFlag occ .noDollar = noDollar := flagIs_eq ht hr h optNoDollar (by simp [countRArgs]) rfl hn
  obtain ⟨b', e1, e2, e3⟩ := C16_tools_partial E.sufsort hs useMatrix noDollar t hne h0 hlen hflags
  have hbb : b' = b := map_some_inj ((isMatrixBwt_iff.1 e2).trans (isMatrixBwt_iff.1 hb).symm)
  subst hbb
  have hruns : numberOfRuns (sliceReader b') = rs.length :=
    (C28_number_of_runs (sliceReader b')).1 rs (by rwa [delivered_slice])
  have hl : (if noDollar then t else t ++ [0]).length = if noDollar then t.length else t.length + 1 := by
    cases noDollar <;> simp
  have key : countROut E.sufsort useMatrix noDollar inn p (delivered E.stdin) E.time w =
      .ok (countRLine inn useMatrix noDollar E.time (if noDollar then t.length else t.length + 1) rs.length) := by
    rw [countROut, readVector_input hin, ok_bind, e3, hruns, hl]
    rfl
  obtain ⟨w', f1, f2⟩ := printLine_ok key w
  refine ⟨w', _, ?_, f2, countRLine_fields hname useMatrix noDollar E.time _ rs.length⟩
  unfold countRCmd
  rw [run_of_line ht hr h]
  simp only [h1, h2, h3, h4]
  exact f1

/-- C108: `entropy` prints the empirical entropy of the order given (0 if none is) of the text with its sentinel. -/
theorem C108_entropy (E : Env) (hs : SortsSuffixes E.sufsort) (hF : ∀ x, ∀ c ∈ E.showF x, isBlank c = false)
    (argv : List (List Char)) (occ : List (Field × Val)) (h : Line entropyArgs argv occ)
    (inn : Option String) (hi : StrIs occ .infilename inn) (p : Nat) (hp : NumIs occ .prefixlength 0 p)
    (order : Nat) (ho : NumIs occ .order 0 order) (w : World)
    (t : List UInt8) (hin : Input inn p (delivered E.stdin) w t) (hname : PlainName inn)
    (hne : t ≠ []) (h0 : ∀ x ∈ t, x ≠ 0) (hlen : t.length < 2147483647) (H : ℝ)
    (hH : H = if order = 0 then zeroOrder (t ++ [0]) else kthOrder (t ++ [0]) order) :
    (∃ w' line, entropyCmd E.m E.usage E.sufsort E.showF E.time argv (delivered E.stdin) w = (w', .ok 0) ∧
      Printed w line w' ∧ resultFields line = some
        [(ascii "algo", ascii "count_entropy"), (ascii "order", decimal order), (ascii "time_ms", decimal E.time),
          (ascii "length", decimal (t.length + 1)), (ascii "entropy", E.showF H), (ascii "input", printedName inn)]) ∧
    (1 ≤ order → order ≤ 7 → order ≤ t.length + 1 →
      ∃ w' line, entropyKmerCmd E.m E.usage E.showF E.time argv (delivered E.stdin) w = (w', .ok 0) ∧
        Printed w line w' ∧ resultFields line = some
          [(ascii "algo", ascii "count_entropy_hash"), (ascii "order", decimal order), (ascii "time_ms", decimal E.time),
            (ascii "length", decimal (t.length + 1)), (ascii "entropy", E.showF H), (ascii "input", printedName inn)]) := by
  have ht : entropyArgs ∈ tools := by simp [tools]
  have hr : entropyArgs ≠ rleArgs := tool_ne (by decide +kernel)
  have h1 : getStr occ .infilename = inn := strIs_eq ht hr h optIn (by simp [entropyArgs]) rfl hi
  have h2 : getNum occ .prefixlength 0 = p := numIs_eq ht hr h optPrefix (by simp [entropyArgs]) (Or.inl rfl) hp
  have h3 : getNum occ .order 0 = order := numIs_eq ht hr h optOrder (by simp [entropyArgs]) (Or.inl rfl) ho
  have hrd := readVector_input hin
  constructor
  · have key : entropyOut E.sufsort E.showF order inn p (delivered E.stdin) E.time w =
        .ok (entropyLine (ascii "count_entropy") E.showF inn order E.time (t.length + 1) H) := by
      rw [entropyOut, entropyMain, hrd, ok_bind]
      by_cases hk : order = 0
      · rw [if_pos hk, C26_zero_order _ (by simp)]
        simp [pure_ok, hH, hk]
      · rw [if_neg hk, C26_kth_order E.sufsort hs t hne h0 hlen order (by omega)]
        simp [pure_ok, hH, hk]
    obtain ⟨w', e1, e2⟩ := printLine_ok key w
    refine ⟨w', _, ?_, e2, entropyLine_fields hname (by decide +kernel) (hF H) order E.time (t.length + 1)⟩
    unfold entropyCmd
    rw [run_of_line ht hr h]
    simp only [h1, h2, h3]
    exact e1
  · intro k1 k7 kl
    have key : entropyKmerOut E.showF order inn p (delivered E.stdin) E.time w =
        .ok (entropyLine (ascii "count_entropy_hash") E.showF inn order E.time (t.length + 1) H) := by
      obtain ⟨x, -, e2, e3⟩ := C27_tools_agree E.sufsort hs t hne h0 hlen order k1 k7 (by simpa using kl)
      have e : H = x := by rw [hH, if_neg (by omega), e3]
      rw [entropyKmerOut, entropyKmerMain, assertR, if_pos (by simp; omega), ok_bind, assertR,
        if_pos (by simpa using k7), ok_bind, hrd, ok_bind]
      simp only [e2, ok_bind, pure_ok, e, List.length_append, List.length_singleton]
    obtain ⟨w', e1, e2⟩ := printLine_ok key w
    refine ⟨w', _, ?_, e2, entropyLine_fields hname (by decide +kernel) (hF H) order E.time (t.length + 1)⟩
    unfold entropyKmerCmd
    rw [run_of_line ht hr h]
    simp only [h1, h2, h3]
    exact e1

/-- C108: `mus` prints the minimal unique substrings of the text, if it ends with a sentinel: one pair of position and
length for each, from left to right. -/
theorem C108_mus (E : Env) (hs : SortsSuffixes E.sufsort) (argv : List (List Char)) (occ : List (Field × Val))
    (h : Line musArgs argv occ)
    (inn : Option String) (hi : StrIs occ .infilename inn) (p : Nat) (hp : NumIs occ .prefixlength 0 p) (w : World)
    (t : List UInt8) (hin : Input inn p (delivered E.stdin) w (t ++ [0])) (h0 : ∀ x ∈ t, x ≠ 0)
    (hlen : t.length < 2147483647) :
    ∃ (w' : World) (ms : List (Nat × Nat)), musCmd E.m E.usage E.sufsort E.time argv (delivered E.stdin) w = (w', .ok 0) ∧
      Printed w (ascii "RESULT file=" ++ printedName inn ++ ascii " length=" ++ decimal (t.length + 1) ++
        ascii "  time_ms=" ++ decimal E.time ++ ascii " mus=[" ++
        List.intercalate (ascii ", ") (ms.map fun m => ascii "(" ++ decimal m.1 ++ ascii ", " ++ decimal m.2 ++ ascii ")") ++
        ascii "]\n") w' ∧
      ms.Pairwise (fun a b => a.1 < b.1) ∧ ∀ i l, (i, l) ∈ ms ↔ IsMus t i l := by
  have ht : musArgs ∈ tools := by simp [tools]
  have hr : musArgs ≠ rleArgs := tool_ne (by decide +kernel)
  have h1 : getStr occ .infilename = inn := strIs_eq ht hr h optIn (by simp [musArgs]) rfl hi
  have h2 : getNum occ .prefixlength 0 = p := numIs_eq ht hr h optPrefix (by simp [musArgs]) (Or.inl rfl) hp
  obtain ⟨isa, phi, plcp, lcp, ms, a1, a2, a3, a4, a5, a6, a7⟩ := C23_get_mus_exact E.sufsort hs t h0 hlen
  have hm : musTool E.sufsort (t ++ [0]) = .ok ms := by
    simp only [musTool, a1, a2, a3, a4, ok_bind]
    exact a5
  have key : musOut E.sufsort inn p (delivered E.stdin) E.time w =
      .ok (ascii "RESULT file=" ++ printedName inn ++ ascii " length=" ++ decimal (t.length + 1) ++
        ascii "  time_ms=" ++ decimal E.time ++ ascii " mus=[" ++
        List.intercalate (ascii ", ") (ms.map fun m => ascii "(" ++ decimal m.1 ++ ascii ", " ++ decimal m.2 ++ ascii ")") ++
        ascii "]\n") := by
    rw [musOut, readVector_input hin, ok_bind, hm, ok_bind, printedName_eq, pure_ok]
    have e1 : ascii " " ++ ascii " time_ms=" = ascii "  time_ms=" := by decide +kernel
    have e2 : ascii "]" ++ [10] = ascii "]\n" := by decide +kernel
    have e3 : ascii " mus=" ++ ascii "[" = ascii " mus=[" := by decide +kernel
    rw [← e1, ← e2, ← e3, show (fun m : Nat × Nat => ascii "(" ++ decimal m.1 ++ ascii ", " ++ decimal m.2 ++ ascii ")") =
      showPair from rfl]
    simp only [showPairs, List.append_assoc, List.length_append, List.length_singleton]
  obtain ⟨w', e1, e2⟩ := printLine_ok key w
  refine ⟨w', ms, ?_, e2, a6, a7⟩
  unfold musCmd
  rw [run_of_line ht hr h]
  simp only [h1, h2]
  exact e1

/-! ## tools that print a line and write a file -/

/-- C108: `count_z` prints the number of factors of the greedy parse of the text, and writes these into the output file. -/
theorem C108_count_z (E : Env) (hs : SortsSuffixes E.sufsort) (argv : List (List Char)) (occ : List (Field × Val))
    (h : Line countZArgs argv occ) (inn out : Option String) (hi : StrIs occ .infilename inn)
    (ho : StrIs occ .outfilename out) (p : Nat) (hp : NumIs occ .prefixlength 0 p) (w : World)
    (t : List UInt8) (hin : Input inn p (delivered E.stdin) w t) (hname : PlainName inn)
    (hc : ∀ o, out = some o → E.creatable o = true) (hne : t ≠ []) (hlen : t.length < 2147483648) :
    ∃ w' line fs, countZCmd E.m E.usage E.creatable E.sufsort E.time argv (delivered E.stdin) w = (w', .ok 0) ∧
      GreedyLz t 0 fs ∧
      PrintedWrote w line out
        (fs.flatMap fun f => ascii "(" ++ decimal f.pos ++ ascii "," ++ decimal f.len ++ ascii ")") w' ∧
      resultFields line = some
        [(ascii "file", printedName inn), (ascii "length", decimal t.length), (ascii "algo", ascii "lz77"),
          (ascii "time_ms", decimal E.time), (ascii "factors", decimal fs.length)] := by
  have ht : countZArgs ∈ tools := by simp [tools]
  have hr : countZArgs ≠ rleArgs := tool_ne (by decide +kernel)
  have h1 : getStr occ .infilename = inn := strIs_eq ht hr h optIn (by simp [countZArgs]) rfl hi
  have h2 : getNum occ .prefixlength 0 = p := numIs_eq ht hr h optPrefix (by simp [countZArgs]) (Or.inl rfl) hp
  have h3 : getStr occ .outfilename = out := strIs_eq ht hr h optOut (by simp [countZArgs]) rfl ho
  obtain ⟨fs, e1, e2⟩ := C20_lz77_greedy E.sufsort hs t hne hlen
  have key : countZOut E.sufsort inn p (delivered E.stdin) E.time w =
      .ok (factorLine (ascii "lz77") inn E.time t.length fs.length) := by
    rw [countZOut, readVector_input hin, ok_bind, e1]
    rfl
  obtain ⟨w', g1, g2⟩ := lineThenFactors (E := E) (w := w) (factorize := countZFactors E.sufsort) key hin hc e1
  refine ⟨w', _, fs, ?_, e2, g2, factorLine_fields hname (by decide +kernel) E.time t.length fs.length⟩
  unfold countZCmd
  rw [run_of_line ht hr h]
  simp only [h1, h2, h3]
  exact g1

/-- C108: `count_lexparse` prints the number of factors of a lex-parse of the text, and writes these into the output
file. -/
theorem C108_count_lexparse (E : Env) (hs : SortsSuffixes E.sufsort) (argv : List (List Char))
    (occ : List (Field × Val))
    (h : Line countLexparseArgs argv occ) (inn out : Option String) (hi : StrIs occ .infilename inn)
    (ho : StrIs occ .outfilename out) (p : Nat) (hp : NumIs occ .prefixlength 0 p) (w : World)
    (t : List UInt8) (hin : Input inn p (delivered E.stdin) w t) (hname : PlainName inn)
    (hc : ∀ o, out = some o → E.creatable o = true) (hne : t ≠ []) (hlen : t.length < 2147483648) :
    ∃ w' line fs, countLexparseCmd E.m E.usage E.creatable E.sufsort E.time argv (delivered E.stdin) w = (w', .ok 0) ∧
      (fs.map factorLength).sum = t.length ∧ Satisfies t 0 fs ∧
      PrintedWrote w line out
        (fs.flatMap fun f => ascii "(" ++ decimal f.pos ++ ascii "," ++ decimal f.len ++ ascii ")") w' ∧
      resultFields line = some
        [(ascii "file", printedName inn), (ascii "length", decimal t.length), (ascii "algo", ascii "lexparse"),
          (ascii "time_ms", decimal E.time), (ascii "factors", decimal fs.length)] := by
  have ht : countLexparseArgs ∈ tools := by simp [tools]
  have hr : countLexparseArgs ≠ rleArgs := tool_ne (by decide +kernel)
  have h1 : getStr occ .infilename = inn := strIs_eq ht hr h optIn (by simp [countLexparseArgs]) rfl hi
  have h2 : getNum occ .prefixlength 0 = p := numIs_eq ht hr h optPrefix (by simp [countLexparseArgs]) (Or.inl rfl) hp
  have h3 : getStr occ .outfilename = out := strIs_eq ht hr h optOut (by simp [countLexparseArgs]) rfl ho
  obtain ⟨fs, e1, e2, e3, -⟩ := C22_lexparse_partial E.sufsort hs t hne hlen
  have key : countLexparseOut E.sufsort inn p (delivered E.stdin) E.time w =
      .ok (factorLine (ascii "lexparse") inn E.time t.length fs.length) := by
    rw [countLexparseOut, readVector_input hin, ok_bind, e1]
    rfl
  obtain ⟨w', g1, g2⟩ := lineThenFactors (E := E) (w := w) (factorize := countLexparseFactors E.sufsort) key hin hc e1
  refine ⟨w', _, fs, ?_, e2, e3, g2, factorLine_fields hname (by decide +kernel) E.time t.length fs.length⟩
  unfold countLexparseCmd
  rw [run_of_line ht hr h]
  simp only [h1, h2, h3]
  exact g1

/-- C108: `lyndonfactorization` prints the number of Lyndon factors of the text (but the prefix length as `length=`, C78),
and writes the report on the factors (C55, C77) into the output file. -/
theorem C108_lyndonfactorization (E : Env) (argv : List (List Char)) (occ : List (Field × Val))
    (h : Line lyndonfactorizationArgs argv occ) (inn out : Option String) (hi : StrIs occ .infilename inn)
    (ho : StrIs occ .outfilename out) (p : Nat) (hp : NumIs occ .prefixlength 0 p) (w : World)
    (t : List UInt8) (hin : Input inn p (delivered E.stdin) w t) (hname : PlainName inn)
    (hc : ∀ o, out = some o → E.creatable o = true) (hne : t ≠ []) :
    ∃ w' line f fs, lyndonfactorizationCmd E.m E.usage E.creatable E.time argv (delivered E.stdin) w = (w', .ok 0) ∧
      IsLyndonFactorization (f :: fs) t ∧ PrintedWrote w line out (report f fs) w' ∧
      resultFields line = some
        [(ascii "file", printedName inn), (ascii "length", decimal p), (ascii "algo", ascii "duval"),
          (ascii "time_ms", decimal E.time), (ascii "factors", decimal (fs.length + 1))] := by
  have ht : lyndonfactorizationArgs ∈ tools := by simp [tools]
  have hr : lyndonfactorizationArgs ≠ rleArgs := tool_ne (by decide +kernel)
  have h1 : getStr occ .infilename = inn := strIs_eq ht hr h optIn (by simp [lyndonfactorizationArgs]) rfl hi
  have h2 : getNum occ .prefixlength 0 = p :=
    numIs_eq ht hr h optPrefix (by simp [lyndonfactorizationArgs]) (Or.inl rfl) hp
  have h3 : getStr occ .outfilename = out := strIs_eq ht hr h optOut (by simp [lyndonfactorizationArgs]) rfl ho
  obtain ⟨f, fs, e1, e2⟩ := C55_lyndon_report t hne
  have key : lyndonfactorizationOut inn p (delivered E.stdin) E.time w =
      .ok (factorLine (ascii "duval") inn E.time p (fs.length + 1)) := by
    rw [lyndonfactorizationOut, readVector_input hin, ok_bind, e2]
    rfl
  have hw : ∀ l, ∃ w', finish (lyndonfactorizationFiles E.creatable inn out p (delivered E.stdin)
      { w with stdout := w.stdout ++ l }) = (w', .ok 0) ∧ PrintedWrote w l out (report f fs) w' := by
    intro l
    have hin' : Input inn p (delivered E.stdin) { w with stdout := w.stdout ++ l } t := by cases inn <;> exact hin
    cases out with
    | none =>
      refine ⟨{ w with stdout := w.stdout ++ l }, ?_, rfl, rfl⟩
      simp only [lyndonfactorizationFiles, readVector_input hin', e2, finish]
      rfl
    | some o =>
      obtain ⟨a, b, c⟩ := writeOut_some (w := { w with stdout := w.stdout ++ l }) (o := o) (c := report f fs)
      refine ⟨_, ?_, a, b, c⟩
      simp only [lyndonfactorizationFiles, readVector_input hin', e2, openOut, hc o rfl, if_true, finish]
      rfl
  obtain ⟨w', g1, g2⟩ := hw (factorLine (ascii "duval") inn E.time p (fs.length + 1))
  refine ⟨w', _, f, fs, ?_, e1, g2, factorLine_fields hname (by decide +kernel) E.time p (fs.length + 1)⟩
  unfold lyndonfactorizationCmd
  rw [run_of_line ht hr h]
  simp only [h1, h2, h3, lineThenFile, key]
  exact g1

/-! ## tools that write a file, or to the standard output -/

theorem openOut_ok {creatable : String → Bool} {out : Option String} (hc : ∀ o, out = some o → creatable o = true)
    (w : World) (c : List UInt8) : ∃ w1, openOut creatable out w = .ok w1 ∧ Emitted w out c (writeOut out c w1) := by
  cases out with
  | none => exact ⟨w, rfl, rfl, rfl⟩
  | some o =>
    refine ⟨w.set o [], ?_, writeOut_some⟩
    simp [openOut, hc o rfl]

theorem input_openOut {creatable : String → Bool} {inn out : Option String} {w w1 : World}
    (h : openOut creatable out w = .ok w1) (hio : ∀ o, out = some o → inn ≠ some o) {p : Nat} {stdin t : List UInt8}
    (hin : Input inn p stdin w t) : Input inn p stdin w1 t := by
  cases out with
  | none =>
    simp only [openOut] at h
    cases h; exact hin
  | some o =>
    have hw : w1 = w.set o [] := by
      unfold openOut at h
      simp only at h
      split at h
      · cases h; rfl
      · cases h
    subst hw
    cases inn with
    | none => exact hin
    | some n =>
      obtain ⟨c, h1, h2⟩ := hin
      have hno : n ≠ o := fun e => hio o rfl (by rw [e])
      exact ⟨c, by simp [World.set, hno, h1], h2⟩

/-- C108: `reverse` writes the text reversed. -/
theorem C108_reverse (E : Env) (argv : List (List Char)) (occ : List (Field × Val)) (h : Line reverseArgs argv occ)
    (inn out : Option String) (hi : StrIs occ .infilename inn) (ho : StrIs occ .outfilename out) (p : Nat)
    (hp : NumIs occ .prefixlength 0 p) (w : World) (t : List UInt8) (hin : Input inn p (delivered E.stdin) w t)
    (hc : ∀ o, out = some o → E.creatable o = true) (hio : ∀ o, out = some o → inn ≠ some o) :
    ∃ w', reverseCmd E.m E.usage E.creatable argv (delivered E.stdin) w = (w', .ok 0) ∧ Emitted w out t.reverse w' := by
  have ht : reverseArgs ∈ tools := by simp [tools]
  have hr : reverseArgs ≠ rleArgs := tool_ne (by decide +kernel)
  have h1 : getStr occ .infilename = inn := strIs_eq ht hr h optIn (by simp [reverseArgs]) rfl hi
  have h2 : getNum occ .prefixlength 0 = p := numIs_eq ht hr h optPrefix (by simp [reverseArgs]) (Or.inl rfl) hp
  have h3 : getStr occ .outfilename = out := strIs_eq ht hr h optOut (by simp [reverseArgs]) rfl ho
  obtain ⟨w1, e1, e2⟩ := openOut_ok hc w t.reverse
  refine ⟨_, ?_, e2⟩
  unfold reverseCmd
  rw [run_of_line ht hr h]
  simp only [h1, h2, h3, reverseMainFs, e1, readVector_input (input_openOut e1 hio hin), finish]
  rfl

/-- C108: `bwt` writes the transform of the text, with the sentinel unless `--no-dollar`; for the combinations of the flags
in which the tool computes that transform (the others are in C16).  The output may be the input file. -/
theorem C108_bwt (E : Env) (hs : SortsSuffixes E.sufsort) (argv : List (List Char)) (occ : List (Field × Val))
    (h : Line bwtArgs argv occ) (inn out : Option String) (hi : StrIs occ .infilename inn)
    (ho : StrIs occ .outfilename out) (p : Nat)
    (hp : NumIs occ .prefixlength 0 p)
    (useMatrix noDollar : Bool) (hu : FlagIs occ .useMatrix useMatrix) (hn : FlagIs occ .noDollar noDollar) (w : World)
    (t : List UInt8) (hin : Input inn p (delivered E.stdin) w t)
    (hc : ∀ o, out = some o → E.creatable o = true)
    (hne : t ≠ []) (h0 : ∀ x ∈ t, x ≠ 0) (hlen : t.length < 2147483646)
    (hflags : useMatrix = noDollar ∨ (useMatrix = true ∧ t.length < 99)) :
    ∃ w' b, bwtCmd E.m E.usage E.creatable E.sufsort argv (delivered E.stdin) w = (w', .ok 0) ∧
      Emitted w out b w' ∧ IsMatrixBwt (if noDollar then t else t ++ [0]) b := by
  have ht : bwtArgs ∈ tools := by simp [tools]
  have hr : bwtArgs ≠ rleArgs := tool_ne (by decide +kernel)
  have h1 : getStr occ .infilename = inn := strIs_eq ht hr h optIn (by simp [bwtArgs]) rfl hi
  have h2 : getNum occ .prefixlength 0 = p := numIs_eq ht hr h optPrefix (by simp [bwtArgs]) (Or.inl rfl) hp
  have h3 : getStr occ .outfilename = out := strIs_eq ht hr h optOut (by simp [bwtArgs]) rfl ho
  have h4 : getFlag occ .useMatrix = useMatrix := flagIs_eq ht hr h optMatrix (by simp [bwtArgs]) rfl hu
  have h5 : getFlag occ .noDollar = noDollar := flagIs_eq ht hr h optNoDollar (by simp [bwtArgs]) rfl hn
  obtain ⟨b, e1, e2, -⟩ := C16_tools_partial E.sufsort hs useMatrix noDollar t hne h0 hlen hflags
  obtain ⟨w1, f1, f2⟩ := openOut_ok hc w b
  refine ⟨_, b, ?_, f2, e2⟩
  unfold bwtCmd
  rw [run_of_line ht hr h]
  simp only [h1, h2, h3, h4, h5, bwtMainFs, readVector_input hin, e1, f1, finish]
  rfl

theorem filter_contains {creatable : String → Bool} {tool : Reader → Out} {inn out : Option String} {stdin : Reader}
    {w : World} {t : List UInt8} (hin : Contains inn (delivered stdin) w t)
    (hc : ∀ o, out = some o → creatable o = true) (hio : ∀ o, out = some o → inn ≠ some o) :
    ∃ w' r, delivered r = t ∧ filterMain creatable tool inn out stdin w = (w', (tool r).2) ∧
      Emitted w out (tool r).1 w' := by
  have key : ∀ w1, openOut creatable out w = .ok w1 → openIn inn w1 = .ok () ∧ delivered (readIn inn stdin w1) = t := by
    intro w1 h1
    cases inn with
    | none => exact ⟨rfl, hin⟩
    | some n =>
      have hn : w1.files n = some t := by
        cases out with
        | none => simp only [openOut] at h1; cases h1; exact hin
        | some o =>
          have hno : n ≠ o := fun e => hio o rfl (by rw [e])
          simp only [openOut, hc o rfl, if_true] at h1
          cases h1
          have hin' : w.files n = some t := hin
          simpa [World.set, hno] using hin'
      exact ⟨by simp [openIn, hn], by simp [readIn, hn, delivered_slice]⟩
  obtain ⟨w1, f1, -⟩ := openOut_ok hc w []
  obtain ⟨k1, k2⟩ := key w1 f1
  obtain ⟨w2, f2, f3⟩ := openOut_ok hc w (tool (readIn inn stdin w1)).1
  rw [f1] at f2
  cases f2
  exact ⟨_, _, k2, by simp only [filterMain, f1, k1], f3⟩

/-- C108: `mtf` writes the ranks from which the input (without byte 255) can be decoded. -/
theorem C108_mtf (E : Env) (argv : List (List Char)) (occ : List (Field × Val)) (h : Line mtfArgs argv occ)
    (inn out : Option String) (hi : StrIs occ .infilename inn) (ho : StrIs occ .outfilename out)
    (w : World) (t : List UInt8) (hin : Contains inn (delivered E.stdin) w t)
    (hc : ∀ o, out = some o → E.creatable o = true) (hio : ∀ o, out = some o → inn ≠ some o) (h255 : ∀ x ∈ t, x ≠ 255) :
    ∃ w' b, mtfCmd E.m E.usage E.creatable argv E.stdin w = (w', .ok 0) ∧ Emitted w out b w' ∧
      mtfDecode allBytes b = t := by
  have ht : mtfArgs ∈ tools := by simp [tools]
  have hr : mtfArgs ≠ rleArgs := tool_ne (by decide +kernel)
  have h1 : getStr occ .infilename = inn := strIs_eq ht hr h optIn (by simp [mtfArgs]) rfl hi
  have h3 : getStr occ .outfilename = out := strIs_eq ht hr h optOut (by simp [mtfArgs]) rfl ho
  obtain ⟨w', r, e1, e2, e3⟩ := filter_contains (tool := mtf) hin hc hio
  obtain ⟨a, -, b⟩ := C30_mtf_lossless_partial r (by rwa [e1])
  refine ⟨w', _, ?_, e3, by rw [b, e1]⟩
  unfold mtfCmd
  rw [run_of_line ht hr h]
  simp only [h1, h3, mtfMain, e2, a, finish]
  rfl

/-- C108: `escape`, then `escape --is-reversion` with the same symbols, restores the file; in between the escaped symbols do
not occur.  (`-p` must be given, and be large enough: C35.) -/
theorem C108_escape (E : Env) (argv argv' : List (List Char)) (occ occ' : List (Field × Val))
    (h : Line escapeArgs argv occ) (h' : Line escapeArgs argv' occ') (i o q : String) (p p' : Nat) (e : UInt8)
    (froms tos : List UInt8)
    (hi : StrIs occ .infilename (some i)) (ho : StrIs occ .outfilename (some o))
    (hi' : StrIs occ' .infilename (some o)) (ho' : StrIs occ' .outfilename (some q))
    (hp : NumIs occ .prefixlength 0 p) (hp' : NumIs occ' .prefixlength 0 p')
    (he : NumIs occ .escapeSymbol 0 e.toNat) (he' : NumIs occ' .escapeSymbol 0 e.toNat)
    (hf : NumsAre occ .fromSymbols (froms.map UInt8.toNat)) (hf' : NumsAre occ' .fromSymbols (froms.map UInt8.toNat))
    (hs : NumsAre occ .toSymbols (tos.map UInt8.toNat)) (hs' : NumsAre occ' .toSymbols (tos.map UInt8.toNat))
    (hv : FlagIs occ .isReversion false) (hv' : FlagIs occ' .isReversion true)
    (w : World) (c : List UInt8) (hw : w.files i = some c) (hcp : c.length ≤ p) (hcp' : c.length ≤ p')
    (hlen : froms.length = tos.length) (hfe : e ∉ froms) (hte : e ∉ tos) (hdisj : ∀ x ∈ froms, x ∉ tos)
    (hnd : tos.Nodup) (hio : i ≠ o) (hoq : o ≠ q) (hco : E.creatable o = true) (hcq : E.creatable q = true) :
    ∃ w1 w2 s, escapeCmd E.m E.usage E.creatable argv E.stdin w = (w1, .ok 0) ∧ Wrote w o s w1 ∧
      (∀ x ∈ s, x ∉ froms) ∧
      escapeCmd E.m E.usage E.creatable argv' E.stdin w1 = (w2, .ok 0) ∧ Wrote w1 q c w2 := by
  have ht : escapeArgs ∈ tools := by simp [tools]
  have hr : escapeArgs ≠ rleArgs := tool_ne (by decide +kernel)
  have hback : ∀ l : List UInt8, (l.map UInt8.toNat).map UInt8.ofNat = l := by
    intro l
    rw [List.map_map]
    conv_rhs => rw [← List.map_id l]
    exact List.map_congr_left fun x _ => by simp
  have run : ∀ {argv occ i o p v} (_ : Line escapeArgs argv occ) (_ : StrIs occ .infilename (some i))
      (_ : StrIs occ .outfilename (some o)) (_ : NumIs occ .prefixlength 0 p) (_ : NumIs occ .escapeSymbol 0 e.toNat)
      (_ : NumsAre occ .fromSymbols (froms.map UInt8.toNat)) (_ : NumsAre occ .toSymbols (tos.map UInt8.toNat))
      (_ : FlagIs occ .isReversion v) (w : World), escapeCmd E.m E.usage E.creatable argv E.stdin w =
        finish (escapeMainFs E.creatable ⟨p, e, froms, tos, v⟩ (some i) (some o) E.stdin w) := by
    intro argv occ i o p v h hi ho hp he hf hs hv w
    have h1 : getStr occ .infilename = some i := strIs_eq ht hr h optIn (by simp [escapeArgs]) rfl hi
    have h2 : getNum occ .prefixlength 0 = p := numIs_eq ht hr h optPrefix (by simp [escapeArgs]) (Or.inl rfl) hp
    have h3 : getStr occ .outfilename = some o := strIs_eq ht hr h optOut (by simp [escapeArgs]) rfl ho
    have h4 : getNum occ .escapeSymbol 0 = e.toNat :=
      numIs_eq ht hr h ⟨.escapeSymbol, some 'e', some "escape-symbol".toList, .set .u8⟩ (by simp [escapeArgs])
        (Or.inr rfl) he
    have h5 : getNums occ .fromSymbols = froms.map UInt8.toNat :=
      numsAre_eq ht hr h ⟨.fromSymbols, some 'f', some "from-symbols".toList, .append .u8⟩ (by simp [escapeArgs])
        (Or.inl rfl) hf
    have h6 : getNums occ .toSymbols = tos.map UInt8.toNat :=
      numsAre_eq ht hr h ⟨.toSymbols, some 't', some "to-symbols".toList, .append .u8⟩ (by simp [escapeArgs])
        (Or.inl rfl) hs
    have h7 : getFlag occ .isReversion = v :=
      flagIs_eq ht hr h ⟨.isReversion, none, some "is-reversion".toList, .setTrue⟩ (by simp [escapeArgs]) rfl hv
    unfold escapeCmd
    rw [run_of_line ht hr h]
    simp only [h1, h2, h3, h4, h5, h6, h7, hback, UInt8.ofNat_toNat]
  obtain ⟨w1, w2, s, a1, a2, a3, a4, a5⟩ := C67_escape_files E.creatable ⟨p, e, froms, tos, false⟩ i o q p' E.stdin w c
    hlen hfe hte hdisj hnd hcp hcp' hio hoq hco hcq hw
  refine ⟨w1, w2, s, ?_, a2, a3, ?_, a5⟩
  · rw [run h hi ho hp he hf hs hv]
    simp only at a1
    rw [a1]; rfl
  · rw [run h' hi' ho' hp' he' hf' hs' hv']
    simp only at a4
    rw [a4]; rfl

/-! ## generators -/

theorem wordCmd_line (E : Env) {argv : List (List Char)} {occ : List (Field × Val)} (h : Line wordArgs argv occ)
    {out : Option String} {k : Nat} {name : WordName} (ho : StrIs occ .outfilename out) (hk : (Field.k, Val.num k) ∈ occ)
    (hn : (Field.name, Val.word name) ∈ occ) (w : World) :
    wordCmd E.m E.usage E.creatable E.est E.fuel argv w =
      finish (wordMainB E.m E.creatable E.est E.fuel name k out w) := by
  have ht : wordArgs ∈ tools := by simp [tools]
  have hr : wordArgs ≠ rleArgs := tool_ne (by decide +kernel)
  have h1 : getStr occ .outfilename = out := strIs_eq ht hr h optOut (by simp [wordArgs]) rfl ho
  have h2 : getNum occ .k 0 = k :=
    numIs_eq ht hr h ⟨.k, some 'k', none, .set .u8⟩ (by simp [wordArgs]) (Or.inr rfl) (Or.inl hk)
  have h3 : getWord occ .name = name :=
    (C101_fields ht hr h ⟨.name, some 'n', some "name".toList, .set .word⟩ (by simp [wordArgs])).2.2.2.2 rfl name hn
  unfold wordCmd
  rw [run_of_line ht hr h]
  simp only [h1, h2, h3]

/-- C108: `word` with an output file, however the command line is written, for the words defined by a morphism or a
recurrence. -/
theorem C108_word_morphic (E : Env) (hest : ∀ k, E.est k = binet k) (argv : List (List Char))
    (occ : List (Field × Val)) (h : Line wordArgs argv occ) (o : String) (ho : (Field.outfilename, Val.str o.toList) ∈ occ)
    (hc : E.creatable o = true) (k : Nat) (hk : (Field.k, Val.num k) ∈ occ) (name : WordName)
    (hn : (Field.name, Val.word name) ∈ occ) (w : World) (t : List UInt8)
    (ht : (name = .fibonacci ∧ k ≤ 90 ∧ t = fibWord k) ∨
      (name = .tribonacci ∧ k ≤ 71 ∧ t = tribWord k ∧ t.length < E.fuel) ∨
      (name = .vtm ∧ k ≤ 29 ∧ t = iter vtmMor k [97] ∧ t.length < E.fuel) ∨
      (name = .fibonacciLyndonFactor ∧ k ≤ 29 ∧ t = iter lyndonMor k [97, 98]) ∨
      (name = .thueMorse ∧ k ≤ 62 ∧ t = iter tmMor k [97]) ∨
      (name = .periodDoubling ∧ k ≤ 62 ∧ t = iter pdMor k [97]) ∨
      (name = .quaternaryPaperFolding ∧ k ≤ 62 ∧ t = iter paperMor k [100])) :
    ∃ w', wordCmd E.m E.usage E.creatable E.est E.fuel argv w = (w', .ok 0) ∧ Wrote w o t w' := by
  obtain ⟨c1, c2, c3, c4, c5, c6, c7⟩ := C69_word_tool_morphic E.creatable o hc w k E.fuel
  have run := wordCmd_line E h (out := some o) ho hk hn w
  have fin : ∀ {est : ℝ}, est = E.est (k + 2) → (∃ w', wordMain E.creatable est E.fuel name k (some o) w = (w', .ok ()) ∧
      Wrote w o t w') → ∃ w', wordCmd E.m E.usage E.creatable E.est E.fuel argv w = (w', .ok 0) ∧ Wrote w o t w' := by
    rintro est rfl ⟨w', e1, e2⟩
    exact ⟨w', by rw [run, wordMainB_ok e1]; rfl, e2⟩
  rcases ht with ⟨rfl, hk', rfl⟩ | ⟨rfl, hk', rfl, hfu⟩ | ⟨rfl, hk', rfl, hfu⟩ | ⟨rfl, hk', rfl⟩ | ⟨rfl, hk', rfl⟩ |
    ⟨rfl, hk', rfl⟩ | ⟨rfl, hk', rfl⟩
  · exact fin (hest (k + 2)).symm (c1 hk')
  · exact fin rfl (c2 hk' (by rwa [tribWord_length] at hfu) _)
  · exact fin rfl (c3 hk' hfu _)
  · exact fin rfl (c4 hk' _)
  · exact fin rfl (c5 hk' _)
  · exact fin rfl (c6 hk' _)
  · exact fin rfl (c7 hk' _)

/-- C108: the same for the words given by their letters. -/
theorem C108_word_other (E : Env) (argv : List (List Char))
    (occ : List (Field × Val)) (h : Line wordArgs argv occ) (o : String) (ho : (Field.outfilename, Val.str o.toList) ∈ occ)
    (hc : E.creatable o = true) (k : Nat) (hk : (Field.k, Val.num k) ∈ occ) (name : WordName)
    (hn : (Field.name, Val.word name) ∈ occ) (w : World) (hbound : k ≤ 60)
    (hname : name = .paperFolding ∨ name = .power2 ∨ (name = .binaryDeBrujin ∧ k ≤ 3 ∧ 16 ≤ E.fuel)) :
    ∃ w' t, wordCmd E.m E.usage E.creatable E.est E.fuel argv w = (w', .ok 0) ∧ Wrote w o t w' ∧
      (name = .paperFolding → t.length = 2 ^ (k + 1) ∧
        ∀ p (h : p < t.length), (t[p] = 49 ∨ t[p] = 48) ∧ (t[p] = 49 ↔ ∃ e m, p + 1 = 2 ^ e * (4 * m + 1))) ∧
      (name = .power2 → t.length = 2 ^ k ∧
        ∀ j, 1 ≤ j → j < 2 ^ k → (t[j - 1]? = some 97 ∨ t[j - 1]? = some 98) ∧ (t[j - 1]? = some 98 ↔ ∃ e, j = 2 ^ e)) ∧
      (name = .binaryDeBrujin → IsDeBruijn (k + 1) t) := by
  obtain ⟨c1, c2, -, c4⟩ := C69_word_tool_other E.creatable o hc w (E.est (k + 2)) E.fuel
  have run := wordCmd_line E h (out := some o) ho hk hn w
  rcases hname with rfl | rfl | ⟨rfl, hk3, hfu⟩
  · obtain ⟨w', t, e1, e2, e3, e4⟩ := c1 k (by omega)
    exact ⟨w', t, by rw [run, wordMainB_ok e1]; rfl, e2, fun _ => ⟨e3, e4⟩, fun h => (by cases h), fun h => (by cases h)⟩
  · obtain ⟨w', t, e1, e2, e3, e4⟩ := c2 k (by omega)
    exact ⟨w', t, by rw [run, wordMainB_ok e1]; rfl, e2, fun h => (by cases h), fun _ => ⟨e3, e4⟩, fun h => (by cases h)⟩
  · obtain ⟨w', t, e1, e2, e3⟩ := c4 k hk3 hfu
    exact ⟨w', t, by rw [run, wordMainB_ok e1]; rfl, e2, fun h => (by cases h), fun h => (by cases h), fun _ => e3⟩

/-- C108: the Kolakoski words written for consecutive numbers: the runs of each spell the previous one. -/
theorem C108_word_kolakoski (E : Env) : ∃ t : Nat → List UInt8, t 0 = [98, 98] ∧
    (∀ k, ((t (k + 1)).splitBy (· == ·)).map List.length = (t k).map (fun c => if c = 97 then 1 else 2)) ∧
    ∀ (argv : List (List Char)) (occ : List (Field × Val)), Line wordArgs argv occ → ∀ (o : String),
      (Field.outfilename, Val.str o.toList) ∈ occ → E.creatable o = true → ∀ k, (Field.k, Val.num k) ∈ occ → k ≤ 60 →
      (Field.name, Val.word .kolakoski) ∈ occ → ∀ w,
      ∃ w', wordCmd E.m E.usage E.creatable E.est E.fuel argv w = (w', .ok 0) ∧ Wrote w o (t k) w' := by
  obtain ⟨-, -, ⟨t, c1, c2, c3⟩, -⟩ := C69_word_tool_other (fun _ => true) "" rfl ⟨fun _ => none, []⟩ 0 0
  refine ⟨t, c2, c3, ?_⟩
  intro argv occ h o ho hc k hk hk60 hn w
  obtain ⟨-, -, ⟨t', d1, d2, d3⟩, -⟩ := C69_word_tool_other E.creatable o hc w (E.est (k + 2)) E.fuel
  obtain ⟨w1, e1, e2⟩ := c1 k hk60
  obtain ⟨w', e3, e4⟩ := d1 k hk60
  refine ⟨w', by rw [wordCmd_line E h (out := some o) ho hk hn w, wordMainB_ok e3]; rfl, ?_⟩
  have heq : t' k = t k := by
    have a1 := e4.2.1
    have a2 := e2.2.1
    simp only [wordMain, openOut, hc, if_true] at e3 e1
    cases hw : kolakoskiWord k with
    | error e => simp [wordOf, hw] at e3
    | ok s =>
      simp only [wordOf, hw] at e3 e1
      cases e3; cases e1
      simp [writeOut, World.set] at a1 a2
      rw [← a1, ← a2]
  rw [← heq]
  exact e4

/-- C108: `lyndonwords` writes, one per line and in increasing order, the Lyndon words of length at most `-l` (5 if not
given) over the first `-s` (2 if not given) letters from `a`. -/
theorem C108_lyndonwords (E : Env) (argv : List (List Char)) (occ : List (Field × Val)) (h : Line lyndonwordsArgs argv occ)
    (out : Option String) (ho : StrIs occ .outfilename out) (hc : ∀ o, out = some o → E.creatable o = true)
    (n s : Nat) (hl : NumIs occ .length 5 n) (hs : NumIs occ .sigma 2 s) (hs1 : 1 ≤ s) (hs2 : s ≤ 159) (w : World) :
    ∃ ws : List (List UInt8), ws.Pairwise (· < ·) ∧
      (∀ v, v ∈ ws ↔ IsLyndon v ∧ v.length ≤ n ∧ ∀ c ∈ v, 97 ≤ c.toNat ∧ c.toNat < 97 + s) ∧
      (ws.length < E.fuel → ∃ w', lyndonwordsCmd E.m E.usage E.creatable E.fuel argv w = (w', .ok 0) ∧
        Emitted w out (ws.flatMap (· ++ [10])) w') := by
  have ht : lyndonwordsArgs ∈ tools := by simp [tools]
  have hr : lyndonwordsArgs ≠ rleArgs := tool_ne (by decide +kernel)
  have h1 : getStr occ .outfilename = out := strIs_eq ht hr h optOut (by simp [lyndonwordsArgs]) rfl ho
  have h2 : getNum occ .length 5 = n :=
    numIs_eq ht hr h ⟨.length, some 'l', none, .set .usize⟩ (by simp [lyndonwordsArgs]) (Or.inl rfl) hl
  have h3 : getNum occ .sigma 2 = s :=
    numIs_eq ht hr h ⟨.sigma, some 's', none, .set .usize⟩ (by simp [lyndonwordsArgs]) (Or.inl rfl) hs
  obtain ⟨ws, a1, a2, a3⟩ := C36_lyndonwords_tool n s hs1 hs2
  refine ⟨ws, a1, a2, fun hf => ?_⟩
  obtain ⟨w1, f1, f2⟩ := openOut_ok hc w (ws.flatMap (· ++ [10]))
  refine ⟨_, ?_, f2⟩
  unfold lyndonwordsCmd
  rw [run_of_line ht hr h]
  simp only [h1, h2, h3, f1, lyndonwordsLoopB_ok (m := E.m) (a3 E.fuel hf), finish]
  rfl

/-- C108: a run of `randomstring` that ends writes `-p` (10 if not given) letters of the random source, with at most `-a`
different ones unless that is 0. -/
theorem C108_randomstring (E : Env) (argv : List (List Char)) (occ : List (Field × Val)) (h : Line randomstringArgs argv occ)
    (out : Option String) (ho : StrIs occ .outfilename out) (hc : ∀ o, out = some o → E.creatable o = true)
    (a p : Nat) (ha : (Field.alphabetSize, Val.num a) ∈ occ) (hp : NumIs occ .prefixlength 10 p) (w w' : World)
    (hrun : randomstringCmd E.m E.usage E.creatable E.rng argv w = (w', .ok 0)) :
    ∃ s, Emitted w out s w' ∧ s.length = p ∧ (∀ c ∈ s, c ∈ E.rng) ∧ (0 < a → s.toFinset.card ≤ a) := by
  have ht : randomstringArgs ∈ tools := by simp [tools]
  have hr : randomstringArgs ≠ rleArgs := tool_ne (by decide +kernel)
  have h1 : getStr occ .outfilename = out := strIs_eq ht hr h optOut (by simp [randomstringArgs]) rfl ho
  have h2 : getNum occ .alphabetSize 0 = a :=
    numIs_eq ht hr h ⟨.alphabetSize, some 'a', some "alphabet-size".toList, .set .usize⟩ (by simp [randomstringArgs])
      (Or.inl rfl) (Or.inl ha)
  have h3 : getNum occ .prefixlength 10 = p :=
    numIs_eq ht hr h optPrefix (by simp [randomstringArgs]) (Or.inl rfl) hp
  unfold randomstringCmd at hrun
  rw [run_of_line ht hr h] at hrun
  simp only [h1, h2, h3] at hrun
  cases hm : randomstringMain a p E.rng with
  | none =>
    obtain ⟨w1, f1, -⟩ := openOut_ok hc w []
    rw [f1] at hrun
    simp [hm] at hrun
  | some s =>
    obtain ⟨w1, f1, f2⟩ := openOut_ok hc w s
    simp only [f1, hm] at hrun
    cases hrun
    obtain ⟨b1, b2, b3⟩ := C56_randomstring a p E.rng s hm
    exact ⟨s, f2, b1, b2, b3⟩

/-! ## no input -/

/-- C108: if the input file does not exist, or the standard input is shorter than `-p`, the tools that print a result panic;
nothing is printed, no file is changed or created. -/
theorem C108_no_input (E : Env) (inn : Option String) (p : Nat) (w : World)
    (hno : match inn with
      | some n => w.files n = none
      | none => (delivered E.stdin).length < p)
    (argv : List (List Char)) (occ : List (Field × Val)) (hi : StrIs occ .infilename inn) (hp : NumIs occ .prefixlength 0 p) :
    (Line countSigmaArgs argv occ → countSigmaCmd E.m E.usage E.time argv (delivered E.stdin) w = (w, .error .unwrap)) ∧
    (Line countRArgs argv occ → countRCmd E.m E.usage E.sufsort E.time argv (delivered E.stdin) w = (w, .error .unwrap)) ∧
    (Line countZArgs argv occ →
      countZCmd E.m E.usage E.creatable E.sufsort E.time argv (delivered E.stdin) w = (w, .error .unwrap)) ∧
    (Line countLexparseArgs argv occ →
      countLexparseCmd E.m E.usage E.creatable E.sufsort E.time argv (delivered E.stdin) w = (w, .error .unwrap)) ∧
    (Line lyndonfactorizationArgs argv occ →
      lyndonfactorizationCmd E.m E.usage E.creatable E.time argv (delivered E.stdin) w = (w, .error .unwrap)) ∧
    (Line entropyArgs argv occ →
      entropyCmd E.m E.usage E.sufsort E.showF E.time argv (delivered E.stdin) w = (w, .error .unwrap)) ∧
    (Line musArgs argv occ → musCmd E.m E.usage E.sufsort E.time argv (delivered E.stdin) w = (w, .error .unwrap)) ∧
    (Line bwtArgs argv occ →
      bwtCmd E.m E.usage E.creatable E.sufsort argv (delivered E.stdin) w = (w, .error .unwrap)) ∧
    (Line isStringattractorArgs argv occ →
      isStringattractorCmd E.m E.usage E.sufsort argv (delivered E.stdin) w = (w, .error .unwrap)) := by
  have hrd : readVector inn p (delivered E.stdin) w = .error .unwrap := by
    cases inn with
    | some n =>
      simp only at hno
      simp only [readVector, Option.map_some, hno, Option.map_none]
      exact (C53_file_prefix [] (by decide) p).2.2
    | none => exact (C53_stdin_prefix _ p).2.1 hno
  have F : ∀ {t : Tool}, t ∈ tools → t ≠ rleArgs → optIn ∈ t.opts → optPrefix ∈ t.opts → Line t argv occ →
      getStr occ .infilename = inn ∧ getNum occ .prefixlength 0 = p := fun ht hr a b h =>
    ⟨strIs_eq ht hr h optIn a rfl hi, numIs_eq ht hr h optPrefix b (Or.inl rfl) hp⟩
  refine ⟨fun h => ?_, fun h => ?_, fun h => ?_, fun h => ?_, fun h => ?_, fun h => ?_, fun h => ?_, fun h => ?_,
    fun h => ?_⟩
  · have ht : countSigmaArgs ∈ tools := by simp [tools]
    have hr : countSigmaArgs ≠ rleArgs := tool_ne (by decide +kernel)
    obtain ⟨h1, h2⟩ := F ht hr (by simp [countSigmaArgs]) (by simp [countSigmaArgs]) h
    unfold countSigmaCmd
    rw [run_of_line ht hr h]
    simp only [h1, h2, countSigmaOut, countSigmaMain, hrd]
    rfl
  · have ht : countRArgs ∈ tools := by simp [tools]
    have hr : countRArgs ≠ rleArgs := tool_ne (by decide +kernel)
    obtain ⟨h1, h2⟩ := F ht hr (by simp [countRArgs]) (by simp [countRArgs]) h
    unfold countRCmd
    rw [run_of_line ht hr h]
    simp only [h1, h2, countROut, hrd]
    rfl
  · have ht : countZArgs ∈ tools := by simp [tools]
    have hr : countZArgs ≠ rleArgs := tool_ne (by decide +kernel)
    obtain ⟨h1, h2⟩ := F ht hr (by simp [countZArgs]) (by simp [countZArgs]) h
    unfold countZCmd
    rw [run_of_line ht hr h]
    simp only [h1, h2, countZOut, hrd]
    rfl
  · have ht : countLexparseArgs ∈ tools := by simp [tools]
    have hr : countLexparseArgs ≠ rleArgs := tool_ne (by decide +kernel)
    obtain ⟨h1, h2⟩ := F ht hr (by simp [countLexparseArgs]) (by simp [countLexparseArgs]) h
    unfold countLexparseCmd
    rw [run_of_line ht hr h]
    simp only [h1, h2, countLexparseOut, hrd]
    rfl
  · have ht : lyndonfactorizationArgs ∈ tools := by simp [tools]
    have hr : lyndonfactorizationArgs ≠ rleArgs := tool_ne (by decide +kernel)
    obtain ⟨h1, h2⟩ := F ht hr (by simp [lyndonfactorizationArgs]) (by simp [lyndonfactorizationArgs]) h
    unfold lyndonfactorizationCmd
    rw [run_of_line ht hr h]
    simp only [h1, h2, lyndonfactorizationOut, hrd]
    rfl
  · have ht : entropyArgs ∈ tools := by simp [tools]
    have hr : entropyArgs ≠ rleArgs := tool_ne (by decide +kernel)
    obtain ⟨h1, h2⟩ := F ht hr (by simp [entropyArgs]) (by simp [entropyArgs]) h
    unfold entropyCmd
    rw [run_of_line ht hr h]
    simp only [h1, h2, entropyOut, entropyMain, hrd]
    rfl
  · have ht : musArgs ∈ tools := by simp [tools]
    have hr : musArgs ≠ rleArgs := tool_ne (by decide +kernel)
    obtain ⟨h1, h2⟩ := F ht hr (by simp [musArgs]) (by simp [musArgs]) h
    unfold musCmd
    rw [run_of_line ht hr h]
    simp only [h1, h2, musOut, hrd]
    rfl
  · have ht : bwtArgs ∈ tools := by simp [tools]
    have hr : bwtArgs ≠ rleArgs := tool_ne (by decide +kernel)
    obtain ⟨h1, h2⟩ := F ht hr (by simp [bwtArgs]) (by simp [bwtArgs]) h
    unfold bwtCmd
    rw [run_of_line ht hr h]
    simp only [h1, h2, bwtMainFs, hrd]
    rfl
  · have ht : isStringattractorArgs ∈ tools := by simp [tools]
    have hr : isStringattractorArgs ≠ rleArgs := tool_ne (by decide +kernel)
    obtain ⟨h1, h2⟩ := F ht hr (by simp [isStringattractorArgs]) (by simp [isStringattractorArgs]) h
    unfold isStringattractorCmd
    rw [run_of_line ht hr h]
    simp only [h1, h2, isStringattractorRun, hrd]
    rfl

/-! ## examples -/

/-- `count_z -p 3 -i f -o g`, `lyndonwords -s3`, and `escape -e 1 -f2 -f 3 -t=4 -t 5 -p 9 -i f -o g` are accepted, with the
settings the theorems ask for. -/
example : (∃ occ, Line countZArgs (["-p", "3", "-i", "f", "-o", "g"].map String.toList) occ ∧
      StrIs occ .infilename (some "f") ∧ StrIs occ .outfilename (some "g") ∧ NumIs occ .prefixlength 0 3) ∧
    (∃ occ, Line lyndonwordsArgs (["-s3"].map String.toList) occ ∧ NumIs occ .length 5 5 ∧ NumIs occ .sigma 2 3 ∧
      StrIs occ .outfilename none) ∧
    (∃ occ, Line escapeArgs (["-e", "1", "-f2", "-f", "3", "-t=4", "-t", "5", "-p", "9", "-i", "f", "-o", "g"].map
        String.toList) occ ∧ NumsAre occ .fromSymbols [2, 3] ∧ NumsAre occ .toSymbols [4, 5] ∧ NumIs occ .escapeSymbol 0 1 ∧
      FlagIs occ .isReversion false) := by
  refine ⟨⟨[(.prefixlength, .num 3), (.infilename, .str ['f']), (.outfilename, .str ['g'])],
      (C100_command_lines (by simp [tools]) (tool_ne (by decide +kernel)) _ _).1 rfl, ?_⟩,
    ⟨[(.sigma, .num 3)], (C100_command_lines (by simp [tools]) (tool_ne (by decide +kernel)) _ _).1 rfl, ?_⟩,
    ⟨[(.escapeSymbol, .num 1), (.fromSymbols, .num 2), (.fromSymbols, .num 3), (.toSymbols, .num 4), (.toSymbols, .num 5),
        (.prefixlength, .num 9), (.infilename, .str ['f']), (.outfilename, .str ['g'])],
      (C100_command_lines (by simp [tools]) (tool_ne (by decide +kernel)) _ _).1 rfl, ?_⟩⟩
  · simp [StrIs, NumIs]
  · simp [StrIs, NumIs]
  · simp [NumsAre, NumIs, FlagIs]

example : Input (some "f") 2 [] (oneFile "f" [97, 98, 97]) [97, 98] ∧ Input none 2 [97, 98, 97] (oneFile "f" []) [97, 98] :=
  ⟨⟨[97, 98, 97], rfl, by decide, rfl⟩, by decide, rfl⟩

end Verif.Props
