import Verif.Lemmas.ToolLogs
import Verif.Props.LyndonLog
import Verif.Props.Lz
import Verif.Props.Fibonacci
import Verif.Props.Kolakoski
import Verif.Props.FactorFiles
import Verif.Props.CliCommands
import Verif.Props.Arrays
import Verif.Props.BwtMore
import Verif.Lemmas.Mus

/-! # C128: what the word generators, `count_z`, `count_lexparse`, `bwt`, `count_r` and `mus` log

`level` is the highest level that is logged: 3 is `info`, 4 is `debug` (`Level.rank` in `Verif/Spec/LogLine.lean`); a message is its
level and its text. -/

namespace Verif.Props

open Verif Spec Model

/-- C128: whatever is logged, the programs end in the same way and with the same results and files as without logging. -/
theorem C128_logging_is_harmless (level : Nat) (sufsort : List UInt8 → List Nat) (creatable : String → Bool) (inn out : Option String)
    (p time : Nat) (stdin : List UInt8) (w : World) :
    (∀ est k, (fibonacciWordL level est k).2 = fibonacciWord est k) ∧
    (∀ k, (kolakoskiWordL level k).2 = kolakoskiWord k) ∧
    (factorMainL creatable out w (countZL level sufsort time inn p stdin w)).2 = countZMain creatable sufsort inn out p stdin w ∧
    (factorMainL creatable out w (countLexparseL level sufsort time inn p stdin w)).2 =
      countLexparseMain creatable sufsort inn out p stdin w ∧
    (∀ label m d, (bwtL label level sufsort m d inn p stdin w).2 = readVector inn p stdin w >>= bwtTool sufsort m d) ∧
    (musL level sufsort time inn p stdin w).2 = readVector inn p stdin w >>= musTool sufsort := by
  have hsa : ∀ t, (bwtFromTextBySaL level sufsort t).2 = bwtFromTextBySa sufsort t := fun t => by
    simp only [bwtFromTextBySaL, LogR.bind_snd, quiet_snd, logR_snd, LogR.pure_snd, ok_bind]
    cases bwtFromTextBySa sufsort t <;> rfl
  have hmat : ∀ t, (bwtByMatrixL level sufsort t).2 = bwtByMatrix sufsort t := fun t => by
    simp only [bwtByMatrixL, bwtByMatrix, LogR.bind_snd, quiet_snd, LogR.ite_snd, hsa]
  have hfac : ∀ (x : LogR (List UInt8 × List LZFactor)) (f : List UInt8 → Res (List LZFactor)),
      x.2 = (readVector inn p stdin w >>= fun t => f t >>= fun fs => pure (t, fs)) →
      (factorMainL creatable out w x).2 = factorMain creatable f inn out p stdin w := by
    intro x f h
    unfold factorMainL factorMain
    cases hr : readVector inn p stdin w with
    | error e => rw [hr, error_bind] at h; rw [h]
    | ok t =>
      rw [hr, ok_bind] at h
      cases hf : f t with
      | error e => rw [hf, error_bind] at h; rw [h]; simp only [hf]
      | ok fs =>
        rw [hf, ok_bind, pure_ok] at h
        rw [h]
        simp only [hf, factorFile]
        cases out with
        | none => rfl
        | some n => cases openOut creatable (some n) w <;> rfl
  refine ⟨fun est k => ?_, fun k => ?_, hfac _ _ ?_, hfac _ _ ?_, fun label m d => ?_, ?_⟩
  · simp only [fibonacciWordL, fibonacciWord, fibonacciWordBuf, LogR.bind_snd, quiet_snd, logR_snd, LogR.pure_snd, ok_bind]
    congr 1; funext _; congr 1; funext L; congr 1; funext t; congr 1; funext t; congr 1; funext hi
    rw [repeatL_snd (body' := fibRound) (fun s => by
      simp only [fibRoundL, LogR.bind_snd, quiet_snd, logR_snd, LogR.pure_snd, ok_bind]
      cases fibRound s <;> rfl)]
    rfl
  · simp only [kolakoskiWordL, kolakoskiWord, LogR.bind_snd, quiet_snd, logR_snd, ok_bind, LogR.ite_snd, LogR.pure_snd]
    rfl
  · simp only [countZL, countZFactors, LogR.bind_snd, quiet_snd, logR_snd, ok_bind, LogR.pure_snd, bind_assoc]
    rfl
  · simp only [countLexparseL, countLexparseFactors, LogR.bind_snd, quiet_snd, logR_snd, ok_bind, LogR.pure_snd, bind_assoc]
    rfl
  · simp only [bwtL, LogR.bind_snd, quiet_snd, logR_snd, ok_bind, LogR.ite_snd, hsa, hmat]
    rfl
  · simp only [musL, LogR.bind_snd, quiet_snd, logR_snd, ok_bind]
    rfl

/-- C128: the messages of `fibonacci_word`, whatever estimate of the length the floating-point computation gives as long as the buffer is
large enough: the size of the buffer; the Fibonacci numbers `1, 2, 3, 5, ..`, the last of which is the length of the word; and the number of
letters written, which for words of odd order is one more than the length of the word. -/
theorem C128_fibonacci (level k : Nat) (hk : k ≤ 90) (est : ℝ) (h1 : (fibWord k).length ≤ ⌊est + 1⌋₊)
    (h2 : ⌊est + 1⌋₊ < 9223372036854775807) :
    fibonacciWordL level est k =
      (if 3 ≤ level then
        [(.info, ascii "allocate text length = " ++ decimal (⌊est + 1⌋₊ + 1))] ++
        (List.range (k + 1)).map (fun i => (.info, decimal (fibWord i).length)) ++
        [(.info, decimal k ++ ascii "-th fibonacci number = " ++ decimal (fibWord k).length),
         (.info, ascii "written characters = " ++ decimal ((fibWord k).length + k % 2))]
      else [], .ok (fibWord k)) := by
  rw [fibWord_length] at h1
  generalize hN : ⌊est + 1⌋₊ = N at h1 h2
  have hpos : 0 < Nat.fib (k + 2) := Nat.fib_pos.2 (by omega)
  have e1 : u8add k 2 = .ok (k + 2) := by rw [u8add, if_pos (by omega)]
  have e2 : uadd (min ⌊est + 1⌋₊ 18446744073709551615) 1 = .ok (N + 1) := by
    rw [hN, Nat.min_eq_left (by omega), uadd, if_pos (by omega)]
  have e3 : zeroed (N + 1) = .ok (List.replicate (N + 1) 0) := by rw [zeroed, if_pos (by omega)]
  have e4 : wr (List.replicate (N + 1) (0 : UInt8)) 0 97 = .ok (97 :: List.replicate N 0) := by
    rw [wr_ok (by simp), List.replicate_succ]; rfl
  have e5 : u8add k 1 = .ok (k + 1) := by rw [u8add, if_pos (by omega)]
  obtain ⟨s, f1, f2, f3, f4⟩ := fibLoop_logged level (L := N + 1) (by omega) (k + 1) 0 ⟨97 :: List.replicate N 0, 0, 1, 0, 1⟩
    ⟨by simp, by simp, by simp, by simp, 0, by simp [iter]⟩ rfl rfl rfl (fun j hj => by
      have : Nat.fib (0 + j + 2) ≤ Nat.fib (k + 2) := Nat.fib_mono (by omega)
      omega)
  have hf1 : (repeatL (k + 1) (fibRoundL level) ⟨97 :: List.replicate N 0, 0, 1, 0, 1⟩).2 = .ok s := by rw [f1]
  have hf2 : (repeatL (k + 1) (fibRoundL level) ⟨97 :: List.replicate N 0, 0, 1, 0, 1⟩).1 =
      (List.range (k + 1)).flatMap (fun j => logMsg level .info (decimal (Nat.fib (0 + j + 2)))) := by rw [f1]
  rw [show 0 + (k + 1) + 1 = k + 2 by omega] at f3
  rw [show 0 + (k + 1) = k + 1 by omega] at f4
  have hw := f2.word (i := k) (by
    rw [f4, fibTarget, show k + 1 + 1 = k + 2 from rfl]
    exact Nat.le_add_right _ _)
  have ht : s.target = Nat.fib (k + 2) + k % 2 := by
    rw [f4, fibTarget, show k + 1 + 1 = k + 2 from rfl]
    congr 1
    split <;> omega
  refine Prod.ext ?_ ?_
  · rw [fibonacciWordL, quiet_bind_fst e1, quiet_bind_fst e2, quiet_bind_fst e3, logR_bind_fst, quiet_bind_fst e4, quiet_bind_fst e5,
      LogR.bind_fst_ok hf1, hf2, logR_bind_fst, logR_bind_fst, LogR.pure_fst, f3, ht]
    by_cases h3 : 3 ≤ level
    · have hl : ∀ m, logMsg level .info m = [(.info, m)] := fun m => if_pos h3
      simp only [hl, if_pos h3, fibWord_length, Nat.zero_add]
      rw [List.map_eq_flatMap]
      simp
    · have hl : ∀ m, logMsg level .info m = [] := fun m => if_neg h3
      simp [hl, if_neg h3]
  · rw [fibonacciWordL, LogR.bind_snd, quiet_snd, e1, ok_bind, LogR.bind_snd, quiet_snd, e2, ok_bind, LogR.bind_snd, quiet_snd, e3, ok_bind,
      LogR.bind_snd, logR_snd, ok_bind, LogR.bind_snd, quiet_snd, e4, ok_bind, LogR.bind_snd, quiet_snd, e5, ok_bind, LogR.bind_snd, hf1, ok_bind,
      LogR.bind_snd, logR_snd, ok_bind, LogR.bind_snd, logR_snd, ok_bind, LogR.pure_snd, f3, hw]

theorem C128_fibonacci_floor (k : Nat) : ⌊binet (k + 2) + 1⌋₊ = (fibWord k).length + 1 := by
  rw [C42_binet, fibWord_length]
  norm_cast
  exact Nat.floor_natCast _

example := C128_fibonacci 3 5 (by decide) (binet 7) (by rw [C128_fibonacci_floor 5]; omega) (by
  rw [C128_fibonacci_floor 5, fibWord_length]; decide +kernel)

/-- C128, refuted: `written characters` is not the length of the word for any odd order (here for the exact estimate). -/
theorem C128_written_refuted (level k : Nat) (h3 : 3 ≤ level) (hk : k ≤ 90) (hodd : k % 2 = 1) :
    ∃ msgs w, fibonacciWordL level (binet (k + 2)) k = (msgs, .ok w) ∧
      (.info, ascii "written characters = " ++ decimal (w.length + 1)) ∈ msgs ∧
      (.info, ascii "written characters = " ++ decimal w.length) ∉ msgs := by
  have hl : (fibWord k).length < 9223372036854775806 := by
    rw [fibWord_length]
    have h92 : Nat.fib 92 = 7540113804746346429 := by decide +kernel
    have : Nat.fib (k + 2) ≤ Nat.fib 92 := Nat.fib_mono (by omega)
    omega
  refine ⟨_, _, C128_fibonacci level k hk _ (by rw [C128_fibonacci_floor]; omega) (by rw [C128_fibonacci_floor]; omega), ?_, ?_⟩
  · rw [if_pos h3, hodd]
    simp
  · rw [if_pos h3, hodd]
    simp only [List.mem_append, List.mem_map, List.mem_cons, List.not_mem_nil, or_false, Prod.mk.injEq, true_and]
    have dig : ∀ (m : Nat) (r x : List UInt8), ascii "written characters = " ++ x ≠ decimal m ++ r := by
      intro m r x h
      have hne : decimal m ≠ [] := decimal_ne_nil m
      obtain ⟨c, d, hd⟩ := List.exists_cons_of_ne_nil hne
      have hc := decimal_isDigit m c (by rw [hd]; simp)
      rw [hd] at h
      have := congrArg List.head? h
      simp [ascii] at this
      rw [← this] at hc
      revert hc
      decide
    rintro ((h | ⟨i, -, h⟩) | h | h)
    · have := congrArg List.head? h
      simp [ascii] at this
    · exact dig _ [] (decimal (fibWord k).length) (by rw [List.append_nil]; exact h.symm)
    · rw [List.append_assoc] at h
      exact dig _ _ _ h
    · have := decimal_inj (List.append_cancel_left h)
      omega

example := C128_written_refuted 3 7 (by decide) (by decide) (by decide)

/-- The messages that are logged: those of an enabled level. -/
def enabledMsgs (level : Nat) (msgs : List Message) : List Message := msgs.filter (fun m => m.1.rank ≤ level)

theorem logMsg_eq_enabled (level : Nat) (l : Level) (m : List UInt8) : logMsg level l m = enabledMsgs level [(l, m)] := by
  unfold logMsg enabledMsgs
  by_cases h : l.rank ≤ level <;> simp [h]

theorem enabledMsgs_append (level : Nat) (a b : List Message) : enabledMsgs level (a ++ b) = enabledMsgs level a ++ enabledMsgs level b :=
  List.filter_append ..

theorem enabledMsgs_cons (level : Nat) (m : Message) (b : List Message) : enabledMsgs level (m :: b) = enabledMsgs level [m] ++ enabledMsgs level b :=
  List.filter_append (l₁ := [m]) ..

/-- C128: the messages of `kolakoski_word`: only the size of the buffer, `2^(k+2) + 2`, or `2^(k+2) + 1` from order 51 on, where the
floating-point addition of 1 is lost. -/
theorem C128_kolakoski (level k : Nat) (hk : k ≤ 60) : ∃ w, kolakoskiWord k = .ok w ∧
    kolakoskiWordL level k =
      (enabledMsgs level [(.info, ascii "allocate text length = " ++ decimal (2 ^ (k + 2) + if k ≤ 50 then 2 else 1))], .ok w) := by
  obtain ⟨w, hw, -⟩ := C44_length k hk
  refine ⟨w, hw, Prod.ext ?_ ?_⟩
  · have e1 : u8add k 2 = .ok (k + 2) := by rw [u8add, if_pos (by omega)]
    have hp : 2 ^ (k + 2) ≤ 2 ^ 62 := Nat.pow_le_pow_right (by decide) (by omega)
    generalize hN : 2 ^ (k + 2) + (if k ≤ 50 then 2 else 1) = N
    have hN1 : 2 ≤ N := by
      have : 2 ^ 1 ≤ 2 ^ (k + 2) := Nat.pow_le_pow_right (by decide) (by omega)
      omega
    have hN2 : N < 9223372036854775808 := by
      have : (if k ≤ 50 then 2 else 1) ≤ 2 := by split <;> omega
      omega
    have e2 : uadd (kolakoskiEstimate (k + 2)) 1 = .ok N := by
      have : kolakoskiEstimate (k + 2) + 1 = N := by
        rw [kolakoskiEstimate, ← hN]
        by_cases h : k ≤ 50
        · rw [if_pos (by omega), if_pos h]
        · rw [if_neg (by omega), if_pos (by omega), if_neg h]
      rw [uadd, if_pos (by omega), this]
    have e3 : zeroed N = .ok (List.replicate N 0) := by rw [zeroed, if_pos (by omega)]
    have e4 : wr (List.replicate N (0 : UInt8)) 0 98 = .ok ((List.replicate N 0).set 0 98) := wr_ok (by simp; omega)
    have e5 : wr ((List.replicate N (0 : UInt8)).set 0 98) 1 98 = .ok (((List.replicate N 0).set 0 98).set 1 98) :=
      wr_ok (by simp; omega)
    rw [kolakoskiWordL, quiet_bind_fst e1, quiet_bind_fst e2, quiet_bind_fst e3, logR_bind_fst, quiet_bind_fst e4, quiet_bind_fst e5]
    rw [kolakoskiWord, e1, ok_bind, e2, ok_bind, e3, ok_bind, e4, ok_bind, e5, ok_bind] at hw
    obtain ⟨s, hs, hw⟩ := res_bind_ok hw
    rw [quiet_bind_fst hs, logMsg_eq_enabled]
    split <;> simp [LogR.pure_fst, quiet_fst]
  · rw [(C128_logging_is_harmless level naiveSufsort (fun _ => true) none none 0 0 [] ⟨fun _ => none, []⟩).2.1, hw]

example := C128_kolakoski 3 10 (by decide)

theorem factorsText_eq (fs : List LZFactor) : factorsText fs = lzFactorsText (fs.map fun f => (f.pos, f.len)) := by
  have tl : ∀ (f : LZFactor) (gs : List LZFactor), factorText f ++ factorsTail gs =
      (ascii ", ").intercalate ((f :: gs).map fun f =>
        ascii "LZFactor { pos: " ++ decimal f.pos ++ ascii ", len: " ++ decimal f.len ++ ascii " }") ++ ascii "]" := by
    intro f gs
    induction gs generalizing f with
    | nil => simp [factorsTail, factorText, List.intercalate]
    | cons g gs ih =>
      rw [factorsTail, List.append_assoc, ih g]
      simp only [List.map_cons, List.intercalate, List.intersperse_cons_cons, List.flatten_cons, factorText, List.append_assoc]
  cases fs with
  | nil => decide +kernel
  | cons f gs =>
    rw [factorsText, lzFactorsText, List.append_assoc, List.append_assoc, tl, List.map_map]
    rfl

/-- C128: the messages of `count_z` for a non-empty text: the text, its suffix array and, after the time, the factors, which are those of the
result line and of the file. -/
theorem C128_count_z (level : Nat) (sufsort : List UInt8 → List Nat) (hs : SortsSuffixes sufsort) (time : Nat) (inn : Option String) (p : Nat)
    (stdin : List UInt8) (w : World) (text : List UInt8) (hin : Input inn p stdin w text) (h0 : text ≠ []) (hlen : text.length < 2147483648) :
    ∃ sa fs, IsSuffixArray text sa ∧ countZFactors sufsort text = .ok fs ∧
      countZL level sufsort time inn p stdin w =
        (enabledMsgs level [(.info, ascii "Build DS"), (.debug, ascii " T : " ++ listText (text.map UInt8.toNat)),
          (.debug, ascii "sa : " ++ listText sa), (.info, ascii "time: " ++ decimal time), (.info, ascii "run LZ77"),
          (.debug, ascii "LZ77 " ++ lzFactorsText (fs.map fun f => (f.pos, f.len)))], .ok (text, fs)) := by
  have hr := readVector_input hin
  obtain ⟨fs, h, -⟩ := C21_lz77_minimal sufsort hs text h0 hlen
  refine ⟨sufsort text, fs, hs text hlen, h, Prod.ext ?_ ?_⟩
  · rw [countZFactors] at h
    obtain ⟨a1, e1, h⟩ := res_bind_ok h
    obtain ⟨a2, e2, h⟩ := res_bind_ok h
    obtain ⟨a3, e3, h⟩ := res_bind_ok h
    obtain ⟨a4, e4, h⟩ := res_bind_ok h
    obtain ⟨a5, e5, h⟩ := res_bind_ok h
    obtain ⟨a6, e6, h⟩ := res_bind_ok h
    obtain ⟨a7, e7, h⟩ := res_bind_ok h
    obtain ⟨a8, e8, h⟩ := res_bind_ok h
    obtain ⟨a9, e9, h⟩ := res_bind_ok h
    cases h
    rw [countZL, logR_bind_fst, quiet_bind_fst hr]
    simp only []
    rw [logR_bind_fst, logR_bind_fst, quiet_bind_fst e1, quiet_bind_fst e2, quiet_bind_fst e3,
      quiet_bind_fst e4, quiet_bind_fst e5, quiet_bind_fst e6, logR_bind_fst, logR_bind_fst, quiet_bind_fst e7, logR_bind_fst, quiet_bind_fst e8,
      quiet_bind_fst e9, LogR.pure_fst, List.append_nil]
    simp only [logMsg_eq_enabled, ← enabledMsgs_append, factorsText_eq]
    rfl
  · have e : (countZL level sufsort time inn p stdin w).2 =
        readVector inn p stdin w >>= fun t => countZFactors sufsort t >>= fun fs => pure (t, fs) := by
      simp only [countZL, countZFactors, LogR.bind_snd, quiet_snd, logR_snd, ok_bind, LogR.pure_snd, bind_assoc]
      rfl
    rw [e, hr, ok_bind, h, ok_bind, pure_ok]

example := C128_count_z 4 naiveSufsort naiveSufsort_sorts 3 none 0 [97, 98, 97, 98, 98] ⟨fun _ => none, []⟩ [97, 98, 97, 98, 98] ⟨by decide, rfl⟩ (by decide)
  (by decide)

/-- Concrete case: everything `count_z` logs for `abab`. -/
example : (countZL 4 naiveSufsort 3 none 0 [97, 98, 97, 98] ⟨fun _ => none, []⟩).1 =
    [(.info, ascii "Build DS"), (.debug, ascii " T : [97, 98, 97, 98]"), (.debug, ascii "sa : [2, 0, 3, 1]"), (.info, ascii "time: 3"),
      (.info, ascii "run LZ77"),
      (.debug, ascii "LZ77 [LZFactor { pos: 97, len: 0 }, LZFactor { pos: 98, len: 0 }, LZFactor { pos: 2, len: 2 }]")] := by
  decide +kernel

/-- C128: the messages of `count_lexparse` for a non-empty text. -/
theorem C128_count_lexparse (level : Nat) (sufsort : List UInt8 → List Nat) (hs : SortsSuffixes sufsort) (time : Nat) (inn : Option String) (p : Nat)
    (stdin : List UInt8) (w : World) (text : List UInt8) (hin : Input inn p stdin w text) (h0 : text ≠ []) (hlen : text.length < 2147483648) :
    ∃ sa fs, IsSuffixArray text sa ∧ countLexparseFactors sufsort text = .ok fs ∧
      countLexparseL level sufsort time inn p stdin w =
        (enabledMsgs level [(.info, ascii "Build DS"), (.debug, ascii " T : " ++ listText (text.map UInt8.toNat)),
          (.debug, ascii "sa : " ++ listText sa), (.info, ascii "time: " ++ decimal time), (.info, ascii "run lexparse"),
          (.debug, ascii "Lex-Parse " ++ lzFactorsText (fs.map fun f => (f.pos, f.len)))], .ok (text, fs)) := by
  have hr := readVector_input hin
  obtain ⟨fs, h, -⟩ := C22_lexparse_partial sufsort hs text h0 hlen
  refine ⟨sufsort text, fs, hs text hlen, h, Prod.ext ?_ ?_⟩
  · rw [countLexparseFactors] at h
    obtain ⟨a1, e1, h⟩ := res_bind_ok h
    obtain ⟨a2, e2, h⟩ := res_bind_ok h
    rw [countLexparseL, logR_bind_fst, quiet_bind_fst hr]
    simp only []
    rw [logR_bind_fst, logR_bind_fst, quiet_bind_fst e1, quiet_bind_fst e2, logR_bind_fst, logR_bind_fst, quiet_bind_fst h, logR_bind_fst,
      LogR.pure_fst, List.append_nil]
    simp only [logMsg_eq_enabled, ← enabledMsgs_append, factorsText_eq]
    rfl
  · have e : (countLexparseL level sufsort time inn p stdin w).2 =
        readVector inn p stdin w >>= fun t => countLexparseFactors sufsort t >>= fun fs => pure (t, fs) := by
      simp only [countLexparseL, countLexparseFactors, LogR.bind_snd, quiet_snd, logR_snd, ok_bind, LogR.pure_snd, bind_assoc]
      rfl
    rw [e, hr, ok_bind, h, ok_bind, pure_ok]

example := C128_count_lexparse 4 naiveSufsort naiveSufsort_sorts 3 none 0 [97, 98, 97, 98, 98] ⟨fun _ => none, []⟩ [97, 98, 97, 98, 98] ⟨by decide, rfl⟩
  (by decide) (by decide)

/-- C128: the line with the factors determines them. -/
theorem C128_factor_text_injective (fs gs : List LZFactor)
    (h : lzFactorsText (fs.map fun f => (f.pos, f.len)) = lzFactorsText (gs.map fun f => (f.pos, f.len))) : fs = gs := by
  rw [← factorsText_eq, ← factorsText_eq] at h
  have dig : ∀ (m n : Nat) (x y : UInt8) (r s : List UInt8), isDigit x = false → isDigit y = false →
      decimal m ++ x :: r = decimal n ++ y :: s → m = n ∧ x :: r = y :: s := by
    intro m n x y r s hx hy e
    have tw : ∀ (k : Nat) (z : UInt8) (q : List UInt8), isDigit z = false → (decimal k ++ z :: q).takeWhile isDigit = decimal k := by
      intro k z q hz
      rw [List.takeWhile_append_of_pos (decimal_isDigit k), List.takeWhile_cons_of_neg (by simp [hz]), List.append_nil]
    have h1 := tw m x r hx
    rw [e, tw n y s hy] at h1
    rw [h1] at e
    exact ⟨decimal_inj h1.symm, List.append_cancel_left e⟩
  have one : ∀ (f g : LZFactor) (r s : List UInt8), factorText f ++ r = factorText g ++ s → f = g ∧ r = s := by
    intro f g r s e
    unfold factorText at e
    simp only [List.append_assoc] at e
    have e := List.append_cancel_left e
    rw [show ascii ", len: " = 44 :: ascii " len: " by decide, List.cons_append, List.cons_append] at e
    obtain ⟨e1, e⟩ := dig _ _ _ _ _ _ (by decide) (by decide) e
    injection e with _ e
    have e := List.append_cancel_left e
    rw [show ascii " }" = 32 :: [125] by decide, List.cons_append, List.cons_append] at e
    obtain ⟨e2, e⟩ := dig _ _ _ _ _ _ (by decide) (by decide) e
    refine ⟨?_, by simpa using e⟩
    cases f; cases g
    simp only at e1 e2
    rw [e1, e2]
  have tl : ∀ fs gs : List LZFactor, factorsTail fs = factorsTail gs → fs = gs := by
    intro fs
    induction fs with
    | nil =>
      intro gs h
      cases gs with
      | nil => rfl
      | cons g gs =>
        have := congrArg List.head? h
        simp [factorsTail, ascii] at this
    | cons f fs ih =>
      intro gs h
      cases gs with
      | nil =>
        have := congrArg List.head? h
        simp [factorsTail, ascii] at this
      | cons g gs =>
        simp only [factorsTail, List.append_assoc] at h
        obtain ⟨e1, e2⟩ := one _ _ _ _ (List.append_cancel_left h)
        rw [e1, ih gs e2]
  have ne : ∀ (g : LZFactor) (gs : List LZFactor), factorsText [] ≠ factorsText (g :: gs) := by
    intro g gs h
    have := congrArg (fun l => l[1]?) h
    simp [factorsText, factorText, ascii] at this
  cases fs with
  | nil =>
    cases gs with
    | nil => rfl
    | cons g gs => exact absurd h (ne g gs)
  | cons f fs =>
    cases gs with
    | nil => exact absurd h.symm (ne f fs)
    | cons g gs =>
      simp only [factorsText, List.append_assoc] at h
      obtain ⟨e1, e2⟩ := one _ _ _ _ (List.append_cancel_left h)
      rw [e1, tl fs gs e2]

example : factorsText [⟨97, 0⟩, ⟨0, 12⟩] = ascii "[LZFactor { pos: 97, len: 0 }, LZFactor { pos: 0, len: 12 }]" := by decide +kernel

/-- C128: the empty text: the panic of both tools comes after the text and the suffix array and before the time. -/
theorem C128_empty_text (level : Nat) (sufsort : List UInt8 → List Nat) (hs : SortsSuffixes sufsort) (time : Nat) (inn : Option String) (p : Nat)
    (stdin : List UInt8) (w : World) (hin : Input inn p stdin w []) :
    ∃ e e', countZL level sufsort time inn p stdin w =
        (enabledMsgs level [(.info, ascii "Build DS"), (.debug, ascii " T : []"), (.debug, ascii "sa : []")], .error e) ∧
      countLexparseL level sufsort time inn p stdin w =
        (enabledMsgs level [(.info, ascii "Build DS"), (.debug, ascii " T : []"), (.debug, ascii "sa : []")], .error e') := by
  have hr := readVector_input hin
  have hsa : sufsort [] = [] := List.eq_nil_of_length_eq_zero (by rw [(hs [] (by decide)).length]; rfl)
  have hi : inversePermutation 2147483647 [] = .ok [] := by decide
  refine ⟨.index, .assert, Prod.ext ?_ ?_, Prod.ext ?_ ?_⟩
  · rw [countZL, logR_bind_fst, quiet_bind_fst hr]
    simp only [hsa]
    rw [logR_bind_fst, logR_bind_fst, quiet_bind_fst hi, LogR.bind_fst_error (show (quiet (computePsv [])).2 = .error .index from C11_empty.1),
      quiet_fst]
    simp only [logMsg_eq_enabled, List.append_nil, ← enabledMsgs_append]
    rfl
  · simp only [countZL, LogR.bind_snd, quiet_snd, logR_snd, ok_bind, hr, hsa, hi, C11_empty.1]
    rfl
  · rw [countLexparseL, logR_bind_fst, quiet_bind_fst hr]
    simp only [hsa]
    rw [logR_bind_fst, logR_bind_fst, LogR.bind_fst_error (show (quiet (computePhi [])).2 = .error .assert from C09_compute_phi_empty),
      quiet_fst]
    simp only [logMsg_eq_enabled, List.append_nil, ← enabledMsgs_append]
    rfl
  · simp only [countLexparseL, LogR.bind_snd, quiet_snd, logR_snd, ok_bind, hr, hsa, C09_compute_phi_empty]
    rfl

example := C128_empty_text 4 naiveSufsort naiveSufsort_sorts 3 none 0 [] ⟨fun _ => none, []⟩ ⟨by decide, rfl⟩

/-- C128: the messages of `mus` for a non-empty text; the panic of C24 comes after them. -/
theorem C128_mus (level : Nat) (sufsort : List UInt8 → List Nat) (hs : SortsSuffixes sufsort) (time : Nat) (inn : Option String) (p : Nat)
    (stdin : List UInt8) (w : World) (text : List UInt8) (hin : Input inn p stdin w text) (h0 : text ≠ []) (hlen : text.length < 2147483648) :
    musL level sufsort time inn p stdin w =
      (enabledMsgs level [(.info, ascii "args.prefixlength: " ++ decimal p), (.info, ascii "Build DS"), (.info, ascii "time: " ++ decimal time)],
        musTool sufsort text) := by
  have hr := readVector_input hin
  obtain ⟨isa, phi, plcp, lcp, e1, e2, e3, e4, -⟩ := musArrays_build h0 hlen.le (hs text hlen)
  refine Prod.ext ?_ ?_
  · rw [musL, logR_bind_fst, logR_bind_fst, quiet_bind_fst hr]
    simp only []
    rw [quiet_bind_fst e1, quiet_bind_fst e2, quiet_bind_fst e3, quiet_bind_fst e4, logR_bind_fst, quiet_fst, List.append_nil]
    simp only [logMsg_eq_enabled, ← enabledMsgs_append]
    rfl
  · have e : (musL level sufsort time inn p stdin w).2 = readVector inn p stdin w >>= musTool sufsort := by
      simp only [musL, LogR.bind_snd, quiet_snd, logR_snd, ok_bind]
      rfl
    rw [e, hr, ok_bind]

example := C128_mus 3 naiveSufsort naiveSufsort_sorts 3 none 0 [97, 98, 97, 98, 98] ⟨fun _ => none, []⟩ [97, 98, 97, 98, 98] ⟨by decide, rfl⟩ (by decide)
  (by decide)

/-- The messages of `bwt` and of `count_r` before the transform. -/
def bwtMessages (label : String) (useMatrix noDollar : Bool) (p : Nat) : List Message :=
  [(.info, ascii "no_dollar?: " ++ ascii (if noDollar then "true" else "false")), (.info, ascii "use matrix?: " ++ ascii (if useMatrix then "true" else "false")),
    (.info, ascii label ++ decimal p), (.info, ascii "read text"), (.info, ascii "build bwt")]

/-- C128: the messages of `bwt` and `count_r` for a zero-free text: without options the text with its sentinel, its transform and its
suffix array; with `--use-matrix --no-dollar` nothing more for short texts, and from 100 bytes on the least rotation of the text with a
sentinel the user never asked for, and the transform and the suffix array of that. -/
theorem C128_bwt (label : String) (level : Nat) (sufsort : List UInt8 → List Nat) (hs : SortsSuffixes sufsort) (inn : Option String) (p : Nat)
    (stdin : List UInt8) (w : World) (text : List UInt8) (hin : Input inn p stdin w text) (hz : ∀ x ∈ text, x ≠ 0)
    (hlen : text.length < 2147483647) :
    (∃ b sa, IsMatrixBwt (text ++ [0]) b ∧ IsSuffixArray (text ++ [0]) sa ∧
      bwtL label level sufsort false false inn p stdin w =
        (enabledMsgs level (bwtMessages label false false p ++ [(.debug, ascii "text: " ++ listText ((text ++ [0]).map UInt8.toNat)),
          (.debug, ascii "bwt: " ++ listText (b.map UInt8.toNat)), (.debug, ascii "sa: " ++ listText sa)]), .ok b)) ∧
    (text.length < 100 → ∃ b, IsMatrixBwt text b ∧
      bwtL label level sufsort true true inn p stdin w = (enabledMsgs level (bwtMessages label true true p), .ok b)) ∧
    (100 ≤ text.length → ∃ i b c sa, i < text.length ∧ IsNecklace (rot i text) ∧ IsMatrixBwt text b ∧ IsMatrixBwt (rot i text ++ [0]) c ∧
      c.erase 0 = b ∧ IsSuffixArray (rot i text ++ [0]) sa ∧
      bwtL label level sufsort true true inn p stdin w =
        (enabledMsgs level (bwtMessages label true true p ++ [(.debug, ascii "text: " ++ listText ((rot i text ++ [0]).map UInt8.toNat)),
          (.debug, ascii "bwt: " ++ listText (c.map UInt8.toNat)), (.debug, ascii "sa: " ++ listText sa)]), .ok b)) := by
  have hr := readVector_input hin
  have hsnd := fun m d => (C128_logging_is_harmless level sufsort (fun _ => true) inn none p 0 stdin w).2.2.2.2.1 label m d
  have hpre : ∀ m d, (bwtL label level sufsort m d inn p stdin w).1 = enabledMsgs level (bwtMessages label m d p) ++
      (if m then
        if (if d then text else text ++ [0]).length < 100 then quiet (bwtByMatrixNaive (if d then text else text ++ [0]))
        else bwtByMatrixL level sufsort (if d then text else text ++ [0])
      else bwtFromTextBySaL level sufsort (if d then text else text ++ [0])).1 := by
    intro m d
    rw [bwtL, logR_bind_fst, logR_bind_fst, logR_bind_fst, logR_bind_fst, quiet_bind_fst hr]
    simp only []
    rw [logR_bind_fst]
    simp only [logMsg_eq_enabled, ← List.append_assoc, ← enabledMsgs_append]
    rfl
  have hsaL : ∀ t b, bwtFromTextBySa sufsort t = .ok b → (bwtFromTextBySaL level sufsort t).1 =
      enabledMsgs level [(.debug, ascii "text: " ++ listText (t.map UInt8.toNat)), (.debug, ascii "bwt: " ++ listText (b.map UInt8.toNat)),
        (.debug, ascii "sa: " ++ listText (sufsort t))] := by
    intro t b h
    rw [bwtFromTextBySaL, quiet_bind_fst h, logR_bind_fst, logR_bind_fst, logR_bind_fst, LogR.pure_fst, List.append_nil]
    simp only [logMsg_eq_enabled, ← enabledMsgs_append]
    rfl
  refine ⟨?_, fun hshort => ?_, fun hlong => ?_⟩
  · obtain ⟨b, h1, -, h3, -⟩ := C12_bwt_sa_eq_matrix sufsort hs text hz hlen
    refine ⟨b, sufsort (text ++ [0]), h3, hs _ (by simp; omega), Prod.ext ?_ ?_⟩
    · rw [hpre]
      simp only [Bool.false_eq_true, if_false]
      rw [hsaL _ _ h1, enabledMsgs_append]
    · rw [hsnd, hr, ok_bind]
      exact h1
  · obtain ⟨b, h1, h2⟩ := naive_isMatrixBwt text
    refine ⟨b, h2, Prod.ext ?_ ?_⟩
    · rw [hpre]
      simp only [if_true, if_pos hshort, quiet_fst, List.append_nil]
    · rw [hsnd, hr, ok_bind]
      simp only [bwtTool, bwtToolTransform, if_true, bwtToolText, if_pos hshort]
      exact h1
  · have hne : text ≠ [] := by rintro rfl; simp at hlong
    obtain ⟨i, b, c, h1, h2, h3, h4, -, -, -, h5, h6⟩ := C66_lyndon_conjugate_bwts sufsort hs text hne hz hlen
    have hzr : ∀ x ∈ rot i text, x ≠ 0 := fun x hx => hz x ((rot_perm i text).mem_iff.1 hx)
    have hlr : (rot i text).length = text.length := (rot_perm i text).length_eq
    obtain ⟨c', g1, -, g3, -⟩ := C12_bwt_sa_eq_matrix sufsort hs (rot i text) hzr (by omega)
    obtain ⟨b', k1, k2, k3⟩ := C15_fast_matrix_eq_naive sufsort hs text hne hz hlen
    rw [h5] at g1; cases g1
    rw [h4] at k2; cases k2
    refine ⟨i, b, c, sufsort (rot i text ++ [0]), h2, h3, k3, g3, h6, hs _ (by simp; omega), Prod.ext ?_ ?_⟩
    · rw [hpre]
      simp only [if_true, if_neg (show ¬ text.length < 100 by omega)]
      rw [enabledMsgs_append, bwtByMatrixL, quiet_bind_fst (show assertR (decide (text.length > 0)) = .ok () by
        simp [assertR, List.length_pos_iff.2 hne]), quiet_bind_fst h1, if_pos h2.le,
        show text.drop i ++ text.take i = rot i text from rfl]
      have e : (bwtFromTextBySaL level sufsort (rot i text ++ [0])).2 = .ok c := by
        simp only [bwtFromTextBySaL, LogR.bind_snd, quiet_snd, logR_snd, ok_bind, h5, LogR.pure_snd]
      rw [LogR.bind_fst_ok e, hsaL _ _ h5, quiet_fst, List.append_nil]
    · rw [hsnd, hr, ok_bind]
      simp only [bwtTool, bwtToolTransform, if_true, bwtToolText, if_neg (show ¬ text.length < 100 by omega)]
      exact k1

example := C128_bwt "prefixlength: " 4 naiveSufsort naiveSufsort_sorts none 0 [98, 97, 97] ⟨fun _ => none, []⟩ [98, 97, 97] ⟨by decide, rfl⟩ (by decide)
  (by decide)

example := (C128_bwt "args.prefixlength: " 4 naiveSufsort naiveSufsort_sorts none 0 (List.replicate 120 98 ++ [97]) ⟨fun _ => none, []⟩
  (List.replicate 120 98 ++ [97]) ⟨by decide, rfl⟩ (by decide +kernel) (by decide +kernel)).2.2 (by decide +kernel)

end Verif.Props
