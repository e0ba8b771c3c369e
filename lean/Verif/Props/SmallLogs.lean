import Verif.Model.SmallLogs
import Verif.Props.ToolLogs

/-! # C134: what `count_sigma`, `entropy`, `entropy_kmer`, `reverse` and `escape` log

`level` is the highest level that is logged (3 is `info`). -/

namespace Verif.Props

open Verif Spec Model

/-- There is no input: the input file does not exist, or the standard input ends before `p` bytes. -/
def NoInput (inn : Option String) (p : Nat) (stdin : List UInt8) (w : World) : Prop :=
  match inn with
  | some n => w.files n = none
  | none => stdin.length < p

theorem readVector_noInput {inn : Option String} {p : Nat} {stdin : List UInt8} {w : World} (h : NoInput inn p stdin w) :
    readVector inn p stdin w = .error .unwrap := by
  cases inn with
  | some n =>
    have h' : w.files n = none := h
    simp [readVector, fileOrStdin2byteVector, h', file2byteVector]
  | none =>
    have h' : stdin.length < p := h
    simp only [readVector, fileOrStdin2byteVector, Option.map_none, stdin2byteVector, readExact]
    rw [if_pos (by omega), if_neg (by omega)]

theorem quiet_bind_fst_error {β γ : Type} {r : Res β} {e : Panic} (h : r = .error e) (f : β → LogR γ) : (quiet r >>= f).1 = [] := by
  subst h
  rfl

/-- C134: whatever is logged, the programs end in the same way and with the same results and files as without logging. -/
theorem C134_logging_is_harmless (level : Nat) (sufsort : List UInt8 → List Nat) (creatable : String → Bool) (m : Build)
    (inn out : Option String) (p order : Nat) (stdin : List UInt8) (w : World) :
    (countSigmaL level m inn p stdin w).2 = countSigmaMain m inn p stdin w ∧
    (entropyL level sufsort order inn p stdin w).2 = entropyMain sufsort order inn p stdin w ∧
    (entropyKmerL level order inn p stdin w).2 = entropyKmerMain order inn p stdin w ∧
    (reverseL level creatable inn out p stdin w).2 = reverseMainFs creatable inn out p stdin w ∧
    ∀ a r, (escapeL level creatable a inn out r w).2 = escapeMainFs creatable a inn out r w := by
  refine ⟨?_, ?_, ?_, ?_, fun a r => ?_⟩
  · simp only [countSigmaL, countSigmaMain, LogR.bind_snd, quiet_snd, logR_snd, LogR.pure_snd, ok_bind]
    rfl
  · simp only [entropyL, entropyMain, LogR.bind_snd, quiet_snd, logR_snd, LogR.pure_snd, ok_bind]
    congr 1
    funext input
    by_cases h : order = 0
    · simp only [h, if_true]; rfl
    · simp only [h, if_false]; rfl
  · simp only [entropyKmerL, entropyKmerMain, LogR.bind_snd, quiet_snd, logR_snd, LogR.pure_snd, ok_bind]
    rfl
  · unfold reverseL reverseMainFs
    cases openOut creatable out w with
    | error e => rfl
    | ok w' =>
      simp only [LogR.bind_snd, quiet_snd, logR_snd, LogR.pure_snd, ok_bind]
      cases readVector inn p stdin w' <;> rfl
  · unfold escapeL escapeMainFs
    cases openIn inn w with
    | error e => rfl
    | ok _ =>
      cases openOut creatable out w with
      | error e => rfl
      | ok w' =>
        have e : (escapeBodyL level a (readIn inn r w')).2 = escapeMain a (readIn inn r w') := by
          unfold escapeBodyL escapeMain
          split_ifs <;> rfl
        simp only [e]

/-- C134: the messages of `count_sigma`, `entropy` and `entropy_kmer` if there is an input, also if the computation then fails. -/
theorem C134_messages (level : Nat) (sufsort : List UInt8 → List Nat) (m : Build) (inn : Option String) (p order : Nat)
    (stdin : List UInt8) (w : World) (text : List UInt8) (hin : Input inn p stdin w text) :
    (countSigmaL level m inn p stdin w).1 = enabledMsgs level [(.info, ascii "filename: " ++ printedName inn),
      (.info, ascii "args.prefixlength: " ++ decimal p), (.info, ascii "read text"), (.info, ascii "compute sigma")] ∧
    (entropyL level sufsort order inn p stdin w).1 = enabledMsgs level [(.info, ascii "input_filename: " ++ printedName inn),
      (.info, ascii "prefix_length: " ++ decimal p), (.info, ascii "read text"), (.info, ascii "compute entropy")] ∧
    (1 ≤ order → order ≤ 7 → (entropyKmerL level order inn p stdin w).1 =
      enabledMsgs level [(.info, ascii "input_filename: " ++ printedName inn),
        (.info, ascii "prefix_length: " ++ decimal p), (.info, ascii "read text"), (.info, ascii "compute entropy")]) := by
  have hr := readVector_input hin
  have hn : nameBytes (getFilename inn) = printedName inn := by cases inn <;> [decide +kernel; rfl]
  have tail : ∀ {β γ : Type} (r : Res β) (f : β → γ), (quiet r >>= fun x => (pure (f x) : LogR γ)).1 = [] := by
    intro β γ r f
    cases r with
    | error e => rfl
    | ok a => rfl
  refine ⟨?_, ?_, fun h1 h7 => ?_⟩
  · rw [countSigmaL, logR_bind_fst, logR_bind_fst, logR_bind_fst, quiet_bind_fst hr, logR_bind_fst, tail]
    simp only [logMsg_eq_enabled, List.append_nil, ← enabledMsgs_append, hn]
    rfl
  · rw [entropyL, logR_bind_fst, logR_bind_fst, logR_bind_fst, quiet_bind_fst hr]
    simp only []
    rw [logR_bind_fst, tail]
    simp only [logMsg_eq_enabled, List.append_nil, ← enabledMsgs_append, hn]
    rfl
  · have a1 : assertR (decide (order > 0)) = .ok () := by simp [assertR]; omega
    have a2 : assertR (decide (order ≤ 7)) = .ok () := by simp [assertR]; omega
    rw [entropyKmerL, quiet_bind_fst a1, quiet_bind_fst a2, logR_bind_fst, logR_bind_fst, logR_bind_fst, quiet_bind_fst hr]
    simp only []
    rw [logR_bind_fst, tail]
    simp only [logMsg_eq_enabled, List.append_nil, ← enabledMsgs_append, hn]
    rfl

example := C134_messages 3 naiveSufsort .checked none 0 2 [97, 98, 97] ⟨fun _ => none, []⟩ [97, 98, 97] ⟨by decide, rfl⟩

/-- C134: without an input the tools fail, and the last message is `read text`. -/
theorem C134_no_input (level : Nat) (sufsort : List UInt8 → List Nat) (m : Build) (inn : Option String) (p order : Nat)
    (stdin : List UInt8) (w : World) (hin : NoInput inn p stdin w) :
    (∃ e, countSigmaL level m inn p stdin w = (enabledMsgs level [(.info, ascii "filename: " ++ printedName inn),
      (.info, ascii "args.prefixlength: " ++ decimal p), (.info, ascii "read text")], .error e)) ∧
    (∃ e, entropyL level sufsort order inn p stdin w = (enabledMsgs level [(.info, ascii "input_filename: " ++ printedName inn),
      (.info, ascii "prefix_length: " ++ decimal p), (.info, ascii "read text")], .error e)) ∧
    (1 ≤ order → order ≤ 7 → ∃ e, entropyKmerL level order inn p stdin w =
      (enabledMsgs level [(.info, ascii "input_filename: " ++ printedName inn),
        (.info, ascii "prefix_length: " ++ decimal p), (.info, ascii "read text")], .error e)) := by
  have hr := readVector_noInput hin
  have hn : nameBytes (getFilename inn) = printedName inn := by cases inn <;> [decide +kernel; rfl]
  refine ⟨⟨.unwrap, Prod.ext ?_ ?_⟩, ⟨.unwrap, Prod.ext ?_ ?_⟩, fun h1 h7 => ⟨.unwrap, ?_⟩⟩
  · rw [countSigmaL, logR_bind_fst, logR_bind_fst, logR_bind_fst, quiet_bind_fst_error hr]
    simp only [logMsg_eq_enabled, List.append_nil, ← enabledMsgs_append, hn]
    rfl
  · simp only [countSigmaL, LogR.bind_snd, quiet_snd, logR_snd, ok_bind, hr, error_bind]
  · rw [entropyL, logR_bind_fst, logR_bind_fst, logR_bind_fst, quiet_bind_fst_error hr]
    simp only [logMsg_eq_enabled, List.append_nil, ← enabledMsgs_append, hn]
    rfl
  · simp only [entropyL, LogR.bind_snd, quiet_snd, logR_snd, ok_bind, hr, error_bind]
  · have a1 : assertR (decide (order > 0)) = .ok () := by simp [assertR]; omega
    have a2 : assertR (decide (order ≤ 7)) = .ok () := by simp [assertR]; omega
    refine Prod.ext ?_ ?_
    · rw [entropyKmerL, quiet_bind_fst a1, quiet_bind_fst a2, logR_bind_fst, logR_bind_fst, logR_bind_fst,
        quiet_bind_fst_error hr]
      simp only [logMsg_eq_enabled, List.append_nil, ← enabledMsgs_append, hn]
      rfl
    · simp only [entropyKmerL, LogR.bind_snd, quiet_snd, logR_snd, ok_bind, hr, error_bind, a1, a2]

example := C134_no_input 3 naiveSufsort .checked (some "x") 0 2 [] ⟨fun _ => none, []⟩ rfl
example := C134_no_input 3 naiveSufsort .checked none 7 2 [97, 98] ⟨fun _ => none, []⟩ (by show 2 < 7; decide)

/-- C134: `entropy_kmer` refuses an order that is not between 1 and 7 before it logs anything. -/
theorem C134_kmer_order (level order : Nat) (h : order = 0 ∨ 7 < order) (inn : Option String) (p : Nat) (stdin : List UInt8) (w : World) :
    entropyKmerL level order inn p stdin w = ([], .error .assert) := by
  rcases h with rfl | h
  · rfl
  · have a1 : assertR (decide (order > 0)) = .ok () := by simp [assertR]; omega
    have a2 : assertR (decide (order ≤ 7)) = .error .assert := by simp [assertR]; omega
    refine Prod.ext ?_ ?_
    · rw [entropyKmerL, quiet_bind_fst a1, quiet_bind_fst_error a2]
    · simp only [entropyKmerL, LogR.bind_snd, quiet_snd, ok_bind, a1, a2, error_bind]

example := C134_kmer_order 3 8 (by decide) none 0 [97] ⟨fun _ => none, []⟩

/-- The files after an output file has been opened (and emptied). -/
def Opened (out : Option String) (w : World) : World :=
  match out with
  | none => w
  | some n => w.set n []

/-- C134: `reverse` logs nothing if its output file cannot be created; otherwise its last message is `compute reverse` if there is an input
after the output file has been emptied, and `read text` if there is none. -/
theorem C134_reverse (level : Nat) (creatable : String → Bool) (inn out : Option String) (p : Nat) (stdin : List UInt8) (w : World) :
    (∀ o, out = some o → creatable o = false → ∃ e, reverseL level creatable inn out p stdin w = ([], w, .error e)) ∧
    ((∀ o, out = some o → creatable o = true) →
      (∀ text, Input inn p stdin (Opened out w) text → ∃ w', reverseL level creatable inn out p stdin w =
        (enabledMsgs level [(.info, ascii "prefix_length: " ++ decimal p), (.info, ascii "read text"), (.info, ascii "compute reverse")], w', .ok ())) ∧
      (NoInput inn p stdin (Opened out w) → ∃ e, reverseL level creatable inn out p stdin w =
        (enabledMsgs level [(.info, ascii "prefix_length: " ++ decimal p), (.info, ascii "read text")], Opened out w, .error e))) := by
  constructor
  · rintro o rfl ho
    exact ⟨.unwrap, by simp [reverseL, openOut, ho]⟩
  · intro ho
    have hopen : openOut creatable out w = .ok (Opened out w) := by
      cases out with
      | none => rfl
      | some o => simp [openOut, ho o rfl, Opened]
    refine ⟨fun text hin => ⟨writeOut out text.reverse (Opened out w), ?_⟩, fun hin => ⟨.unwrap, ?_⟩⟩
    · have hr := readVector_input hin
      unfold reverseL
      rw [hopen]
      simp only [LogR.bind_snd, quiet_snd, logR_snd, LogR.pure_snd, ok_bind, hr, logR_bind_fst, quiet_bind_fst (rfl : (Except.ok text : Res (List UInt8)) = .ok text), LogR.pure_fst]
      simp only [logMsg_eq_enabled, List.append_nil, ← enabledMsgs_append]
      rfl
    · have hr := readVector_noInput hin
      unfold reverseL
      rw [hopen]
      simp only [LogR.bind_snd, quiet_snd, logR_snd, LogR.pure_snd, ok_bind, hr, logR_bind_fst, error_bind,
        quiet_bind_fst_error (rfl : (Except.error .unwrap : Res (List UInt8)) = .error .unwrap)]
      simp only [logMsg_eq_enabled, List.append_nil, ← enabledMsgs_append]
      rfl

example := ((C134_reverse 3 (fun _ => true) none (some "o") 0 [97, 98] ⟨fun _ => none, []⟩).2 (fun _ _ => rfl)).1 [97, 98] ⟨by decide, rfl⟩
example := ((C134_reverse 3 (fun _ => true) (some "i") (some "o") 0 [] ⟨fun _ => none, []⟩).2 (fun _ _ => rfl)).2 rfl
example := (C134_reverse 3 (fun _ => false) (some "i") (some "o") 0 [] ⟨fun _ => none, []⟩).1 "o" rfl rfl

/-- The tables `escape` accepts: as many replacements as bytes to replace, the escape byte is none of them, and no byte is both replaced and a
replacement. -/
def GoodTables (a : EscapeArgs) : Prop :=
  a.fromSymbols.length = a.toSymbols.length ∧ a.escapeSymbol ∉ a.fromSymbols ∧ a.escapeSymbol ∉ a.toSymbols ∧
  ∀ x ∈ a.fromSymbols, x ∉ a.toSymbols

/-- C134: `escape` logs one message, before it reads anything; it logs nothing exactly if a file cannot be opened or its tables are refused,
and it then fails without having written a byte. -/
theorem C134_escape (level : Nat) (creatable : String → Bool) (a : EscapeArgs) (inn out : Option String) (r : Reader) (w : World) :
    ((∀ i, inn = some i → w.files i ≠ none) → (∀ o, out = some o → creatable o = true) → GoodTables a →
      (escapeL level creatable a inn out r w).1 = enabledMsgs level [(.info, ascii "args.prefixlength: " ++ decimal a.prefixlength)]) ∧
    (((∃ i, inn = some i ∧ w.files i = none) ∨ (∃ o, out = some o ∧ creatable o = false) ∨ ¬ GoodTables a) →
      ∃ w' e, escapeL level creatable a inn out r w = ([], w', .error e) ∧ (w' = w ∨ w' = Opened out w)) := by
  have hbody : ∀ rd, (GoodTables a → (escapeBodyL level a rd).1 = enabledMsgs level [(.info, ascii "args.prefixlength: " ++ decimal a.prefixlength)]) ∧
      (¬ GoodTables a → escapeBodyL level a rd = ([], [], .error .assert)) := by
    intro rd
    unfold escapeBodyL GoodTables
    constructor
    · rintro ⟨h1, h2, h3, h4⟩
      rw [if_neg (by simpa using h1), if_neg h2, if_neg h3, if_neg (by simpa using h4)]
      exact logMsg_eq_enabled _ _ _
    · intro h
      split_ifs with h1 h2 h3 h4
      · rfl
      · rfl
      · rfl
      · rfl
      all_goals exact absurd ⟨by simpa using h1, h2, h3, by simpa using h4⟩ h
  constructor
  · intro hi ho ht
    have h1 : openIn inn w = .ok () := by
      cases inn with
      | none => rfl
      | some i => simp [openIn, Option.isSome_iff_ne_none, hi i rfl]
    have h2 : openOut creatable out w = .ok (Opened out w) := by
      cases out with
      | none => rfl
      | some o => simp [openOut, ho o rfl, Opened]
    simp only [escapeL, h1, h2]
    exact (hbody _).1 ht
  · intro h
    have hE : ∀ {e}, openIn inn w = .error e → ∃ w' e, escapeL level creatable a inn out r w = ([], w', .error e) ∧ (w' = w ∨ w' = Opened out w) :=
      fun {e} he => ⟨w, e, by simp [escapeL, he], .inl rfl⟩
    have hO : ∀ {e}, openOut creatable out w = .error e →
        ∃ w' e, escapeL level creatable a inn out r w = ([], w', .error e) ∧ (w' = w ∨ w' = Opened out w) := by
      intro e he
      cases hi : openIn inn w with
      | error e => exact hE hi
      | ok u => exact ⟨w, e, by simp [escapeL, hi, he], .inl rfl⟩
    rcases h with ⟨i, rfl, hi⟩ | ⟨o, rfl, ho⟩ | h
    · exact hE (e := .unwrap) (by simp [openIn, hi])
    · exact hO (e := .unwrap) (by simp [openOut, ho])
    · cases hi : openIn inn w with
      | error e => exact hE hi
      | ok u =>
        cases ho : openOut creatable out w with
        | error e => exact hO ho
        | ok w' =>
          have hw : w' = Opened out w := by
            cases out with
            | none => simpa [openOut, Opened] using ho.symm
            | some o =>
              simp only [openOut] at ho
              split_ifs at ho
              simpa [Opened] using ho.symm
          subst hw
          refine ⟨Opened out w, .assert, ?_, .inr rfl⟩
          simp only [escapeL, hi, ho, (hbody _).2 h]
          cases out with
          | none => simp [writeOut, Opened]
          | some o =>
            have e : writeOut (some o) [] (w.set o []) = w.set o [] := by
              simp only [writeOut, World.set, World.mk.injEq, and_true]
              funext x
              by_cases hx : x = o <;> simp [hx]
            simp only [Opened, e]

example := (C134_escape 3 (fun _ => true) ⟨5, 254, [0, 255], [1, 2], false⟩ none none [.byte 0] ⟨fun _ => none, []⟩).1 (fun _ h => nomatch h)
  (fun _ h => nomatch h) (by refine ⟨rfl, ?_, ?_, ?_⟩ <;> decide)
example := (C134_escape 3 (fun _ => true) ⟨5, 254, [0, 254], [1, 2], false⟩ none none [.byte 0] ⟨fun _ => none, []⟩).2
  (.inr (.inr (fun h => h.2.1 (by decide))))

end Verif.Props
