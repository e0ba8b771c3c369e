import Verif.Lemmas.CliFields
import Verif.Props.Mains

/-! # C100, C101: the command lines of the tools

`Spec.Cli.Line` (Verif/Spec/Cli.lean) describes the acceptable command lines: options in any order, short or long, values
separate, attached or after an equality sign, short flags joined, an optional `--` at the end. -/

namespace Verif.Props

open Verif Spec Spec.Cli Model Model.Cli

/-- C100: for every tool (except `rle`, C104) and **every** list of words, the parser accepts the words with certain
settings exactly if they form a command line with those settings. -/
theorem C100_command_lines {t : Tool} (ht : t ∈ tools) (hr : t ≠ rleArgs) (argv : List (List Char))
    (occ : List (Field × Val)) : parse t argv = .ok occ ↔ Line t argv occ := parse_iff (tools_wf ht hr) argv occ

/-- The grammar is unambiguous. -/
theorem C100_unambiguous {t : Tool} (ht : t ∈ tools) (hr : t ≠ rleArgs) {argv : List (List Char)}
    {occ occ' : List (Field × Val)} (h : Line t argv occ) (h' : Line t argv occ') : occ = occ' := by
  rw [← C100_command_lines ht hr] at h h'
  rw [h] at h'
  exact Except.ok.inj h'

/-- A word that contains a request for help or for the version. -/
def AsksHelp (w : List Char) : Prop :=
  w = "--help".toList ∨ w = "--version".toList ∨ ∃ r, w = '-' :: r ∧ ('h' ∈ r ∨ 'V' ∈ r)

theorem tools_noPrint {t : Tool} (ht : t ∈ tools) : ∀ o ∈ t.opts, o.action ≠ .print := by
  have : ∀ t ∈ tools, ∀ o ∈ t.opts, o.action ≠ .print := by decide
  exact this t ht

theorem helpOpts_names {o : Opt} (h : o ∈ helpOpts) :
    (o.short = some 'h' ∧ o.long = some "help".toList) ∨ (o.short = some 'V' ∧ o.long = some "version".toList) := by
  simp only [helpOpts, List.mem_cons, List.not_mem_nil, or_false] at h
  rcases h with rfl | rfl
  · exact Or.inl ⟨rfl, rfl⟩
  · exact Or.inr ⟨rfl, rfl⟩

theorem resolve_error {st : St} {e : Nat} (h : resolve st = .error e) : e = 2 := by
  unfold resolve at h
  split at h
  · cases h; rfl
  · cases h

theorem store_error {st : St} {o : Opt} {s : List Char} {e : Nat} (h : store st o s = .error e) : e = 2 := by
  unfold store at h
  split at h
  · cases h; rfl
  · split at h
    · cases h; rfl
    · split at h
      · cases h; rfl
      · cases h

theorem react_error {st : St} {o : Opt} {e : Nat} (h : react st o = .error e) : e = 2 ∨ e = 0 ∧ o.action = .print := by
  unfold react at h
  split at h
  · cases h; rename_i h; exact Or.inr ⟨rfl, h⟩
  · split at h
    · cases h; exact Or.inl rfl
    · cases h

theorem stepShort_error {t : Tool} (ht : t ∈ tools) (r : List Char) : ∀ (st : St) (e : Nat),
    stepShort t st r = .error e → e = 2 ∨ e = 0 ∧ ('h' ∈ r ∨ 'V' ∈ r) := by
  induction r with
  | nil => intro st e h; cases h
  | cons c r ih =>
    intro st e h
    rw [stepShort] at h
    split at h
    · cases h; exact Or.inl rfl
    · rename_i o hf
      have hmem := List.mem_of_find?_eq_some hf
      have hs : o.short = some c := by simpa using List.find?_some hf
      split at h
      · rename_i hr; cases h; exact Or.inl (resolve_error hr)
      · split at h
        · split at h
          · exact Or.inl (store_error h)
          · cases h
        · split at h
          · rename_i hr
            cases h
            rcases react_error hr with h | ⟨h, hp⟩
            · exact Or.inl h
            · right
              refine ⟨h, ?_⟩
              rcases List.mem_append.1 hmem with hm | hm
              · exact absurd hp (tools_noPrint ht o hm)
              · rcases helpOpts_names hm with h | h
                · left; rw [h.1] at hs; cases hs; exact List.mem_cons_self
                · right; rw [h.1] at hs; cases hs; exact List.mem_cons_self
          · rcases ih _ e h with h | ⟨h, h' | h'⟩
            · exact Or.inl h
            · exact Or.inr ⟨h, Or.inl (List.mem_cons_of_mem _ h')⟩
            · exact Or.inr ⟨h, Or.inr (List.mem_cons_of_mem _ h')⟩

theorem stepLong_error {t : Tool} (ht : t ∈ tools) (body : List Char) (st : St) (e : Nat)
    (h : stepLong t st body = .error e) : e = 2 ∨ e = 0 ∧ (body = "help".toList ∨ body = "version".toList) := by
  unfold stepLong at h
  split at h
  · cases h; exact Or.inl rfl
  · rename_i o hf
    have hmem := List.mem_of_find?_eq_some hf
    have hs : o.long = some (splitEq body).1 := by simpa using List.find?_some hf
    split at h
    · split at h
      · rename_i hr; cases h; exact Or.inl (resolve_error hr)
      · exact Or.inl (store_error h)
    · split at h
      · rename_i hr; cases h; exact Or.inl (resolve_error hr)
      · cases h
    · cases h; exact Or.inl rfl
    · rename_i hv
      split at h
      · rename_i hr; cases h; exact Or.inl (resolve_error hr)
      · rcases react_error h with h | ⟨h, hp⟩
        · exact Or.inl h
        · right
          refine ⟨h, ?_⟩
          have hb : body = (splitEq body).1 := ((splitEq_none body (splitEq body).1).1 (by rw [← hv])).1
          rcases List.mem_append.1 hmem with hm | hm
          · exact absurd hp (tools_noPrint ht o hm)
          · rcases helpOpts_names hm with h | h
            · left; rw [h.2] at hs; rw [hb]; exact (Option.some.inj hs).symm
            · right; rw [h.2] at hs; rw [hb]; exact (Option.some.inj hs).symm

theorem step_error {t : Tool} (ht : t ∈ tools) (st : St) (s : List Char) (e : Nat) (h : step t st s = .error e) :
    e = 2 ∨ e = 0 ∧ AsksHelp s := by
  unfold step at h
  split at h
  · cases h; exact Or.inl rfl
  · split at h
    · cases h
    · rename_i body _
      rcases stepLong_error ht body st e h with h | ⟨h0, h' | h'⟩
      · exact Or.inl h
      · subst h'; exact Or.inr ⟨h0, Or.inl rfl⟩
      · subst h'; exact Or.inr ⟨h0, Or.inr (Or.inl rfl)⟩
    · rcases stepShort_error ht _ st e h with h | ⟨h0, h'⟩
      · exact Or.inl h
      · exact Or.inr ⟨h0, Or.inr (Or.inr ⟨_, rfl, h'⟩)⟩
    · unfold stepValue at h
      split at h
      · cases h; exact Or.inl rfl
      · split at h
        · rename_i hr; cases h; exact Or.inl (store_error hr)
        · split at h <;> cases h

theorem steps_error {t : Tool} (ht : t ∈ tools) (argv : List (List Char)) : ∀ (st : St) (e : Nat),
    steps t st argv = .error e → e = 2 ∨ e = 0 ∧ ∃ w ∈ argv, AsksHelp w := by
  induction argv with
  | nil => intro st e h; cases h
  | cons s argv ih =>
    intro st e h
    rw [steps] at h
    split at h
    · rename_i hs
      cases h
      rcases step_error ht st s e hs with h | ⟨h, h'⟩
      · exact Or.inl h
      · exact Or.inr ⟨h, s, List.mem_cons_self, h'⟩
    · rcases ih _ e h with h | ⟨h, w, hw, h'⟩
      · exact Or.inl h
      · exact Or.inr ⟨h, w, List.mem_cons_of_mem _ hw, h'⟩

/-- C100: a command line that is not accepted ends the program with status 2, or with status 0 if one of the words asks
for help or the version.  (All tools, `rle` included.) -/
theorem C100_exit_status {t : Tool} (ht : t ∈ tools) (argv : List (List Char)) (e : Nat)
    (h : parse t argv = .error e) : e = 2 ∨ e = 0 ∧ ∃ w ∈ argv, AsksHelp w := by
  unfold parse at h
  split at h
  · rename_i hs; cases h; exact steps_error ht argv _ e hs
  · split at h
    · rename_i hr; cases h; exact Or.inl (resolve_error hr)
    · split at h
      · cases h
      · cases h; exact Or.inl rfl

/-- C100: asking for help works wherever a command line could be continued: after any acceptable beginning (even with
required options still missing) `--help`, `--version`, `-h` and `-V` end the program with status 0. -/
theorem C100_help {t : Tool} (ht : t ∈ tools) (hr : t ≠ rleArgs) (gs : List (List (List Char) × List (Field × Val)))
    (hg : ∀ g ∈ gs, Group t g.1 g.2) (rest : List (List Char))
    (hn : ∀ i j, i < j → (hj : j < (gs.flatMap Prod.snd).length) → (hi : i < (gs.flatMap Prod.snd).length) →
      (gs.flatMap Prod.snd)[i].1 = (gs.flatMap Prod.snd)[j].1 → Repeatable t (gs.flatMap Prod.snd)[i].1) (w : List Char)
    (hw : w ∈ ["--help".toList, "--version".toList, "-h".toList, "-V".toList]) :
    parse t (gs.flatMap Prod.fst ++ w :: rest) = .error 0 := by
  have hwf := tools_wf ht hr
  obtain ⟨st', h1, h2, ⟨st2, h3⟩, h4⟩ := steps_groups hwf gs ⟨[], none, false⟩ _ hg rfl (resolve_none _ rfl)
    (by simpa using (noRepeat_iff t _).2 hn)
  have hs : step t st' w = .error 0 := by
    have hl : ∀ l o, o ∈ helpOpts → o.long = some l → '=' ∉ l → stepLong t st' l = .error 0 := by
      intro l o ho hl he
      have hf := (findLong_iff hwf l o).2 ⟨List.mem_append_right _ ho, hl⟩
      have hs := (splitEq_none l l).2 ⟨rfl, he⟩
      have hk : o.action.kind? = none := by rw [helpOpts_print ho]; rfl
      unfold stepLong
      simp only [hs, hf, hk, h3]
      exact react_print (helpOpts_print ho)
    have hc : ∀ c o, o ∈ helpOpts → o.short = some c → stepShort t st' [c] = .error 0 := by
      intro c o ho hs
      have hf : findShort t c = some o :=
        (find?_of_nodup _ _ (of_decide_eq_true (tools_debugAsserts ht hr)).1 c o).2 ⟨List.mem_append_right _ ho, hs⟩
      have hk : o.action.kind? = none := by rw [helpOpts_print ho]; rfl
      rw [stepShort]
      simp only [hf, hk, h3, react_print (helpOpts_print ho)]
    simp only [List.mem_cons, List.not_mem_nil, or_false] at hw
    have hst : ∀ x, step t st' x = (if st'.trailing then .error 2 else match x with
      | ['-', '-'] => .ok { st' with trailing := true }
      | '-' :: '-' :: body => stepLong t st' body
      | '-' :: c :: r => stepShort t st' (c :: r)
      | s => stepValue st' s) := fun x => rfl
    rcases hw with rfl | rfl | rfl | rfl
    · have : step t st' "--help".toList = stepLong t st' "help".toList := by rw [hst, h2]; rfl
      rw [this]; exact hl _ _ (by simp [helpOpts]; left; rfl) rfl (by decide)
    · have : step t st' "--version".toList = stepLong t st' "version".toList := by rw [hst, h2]; rfl
      rw [this]; exact hl _ _ (by simp [helpOpts]; right; rfl) rfl (by decide)
    · have : step t st' "-h".toList = stepShort t st' ['h'] := by rw [hst, h2]; rfl
      rw [this]; exact hc _ _ (by simp [helpOpts]; left; rfl) rfl
    · have : step t st' "-V".toList = stepShort t st' ['V'] := by rw [hst, h2]; rfl
      rw [this]; exact hc _ _ (by simp [helpOpts]; right; rfl) rfl
  unfold parse
  rw [steps_append, h1]
  simp only [steps, hs]

/-! ## the commands -/

/-- What the outside world provides to a command. -/
structure Env where
  m : Build
  usage : List UInt8
  creatable : String → Bool
  sufsort : List UInt8 → List Nat
  showF : ℝ → List UInt8
  est : Nat → ℝ
  fuel : Nat
  time : Nat
  rng : List UInt8
  stdin : Reader

/-- All commands with options except `rle`. -/
noncomputable def commands (E : Env) : List (Tool × (List (List Char) → World → World × Res Nat)) :=
  [(mtfArgs, fun argv w => mtfCmd E.m E.usage E.creatable argv E.stdin w),
   (escapeArgs, fun argv w => escapeCmd E.m E.usage E.creatable argv E.stdin w),
   (reverseArgs, fun argv w => reverseCmd E.m E.usage E.creatable argv (delivered E.stdin) w),
   (bwtArgs, fun argv w => bwtCmd E.m E.usage E.creatable E.sufsort argv (delivered E.stdin) w),
   (wordArgs, fun argv w => wordCmd E.m E.usage E.creatable E.est E.fuel argv w),
   (countRunsArgs, fun argv w => countRunsCmd E.m E.usage argv E.stdin w),
   (countSigmaArgs, fun argv w => countSigmaCmd E.m E.usage E.time argv (delivered E.stdin) w),
   (countRArgs, fun argv w => countRCmd E.m E.usage E.sufsort E.time argv (delivered E.stdin) w),
   (countZArgs, fun argv w => countZCmd E.m E.usage E.creatable E.sufsort E.time argv (delivered E.stdin) w),
   (countLexparseArgs, fun argv w => countLexparseCmd E.m E.usage E.creatable E.sufsort E.time argv (delivered E.stdin) w),
   (lyndonfactorizationArgs, fun argv w => lyndonfactorizationCmd E.m E.usage E.creatable E.time argv (delivered E.stdin) w),
   (entropyArgs, fun argv w => entropyCmd E.m E.usage E.sufsort E.showF E.time argv (delivered E.stdin) w),
   (entropyArgs, fun argv w => entropyKmerCmd E.m E.usage E.showF E.time argv (delivered E.stdin) w),
   (musArgs, fun argv w => musCmd E.m E.usage E.sufsort E.time argv (delivered E.stdin) w),
   (isStringattractorArgs, fun argv w => isStringattractorCmd E.m E.usage E.sufsort argv (delivered E.stdin) w),
   (lyndonwordsArgs, fun argv w => lyndonwordsCmd E.m E.usage E.creatable E.fuel argv w),
   (randomstringArgs, fun argv w => randomstringCmd E.m E.usage E.creatable E.rng argv w)]

theorem parseIn_wf {t : Tool} (ht : t ∈ tools) (hr : t ≠ rleArgs) (m : Build) (argv : List (List Char)) :
    parseIn m t argv = .ok (parse t argv) := by
  unfold parseIn; rw [if_neg]; rintro ⟨_, h'⟩; rw [tools_debugAsserts ht hr] at h'; cases h'

/-- A command is `withArgs` of its declaration, and the rest of `main` sees the settings only through the fields. -/
theorem commands_shape (E : Env) (t : Tool) (c : List (List Char) → World → World × Res Nat) (h : (t, c) ∈ commands E) :
    t ∈ tools ∧ t ≠ rleArgs ∧ ∃ run : World → List (Field × Val) → World × Res Nat,
      (∀ argv w, c argv w = withArgs E.m t E.usage argv w (run w)) ∧
      (∀ w occ occ', (∀ f, getStr occ f = getStr occ' f) → (∀ f d, getNum occ f d = getNum occ' f d) →
        (∀ f, getFlag occ f = getFlag occ' f) → (∀ f, getNums occ f = getNums occ' f) →
        (∀ f, getWord occ f = getWord occ' f) → run w occ = run w occ') := by
  have hrle : ∀ t : Tool, t.opts ≠ rleArgs.opts → t ≠ rleArgs := fun t h e => h (by rw [e])
  simp only [commands, List.mem_cons, List.not_mem_nil, or_false, Prod.mk.injEq] at h
  rcases h with ⟨rfl, rfl⟩ | ⟨rfl, rfl⟩ | ⟨rfl, rfl⟩ | ⟨rfl, rfl⟩ | ⟨rfl, rfl⟩ | ⟨rfl, rfl⟩ | ⟨rfl, rfl⟩ | ⟨rfl, rfl⟩ |
    ⟨rfl, rfl⟩ | ⟨rfl, rfl⟩ | ⟨rfl, rfl⟩ | ⟨rfl, rfl⟩ | ⟨rfl, rfl⟩ | ⟨rfl, rfl⟩ | ⟨rfl, rfl⟩ | ⟨rfl, rfl⟩ | ⟨rfl, rfl⟩ <;>
  (refine ⟨by simp [tools], hrle _ (by decide +kernel), _, fun argv w => rfl, ?_⟩
   intro w occ occ' h1 h2 h3 h4 h5
   simp only [h1, h2, h3, h4, h5])

/-- C100: a command whose words are not an acceptable command line changes no file; it prints nothing and exits with
status 2, or prints the help text and exits with status 0 because it was asked to. -/
theorem C100_rejected_no_effect (E : Env) (t : Tool) (c : List (List Char) → World → World × Res Nat)
    (hc : (t, c) ∈ commands E) (argv : List (List Char)) (hno : ¬ ∃ occ, Line t argv occ) (w : World) :
    c argv w = (w, .ok 2) ∨
      (c argv w = ({ w with stdout := w.stdout ++ E.usage }, .ok 0) ∧ ∃ x ∈ argv, AsksHelp x) := by
  obtain ⟨ht, hr, run, hrun, _⟩ := commands_shape E t c hc
  rw [hrun, withArgs, parseIn_wf ht hr]
  cases hp : parse t argv with
  | ok occ => exact absurd ⟨occ, (C100_command_lines ht hr argv occ).1 hp⟩ hno
  | error e =>
    rcases C100_exit_status ht argv e hp with rfl | ⟨rfl, h⟩
    · exact Or.inl rfl
    · exact Or.inr ⟨rfl, h⟩

/-- C100, what must be given: `word` accepts only command lines with an order and a name, `randomstring` only those with an
alphabet size; every other tool can be started without options. -/
theorem C100_required :
    (∀ argv occ, parse wordArgs argv = .ok occ → (∃ v, (Field.k, v) ∈ occ) ∧ ∃ v, (Field.name, v) ∈ occ) ∧
    (∀ argv occ, parse randomstringArgs argv = .ok occ → ∃ v, (Field.alphabetSize, v) ∈ occ) ∧
    (∀ t ∈ tools, t ≠ wordArgs → t ≠ randomstringArgs → parse t [] = .ok []) := by
  refine ⟨fun argv occ h => ?_, fun argv occ h => ?_, fun t ht h1 h2 => ?_⟩
  · obtain ⟨_, _, _, _, _, hreq⟩ := (C100_command_lines (t := wordArgs) (by simp [tools]) (fun e => absurd (congrArg Tool.opts e) (by decide +kernel)) argv occ).1 h
    exact ⟨hreq .k (by simp [wordArgs]), hreq .name (by simp [wordArgs])⟩
  · obtain ⟨_, _, _, _, _, hreq⟩ :=
      (C100_command_lines (t := randomstringArgs) (by simp [tools]) (fun e => absurd (congrArg Tool.opts e) (by decide +kernel)) argv occ).1 h
    exact hreq .alphabetSize (by simp [randomstringArgs])
  · have hreq : t.required = [] := by
      simp only [tools, List.mem_cons, List.not_mem_nil, or_false] at ht
      rcases ht with rfl | rfl | rfl | rfl | rfl | rfl | rfl | rfl | rfl | rfl | rfl | rfl | rfl | rfl | rfl | rfl | rfl <;>
        first | rfl | exact absurd rfl h1 | exact absurd rfl h2
    simp [parse, steps, resolve, hreq]

/-- `word -n vtm` without an order is refused. -/
example : parse wordArgs ["-n".toList, "vtm".toList] = .error 2 := by decide +kernel
/-- `randomstring` without an alphabet size is refused. -/
example : parse randomstringArgs ["-p".toList, "7".toList] = .error 2 := by decide +kernel
example := C100_required.1 ["-n".toList, "vtm".toList, "-k3".toList] [(.name, .word .vtm), (.k, .num 3)] (by decide +kernel)

end Verif.Props
