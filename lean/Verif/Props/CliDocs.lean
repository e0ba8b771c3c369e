import Verif.Lemmas.Release
import Verif.Props.CliOrder

/-! # C103, C104: what the documentation and the scripts write on the command line, and `rle` -/

namespace Verif.Props

open Verif Spec Spec.Cli Model Model.Cli

/-! ## the words every declared option answers to -/

/-- The words of a command line, from string literals. -/
def cliWords (l : List String) : List (List Char) := l.map String.toList

theorem wordArgs_mem : wordArgs ∈ tools := by simp [tools]
theorem wordArgs_ne : wordArgs ≠ rleArgs := fun e => absurd (congrArg Tool.opts e) (by decide +kernel)

/-! ## gen_artificial.sh -/

/-- C103: every line of gen_artificial.sh is accepted by `word` and means the word and the order the script names. -/
theorem C103_script_lines_accepted (j : String × WordName × Nat) (hj : j ∈ artificialJobs) :
    Line wordArgs (cliWords ["-n", j.1, "-k", seqToken j.2.2]) [(.name, .word j.2.1), (.k, .num j.2.2)] := by
  rw [← C100_command_lines wordArgs_mem wordArgs_ne]
  have : ∀ j ∈ artificialJobs, parse wordArgs (cliWords ["-n", j.1, "-k", seqToken j.2.2]) =
    .ok [(.name, .word j.2.1), (.k, .num j.2.2)] := by
    have hb : (artificialJobs.all fun j => match parse wordArgs (cliWords ["-n", j.1, "-k", seqToken j.2.2]) with
      | .ok o => decide (o = [(.name, .word j.2.1), (.k, .num j.2.2)])
      | .error _ => false) = true := by decide +kernel
    intro j hj
    have := List.all_eq_true.1 hb j hj
    split at this
    · rename_i o ho; rw [ho, of_decide_eq_true this]
    · cases this
  exact this j hj

/-- C103: so the command of the script is a run of `word` in the build at hand, and, whenever the model of the script (C91)
succeeds with it, the run that model uses. -/
theorem C103_script_lines_run (E : Env) (j : String × WordName × Nat) (hj : j ∈ artificialJobs) (w : World) :
    wordCmd E.m E.usage E.creatable E.est E.fuel (cliWords ["-n", j.1, "-k", seqToken j.2.2]) w =
      finish (wordMainB E.m E.creatable E.est E.fuel j.2.1 j.2.2 none w) ∧
    ∀ w', wordMain E.creatable (E.est (j.2.2 + 2)) E.fuel j.2.1 j.2.2 none w = (w', .ok ()) →
      wordCmd E.m E.usage E.creatable E.est E.fuel (cliWords ["-n", j.1, "-k", seqToken j.2.2]) w =
        finish (wordMain E.creatable (E.est (j.2.2 + 2)) E.fuel j.2.1 j.2.2 none w) := by
  have e : wordCmd E.m E.usage E.creatable E.est E.fuel (cliWords ["-n", j.1, "-k", seqToken j.2.2]) w =
      finish (wordMainB E.m E.creatable E.est E.fuel j.2.1 j.2.2 none w) := by
    unfold wordCmd
    rw [run_of_line wordArgs_mem wordArgs_ne (C103_script_lines_accepted j hj)]
    rfl
  exact ⟨e, fun w' h => by rw [e, h, wordMainB_ok h]⟩

/-! ## compute_stats.sh -/

theorem rejected_cmd {t : Tool} (ht : t ∈ tools) (hr : t ≠ rleArgs) {argv : List (List Char)}
    (h : parse t argv = .error 2) (m : Build) (usage : List UInt8) (w : World)
    (run : List (Field × Val) → World × Res Nat) : withArgs m t usage argv w run = (w, .ok 2) := by
  rw [withArgs, parseIn_wf ht hr, h]; rfl

/-- C103 (refutation): compute_stats.sh (lines 11, 21, 23 and 27) cannot work.  Whatever the file, each of its commands is
rejected with status 2 and prints nothing, because none of the tools has an option `--input` (nor `count_r` an option
`-d`): all cells of the table it is meant to print stay empty. -/
theorem C103_stats_script_refuted (E : Env) (f : List Char) (w : World) :
    countSigmaCmd E.m E.usage E.time ["--input".toList, f] (delivered E.stdin) w = (w, .ok 2) ∧
    countRCmd E.m E.usage E.sufsort E.time ["-d".toList, "--input".toList, f] (delivered E.stdin) w = (w, .ok 2) ∧
    countZCmd E.m E.usage E.creatable E.sufsort E.time ["--input".toList, f] (delivered E.stdin) w = (w, .ok 2) ∧
    ∀ k < 5, entropyCmd E.m E.usage E.sufsort E.showF E.time
      ["--order".toList, (toString k).toList, "--input".toList, f] (delivered E.stdin) w = (w, .ok 2) := by
  refine ⟨?_, ?_, ?_, ?_⟩
  · exact rejected_cmd (by simp [tools]) (fun e => absurd (congrArg Tool.opts e) (by decide +kernel)) rfl _ _ _ _
  · exact rejected_cmd (by simp [tools]) (fun e => absurd (congrArg Tool.opts e) (by decide +kernel)) rfl _ _ _ _
  · exact rejected_cmd (by simp [tools]) (fun e => absurd (congrArg Tool.opts e) (by decide +kernel)) rfl _ _ _ _
  · intro k hk
    refine rejected_cmd (by simp [tools]) (fun e => absurd (congrArg Tool.opts e) (by decide +kernel)) ?_ _ _ _ _
    have : ∀ k < 5, (steps entropyArgs ⟨[], none, false⟩
        ["--order".toList, (toString k).toList, "--input".toList] matches .error 2) = true := by decide +kernel
    have := this k hk
    have e : steps entropyArgs ⟨[], none, false⟩ ["--order".toList, (toString k).toList, "--input".toList] = .error 2 := by
      split at this
      · assumption
      · cases this
    unfold parse
    rw [show ["--order".toList, (toString k).toList, "--input".toList, f] =
      ["--order".toList, (toString k).toList, "--input".toList] ++ [f] from rfl, steps_append, e]

/-- What the script should have written: with the declared names, and any readable file, `count_sigma` runs. -/
theorem C103_infilename_accepted (t : Tool) (ho : optIn ∈ t.opts)
    (hreq : t.required = []) (f : List Char) (hf : ¬ OptionLike f) :
    Line t ["--infilename".toList, f] [(.infilename, .str f)] ∧ Line t ["-i".toList, f] [(.infilename, .str f)] := by
  constructor
  · refine ⟨[(["--infilename".toList, f], [(.infilename, .str f)])], ?_, Or.inl (by simp), by simp, ?_, by simp [hreq]⟩
    · intro g hg
      rw [List.mem_singleton] at hg; subst hg
      exact Group.one _ [] optIn f .str (.str f) (Head.longOpened optIn _ ho (by decide) rfl) rfl hf rfl
    · intro i j hij hj hi; simp at hj hi; omega
  · refine ⟨[(["-i".toList, f], [(.infilename, .str f)])], ?_, Or.inl (by simp), by simp, ?_, by simp [hreq]⟩
    · intro g hg
      rw [List.mem_singleton] at hg; subst hg
      exact Group.one _ [] optIn f .str (.str f)
        (Head.opened [] [] optIn 'i' (by simp) rfl ho (by decide) rfl (by decide)) rfl hf rfl
    · intro i j hij hj hi; simp at hj hi; omega

/-! ## README -/

/-- C103 (refutation): the first example of the README, `count_sigma --file X`, is rejected for every `X`. -/
theorem C103_readme_file_refuted (E : Env) (f : List Char) (w : World) :
    countSigmaCmd E.m E.usage E.time ["--file".toList, f] (delivered E.stdin) w = (w, .ok 2) := by
  exact rejected_cmd (by simp [tools]) (fun e => absurd (congrArg Tool.opts e) (by decide +kernel)) rfl _ _ _ _

/-- C103 (refutation): of the words listed in the README only `fibonacci` can be asked for by that name; the others are
rejected whatever follows. -/
theorem C103_readme_names_refuted (E : Env) (name : String)
    (hn : name ∈ ["thuemorse", "perioddoubling", "debruijn", "FibonacciLyndonFactor", "enumerate"])
    (rest : List (List Char)) (w : World) :
    wordCmd E.m E.usage E.creatable E.est E.fuel ("-n".toList :: name.toList :: rest) w = (w, .ok 2) := by
  refine rejected_cmd wordArgs_mem wordArgs_ne ?_ _ _ _ _
  have : parse wordArgs ("-n".toList :: name.toList :: rest) = .error 2 := by
    simp only [List.mem_cons, List.not_mem_nil, or_false] at hn
    have key : steps wordArgs ⟨[], none, false⟩ ["-n".toList, name.toList] = .error 2 := by
      rcases hn with rfl | rfl | rfl | rfl | rfl <;> rfl
    unfold parse
    rw [show "-n".toList :: name.toList :: rest = ["-n".toList, name.toList] ++ rest from rfl, steps_append, key]
  exact this

/-- C103: the second example of the README, `word -n fibonacci -k 5`, is accepted and asks for the word number 5; so is
the example `escape -f 0 -t 255 -e 254`. -/
theorem C103_readme_examples :
    Line wordArgs (cliWords ["-n", "fibonacci", "-k", "5"]) [(.name, .word .fibonacci), (.k, .num 5)] ∧
    Line escapeArgs (cliWords ["-f", "0", "-t", "255", "-e", "254"])
      [(.fromSymbols, .num 0), (.toSymbols, .num 255), (.escapeSymbol, .num 254)] := by
  rw [← C100_command_lines wordArgs_mem wordArgs_ne,
    ← C100_command_lines (by simp [tools]) (fun e => absurd (congrArg Tool.opts e) (by decide +kernel))]
  exact ⟨by rfl, by rfl⟩

/-! ## lists of bytes -/

theorem escapeArgs_mem : escapeArgs ∈ tools := by simp [tools]
theorem escapeArgs_ne : escapeArgs ≠ rleArgs := fun e => absurd (congrArg Tool.opts e) (by decide +kernel)

/-- C103 (refutation): the help text of `escape` says that the bytes are "a list separated by commas"; but a value with
a comma is rejected, whatever else the value contains and whatever follows. -/
theorem C103_escape_commas_refuted (E : Env) (v : List Char) (hv : ',' ∈ v) (hd : ¬ OptionLike v)
    (letter : Char) (hl : letter = 'f' ∨ letter = 't') (rest : List (List Char)) (w : World) :
    escapeCmd E.m E.usage E.creatable (['-', letter] :: v :: rest) E.stdin w = (w, .ok 2) := by
  refine rejected_cmd escapeArgs_mem escapeArgs_ne ?_ _ _ _ _
  have hnone : parseVal .u8 v = none := by
    cases hp : parseVal .u8 v with
    | none => rfl
    | some x =>
      obtain ⟨n, -, -, h⟩ := (parseVal_iff .u8 v x).1 hp
      exfalso
      have hnd : ¬ IsDigit ',' := by unfold IsDigit; decide
      rcases h with h | ⟨r, rfl, h⟩ | ⟨r, rfl, h, -⟩
      · exact hnd (h.2.1 _ hv)
      · rcases List.mem_cons.1 hv with h' | h'
        · exact absurd h' (by decide)
        · exact hnd (h.2.1 _ h')
      · rcases List.mem_cons.1 hv with h' | h'
        · exact absurd h' (by decide)
        · exact hnd (h.2.1 _ h')
  have : parse escapeArgs (['-', letter] :: v :: rest) = .error 2 := by
    have key : steps escapeArgs ⟨[], none, false⟩ [['-', letter], v] = .error 2 := by
      have h1 : ∃ o, o.action = .append .u8 ∧
          step escapeArgs ⟨[], none, false⟩ ['-', letter] = .ok ⟨[], some (o, false), false⟩ := by
        rcases hl with rfl | rfl
        · exact ⟨_, rfl, rfl⟩
        · exact ⟨_, rfl, rfl⟩
      obtain ⟨o, ho, h1⟩ := h1
      rw [steps, h1]
      simp only
      rw [steps, step_value _ _ _ rfl hd]
      unfold stepValue store
      simp only [ho, Action.kind?, hnone]
    unfold parse
    rw [show ['-', letter] :: v :: rest = [['-', letter], v] ++ rest from rfl, steps_append, key]
  exact this

/-- The decimal text of a number. -/
def numText (n : Nat) : List Char := (toString n).toList

theorem denotes_byte (b : UInt8) : Denotes .u8 (numText b.toNat) (.num b.toNat) ∧ ¬ OptionLike (numText b.toNat) := by
  rw [← parseVal_iff]
  have : ∀ n < 256, parseVal .u8 (numText n) = some (.num n) ∧ (numText n).head? ≠ some '-' := by decide +kernel
  obtain ⟨h1, h2⟩ := this b.toNat b.toNat_lt
  refine ⟨h1, ?_⟩
  rintro ⟨c, r, hr⟩
  rw [hr] at h2
  exact h2 rfl

/-- C103: the way to give `escape` lists is to repeat the options: for **every** two lists of bytes the words
`-f b₁ -f b₂ … -t c₁ -t c₂ …` are accepted, and the program gets exactly these lists. -/
theorem C103_escape_lists (fs ts : List UInt8) :
    ∃ occ, Line escapeArgs
        (fs.flatMap (fun b => ["-f".toList, numText b.toNat]) ++ ts.flatMap (fun b => ["-t".toList, numText b.toNat])) occ ∧
      (getNums occ .fromSymbols).map UInt8.ofNat = fs ∧ (getNums occ .toSymbols).map UInt8.ofNat = ts := by
  refine ⟨fs.map (fun b => (.fromSymbols, .num b.toNat)) ++ ts.map (fun b => (.toSymbols, .num b.toNat)),
    ⟨fs.map (fun b => (["-f".toList, numText b.toNat], [(.fromSymbols, .num b.toNat)])) ++
      ts.map (fun b => (["-t".toList, numText b.toNat], [(.toSymbols, .num b.toNat)])), ?_, Or.inl ?_, ?_, ?_, ?_⟩, ?_, ?_⟩
  · intro g hg
    rcases List.mem_append.1 hg with hg | hg
    · obtain ⟨b, -, rfl⟩ := List.mem_map.1 hg
      exact Group.one _ [] ⟨.fromSymbols, some 'f', some "from-symbols".toList, .append .u8⟩ _ .u8 _
        (Head.opened [] [] _ 'f' (by simp) rfl (by simp [escapeArgs]) (by decide) rfl (by decide)) rfl
        (denotes_byte b).2 (denotes_byte b).1
    · obtain ⟨b, -, rfl⟩ := List.mem_map.1 hg
      exact Group.one _ [] ⟨.toSymbols, some 't', some "to-symbols".toList, .append .u8⟩ _ .u8 _
        (Head.opened [] [] _ 't' (by simp) rfl (by simp [escapeArgs]) (by decide) rfl (by decide)) rfl
        (denotes_byte b).2 (denotes_byte b).1
  · simp [List.flatMap_append, List.flatMap_map]
  · simp only [List.flatMap_append, List.flatMap_map]
    rw [← List.map_eq_flatMap, ← List.map_eq_flatMap]
  · intro i j hij hj hi _
    have : ∀ p ∈ fs.map (fun b => ((Field.fromSymbols, Val.num b.toNat) : Field × Val)) ++
        ts.map (fun b => (.toSymbols, .num b.toNat)), Repeatable escapeArgs p.1 := by
      intro p hp
      rcases List.mem_append.1 hp with hp | hp
      · obtain ⟨b, -, rfl⟩ := List.mem_map.1 hp
        exact ⟨⟨.fromSymbols, some 'f', some "from-symbols".toList, .append .u8⟩, by simp [escapeArgs], rfl, Or.inl ⟨_, rfl⟩⟩
      · obtain ⟨b, -, rfl⟩ := List.mem_map.1 hp
        exact ⟨⟨.toSymbols, some 't', some "to-symbols".toList, .append .u8⟩, by simp [escapeArgs], rfl, Or.inl ⟨_, rfl⟩⟩
    exact this _ (List.getElem_mem hi)
  · simp [escapeArgs]
  · unfold getNums
    rw [List.filterMap_append, List.filterMap_map, List.filterMap_map]
    have e1 : (asNum .fromSymbols ∘ fun b : UInt8 => ((Field.fromSymbols, Val.num b.toNat) : Field × Val)) =
      some ∘ UInt8.toNat := by funext b; simp [asNum]
    have e2 : (asNum .fromSymbols ∘ fun b : UInt8 => ((Field.toSymbols, Val.num b.toNat) : Field × Val)) =
      fun _ => none := by funext b; simp [asNum]
    rw [e1, e2]
    have e3 : (UInt8.ofNat ∘ UInt8.toNat) = id := by funext b; simp
    simp [e3]
  · unfold getNums
    rw [List.filterMap_append, List.filterMap_map, List.filterMap_map]
    have e1 : (asNum .toSymbols ∘ fun b : UInt8 => ((Field.toSymbols, Val.num b.toNat) : Field × Val)) =
      some ∘ UInt8.toNat := by funext b; simp [asNum]
    have e2 : (asNum .toSymbols ∘ fun b : UInt8 => ((Field.fromSymbols, Val.num b.toNat) : Field × Val)) =
      fun _ => none := by funext b; simp [asNum]
    rw [e1, e2]
    have e3 : (UInt8.ofNat ∘ UInt8.toNat) = id := by funext b; simp
    simp [e3]

end Verif.Props
