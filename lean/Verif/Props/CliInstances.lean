import Verif.Props.CliCommands
import Verif.Props.CliDocs
import Verif.Props.CliRle

/-! # Concrete command lines that meet the hypotheses of the theorems about commands (C100-C105, C108)

Every example applies a theorem to a fixed environment, a fixed file and a fixed command line. -/

namespace Verif.Props

open Verif Spec Spec.Cli Model Model.Cli

/-- An environment: every file can be created, the standard input delivers `abaab`. -/
noncomputable def demoEnv : Env where
  m := .checked
  usage := ascii "usage"
  creatable := fun _ => true
  sufsort := naiveSufsort
  showF := fun _ => ascii "0.5"
  est := fun k => binet k
  fuel := 1000
  time := 7
  rng := [97, 98, 97, 98]
  stdin := [.byte 97, .byte 98, .byte 97, .byte 97, .byte 98, .eof]

/-- A file system with one file. -/
def demoWorld : World := oneFile "f" [97, 98, 97, 97, 98]

theorem demo_sorts : SortsSuffixes demoEnv.sufsort := naiveSufsort_sorts

theorem demo_file : Input (some "f") 0 (delivered demoEnv.stdin) demoWorld [97, 98, 97, 97, 98] :=
  ⟨[97, 98, 97, 97, 98], rfl, by decide, rfl⟩

/-- The first three bytes of the standard input. -/
theorem demo_stdin : Input none 3 (delivered demoEnv.stdin) demoWorld [97, 98, 97] := ⟨by decide, rfl⟩

theorem demo_name : PlainName (some "f") := by
  intro n hn
  cases hn
  decide +kernel

theorem demo_noName : PlainName none := fun n hn => by cases hn

/-- Acceptance of a fixed command line. -/
local macro "accepted" : term => `((C100_command_lines (by simp [tools]) (tool_ne (by decide +kernel)) _ _).1 rfl)

/-- A setting of a fixed list of settings. -/
local macro "here" : term => `(by simp [StrIs, NumIs, FlagIs, NumsAre])

/-! ## C100, C101 -/

example (occ : List (Field × Val)) (h : Line bwtArgs (cliWords ["-un", "-if"]) occ) :
    occ = [(.useMatrix, .on), (.noDollar, .on), (.infilename, .str ['f'])] :=
  C100_unambiguous (by simp [tools]) (tool_ne (by decide +kernel)) h accepted

example := C100_exit_status (t := bwtArgs) (by simp [tools]) (cliWords ["-x"]) 2 rfl

example := C100_exit_status (t := bwtArgs) (by simp [tools]) (cliWords ["-u", "--help"]) 0 rfl

example : parse bwtArgs (cliWords ["-u", "--help", "-x"]) = .error 0 :=
  C100_help (t := bwtArgs) (by simp [tools]) (tool_ne (by decide +kernel)) [(cliWords ["-u"], [(.useMatrix, .on)])]
    (by
      intro g hg
      rw [List.mem_singleton] at hg
      subst hg
      refine Group.flags (t := bwtArgs) "-u".toList [.useMatrix] ?_
      exact Head.flags [optMatrix] ['u'] (by simp) (by decide +kernel) rfl (by decide))
    (cliWords ["-x"])
    (by
      intro i j hij hj hi _
      simp at hj
      omega)
    "--help".toList (by simp)

example := C100_rejected_no_effect demoEnv bwtArgs
  (fun argv w => bwtCmd demoEnv.m demoEnv.usage demoEnv.creatable demoEnv.sufsort argv (delivered demoEnv.stdin) w)
  (by simp [commands]) (cliWords ["-x"])
  (by
    rintro ⟨occ, h⟩
    rw [← C100_command_lines (by simp [tools]) (tool_ne (by decide +kernel))] at h
    have : (parse bwtArgs (cliWords ["-x"]) matches .ok _) = false := by decide +kernel
    rw [h] at this
    cases this) demoWorld

/-- `bwt -u -i f` and `bwt --infilename=f --use-matrix` do the same. -/
example := C101_order demoEnv bwtArgs
  (fun argv w => bwtCmd demoEnv.m demoEnv.usage demoEnv.creatable demoEnv.sufsort argv (delivered demoEnv.stdin) w)
  (by simp [commands]) (cliWords ["-u", "-i", "f"]) (cliWords ["--infilename=f", "--use-matrix"])
  [(.useMatrix, .on), (.infilename, .str ['f'])] [(.infilename, .str ['f']), (.useMatrix, .on)] accepted accepted
  (by decide)
  (by
    rintro f ⟨o, ho, hf, h⟩
    exfalso
    simp only [bwtArgs, List.mem_cons, List.not_mem_nil, or_false] at ho
    rcases ho with rfl | rfl | rfl | rfl | rfl <;> simp [optIn, optOut, optPrefix, optMatrix, optNoDollar] at h) demoWorld

example := C101_fields (t := bwtArgs) (by simp [tools]) (tool_ne (by decide +kernel)) (argv := cliWords ["-u", "-i", "f"])
  (occ := [(.useMatrix, .on), (.infilename, .str ['f'])]) accepted optIn (by simp [bwtArgs])

/-! ## C102 -/

example := C102_reverse demoEnv (cliWords ["-og", "--infilename", "f"]) [(.outfilename, .str ['g']), (.infilename, .str ['f'])]
  accepted "f" "g" (by decide) demoWorld [97, 98, 97, 97, 98] (by decide) (by decide) rfl rfl

example := C102_bwt demoEnv demo_sorts (cliWords ["-og", "--infilename", "f"])
  [(.outfilename, .str ['g']), (.infilename, .str ['f'])] accepted "f" "g" (by decide) demoWorld [97, 98, 97, 97, 98] (by decide)
  (by decide) rfl rfl

example := C102_mtf demoEnv (cliWords ["-og", "--infilename", "f"]) [(.outfilename, .str ['g']), (.infilename, .str ['f'])]
  accepted "f" "g" (by decide) demoWorld [97, 98, 97, 97, 98] (by decide) (by decide) rfl rfl

example := C102_attractor demoEnv demo_sorts (cliWords ["-a", "1", "2", "-if"])
  [(.attractor, .num 1), (.attractor, .num 2), (.infilename, .str ['f'])] accepted "f" [1, 2] (by simp) (by simp) rfl demoWorld
  [97, 98, 97, 97, 98] rfl (by decide) (by decide) (by decide)

example := C102_status_two demoEnv demo_sorts (cliWords ["-a", "1", "2", "-if"])
  [(.attractor, .num 1), (.attractor, .num 2), (.infilename, .str ['f'])] accepted "f" [1, 2] (by simp) (by simp) rfl demoWorld
  [97, 98, 97, 97, 98] rfl (by decide) (by decide) (by decide) "1,2".toList (by decide)
  (by rintro ⟨c, r, h⟩; cases h) (cliWords ["-if"])

/-! ## C103 -/

example := C103_script_lines_accepted ("thue-morse", .thueMorse, 7) (by decide +kernel)

example := C103_script_lines_run demoEnv ("thue-morse", .thueMorse, 7) (by decide +kernel) demoWorld

example := C103_infilename_accepted countRArgs (by decide) rfl "f".toList (by rintro ⟨c, r, h⟩; cases h)

example := C103_readme_names_refuted demoEnv "thuemorse" (by decide) (cliWords ["-k", "5"]) demoWorld

example := C103_escape_commas_refuted demoEnv "0,1".toList (by decide) (by rintro ⟨c, r, h⟩; cases h) 'f' (Or.inl rfl)
  (cliWords ["-t", "5"]) demoWorld

/-! ## C104, C105 -/

example := C104_onlyzero_needs_long (cliWords ["-oout", "-i", "in"])
  [(.outfilename, .str "out".toList), (.infilename, .str "in".toList)] rfl (by decide)

example := C104_rle_files_partial [] (fun _ => true) (cliWords ["-og", "-i", "f"])
  [(.outfilename, .str ['g']), (.infilename, .str ['f'])] (by rw [← parse_iff rleLine_wf]; rfl) "f" "g" (by decide) [] demoWorld
  [97, 98, 97, 97, 98]
  (by
    intro rs hrs p hp
    have h := congrArg List.length hrs.1
    rw [List.length_flatMap] at h
    have h2 := List.single_le_sum (l := rs.map fun p => (List.replicate p.2 p.1).length) (fun _ _ => Nat.zero_le _) p.2
      (List.mem_map.2 ⟨p, hp, by simp⟩)
    rw [h] at h2
    exact le_trans h2 (by decide)) (by decide) rfl rfl

example := C105_enumerate_rejected [] (cliWords ["2"]) demoWorld
  (by
    intro a b c l r hlr hf
    have hlen : (l ++ r).length ≤ 1 := by
      rcases hlr with h | h
      · rw [← h]; decide
      · have := congrArg List.length h
        simp [cliWords] at this ⊢
        omega
    have := hf.length_eq
    simp at this hlen
    omega)

example := C105_enumerate_command [] demoWorld ['2'] ['1'] ['+', '3'] 2 1 3 ((parseUnsigned_denotes _ _).1 rfl)
  ((parseUnsigned_denotes _ _).1 rfl) ((parseUnsigned_denotes _ _).1 rfl)

/-! ## C108 -/

theorem demo_runs : IsRuns [(97, 1), (98, 1), (97, 2), (98, 1)] [97, 98, 97, 97, 98] := by
  refine ⟨by decide, by decide, by decide⟩

/-- The transform of `abaab$`. -/
theorem demo_bwt : IsMatrixBwt [(97 : UInt8), 98, 97, 97, 98, 0] [98, 98, 97, 0, 97, 97] :=
  ⟨[[0, 97, 98, 97, 97, 98], [97, 97, 98, 0, 97, 98], [97, 98, 0, 97, 98, 97], [97, 98, 97, 97, 98, 0], [98, 0, 97, 98, 97, 97],
    [98, 97, 97, 98, 0, 97]], ⟨by decide +kernel, by decide +kernel⟩, by decide⟩

example := C108_count_runs demoEnv (cliWords ["-if"]) [(.infilename, .str ['f'])] accepted (some "f") here demoWorld
  [97, 98, 97, 97, 98] rfl [(97, 1), (98, 1), (97, 2), (98, 1)] demo_runs

example := C108_count_sigma demoEnv (cliWords ["-p", "3"]) [(.prefixlength, .num 3)] accepted none here 3 here demoWorld [97, 98, 97]
  demo_stdin demo_noName (by decide)

example := C108_count_r demoEnv demo_sorts (cliWords ["-if"]) [(.infilename, .str ['f'])] accepted (some "f") here 0 here false false
  here here demoWorld [97, 98, 97, 97, 98] demo_file demo_name (by decide) (by decide) (by decide) (Or.inl rfl) [98, 98, 97, 0, 97, 97]
  (by simpa using demo_bwt) [(98, 2), (97, 1), (0, 1), (97, 2)] ⟨by decide, by decide, by decide⟩

example := C108_entropy demoEnv demo_sorts (fun _ => by show ∀ c ∈ ascii "0.5", _; decide +kernel) (cliWords ["-if", "-o2"])
  [(.infilename, .str ['f']), (.order, .num 2)]
  accepted (some "f") here 0 here 2 here demoWorld [97, 98, 97, 97, 98] demo_file demo_name (by decide) (by decide) (by decide) _ rfl

example := C108_mus demoEnv demo_sorts (cliWords ["-ig"]) [(.infilename, .str ['g'])] accepted (some "g") here 0 here
  (oneFile "g" [97, 98, 97, 0]) [97, 98, 97] ⟨_, rfl, by decide, rfl⟩ (by decide) (by decide)

example := C108_count_z demoEnv demo_sorts (cliWords ["-if", "-o", "g"]) [(.infilename, .str ['f']), (.outfilename, .str ['g'])] accepted
  (some "f") (some "g") here here 0 here demoWorld [97, 98, 97, 97, 98] demo_file demo_name (fun _ _ => rfl) (by decide) (by decide)

example := C108_count_lexparse demoEnv demo_sorts (cliWords ["-if", "-o", "g"]) [(.infilename, .str ['f']), (.outfilename, .str ['g'])]
  accepted (some "f") (some "g") here here 0 here demoWorld [97, 98, 97, 97, 98] demo_file demo_name (fun _ _ => rfl) (by decide)
  (by decide)

example := C108_lyndonfactorization demoEnv (cliWords ["-p3", "-o", "g"]) [(.prefixlength, .num 3), (.outfilename, .str ['g'])]
  accepted none (some "g") here here 3 here demoWorld [97, 98, 97] demo_stdin demo_noName (fun _ _ => rfl) (by decide)

example := C108_reverse demoEnv (cliWords ["-p3", "-o", "g"]) [(.prefixlength, .num 3), (.outfilename, .str ['g'])]
  accepted none (some "g") here here 3 here demoWorld [97, 98, 97] demo_stdin (fun _ _ => rfl) (by simp)

example := C108_bwt demoEnv demo_sorts (cliWords ["-p3", "-u", "-o", "g"])
  [(.prefixlength, .num 3), (.useMatrix, .on), (.outfilename, .str ['g'])] accepted none (some "g") here here 3 here true false here here
  demoWorld [97, 98, 97] demo_stdin (fun _ _ => rfl) (by decide) (by decide) (by decide) (Or.inr ⟨rfl, by decide⟩)

example := C108_mtf demoEnv (cliWords ["-if"]) [(.infilename, .str ['f'])] accepted (some "f") none here here demoWorld
  [97, 98, 97, 97, 98] rfl (by simp) (by simp) (by decide)

/-- `escape -e 1 -f 97 -t 2 -p 9 -i f -o g`, then `escape -e 1 -f 97 -t 2 -p 9 -i g -o h --is-reversion`. -/
example := C108_escape demoEnv (cliWords ["-e", "1", "-f", "97", "-t", "2", "-p", "9", "-i", "f", "-o", "g"])
  (cliWords ["-e", "1", "-f", "97", "-t", "2", "-p", "9", "-i", "g", "-o", "h", "--is-reversion"])
  [(.escapeSymbol, .num 1), (.fromSymbols, .num 97), (.toSymbols, .num 2), (.prefixlength, .num 9), (.infilename, .str ['f']),
    (.outfilename, .str ['g'])]
  [(.escapeSymbol, .num 1), (.fromSymbols, .num 97), (.toSymbols, .num 2), (.prefixlength, .num 9), (.infilename, .str ['g']),
    (.outfilename, .str ['h']), (.isReversion, .on)]
  accepted accepted "f" "g" "h" 9 9 1 [97] [2] here here here here here here here here here here here here here here demoWorld
  [97, 98, 97, 97, 98] rfl (by decide) (by decide) (by decide) (by decide) (by decide) (by decide) (by decide) (by decide) (by decide)
  rfl rfl

example := C108_word_morphic demoEnv (fun _ => rfl) (cliWords ["-n", "fibonacci", "-k", "9", "-o", "g"])
  [(.name, .word .fibonacci), (.k, .num 9), (.outfilename, .str ['g'])] accepted "g" (by simp) rfl 9 (by simp) .fibonacci (by simp)
  demoWorld (fibWord 9) (Or.inl ⟨rfl, by decide, rfl⟩)

example := C108_word_other demoEnv (cliWords ["-n", "power2", "-k", "9", "-o", "g"])
  [(.name, .word .power2), (.k, .num 9), (.outfilename, .str ['g'])] accepted "g" (by simp) rfl 9 (by simp) .power2 (by simp) demoWorld
  (by decide) (Or.inr (Or.inl rfl))

example := C108_lyndonwords demoEnv (cliWords ["-s3"]) [(.sigma, .num 3)] accepted none here (by simp) 5 3 here here (by decide)
  (by decide) demoWorld

/-- `randomstring -a 2 -p 3`. -/
example := C108_randomstring demoEnv (cliWords ["-a2", "-p3"]) [(.alphabetSize, .num 2), (.prefixlength, .num 3)] accepted none here
  (by simp) 2 3 (by simp) here demoWorld _ rfl

example := C108_no_input demoEnv (some "g") 0 demoWorld rfl (cliWords ["-ig"]) [(.infilename, .str ['g'])] here here

end Verif.Props
