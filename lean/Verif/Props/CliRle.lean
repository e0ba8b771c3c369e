import Verif.Props.CliDocs
import Verif.Props.RleRelease
import Verif.Props.RleZero
import Verif.Props.Generators

/-! # C104, C105: `rle` and `enumerate` on the command line -/

namespace Verif.Props

open Verif Spec Spec.Cli Model Model.Cli

/-! ## rle -/

/-- C104 (refutation): a build with debug assertions (`cargo run`, `cargo build`) of `rle` cannot be used: whatever the
command line, even `--help`, it panics and changes nothing. -/
theorem C104_rle_debug_refuted (usage : List UInt8) (creatable : String → Bool) (argv : List (List Char)) (stdin : Reader)
    (w : World) : rleCmd .checked usage creatable argv stdin w = (w, .error .assert) := by
  unfold rleCmd withArgs parseIn
  rw [if_pos ⟨rfl, by decide +kernel⟩]

/-- The command line of `rle` as it works in the release build: `-o` is the output file, `--onlyzero` has no letter. -/
def rleLine : Tool :=
  ⟨[⟨.infilename, some 'i', some "infilename".toList, .set .str⟩,
    ⟨.outfilename, some 'o', some "outfilename".toList, .set .str⟩,
    ⟨.onlyzero, none, some "onlyzero".toList, .setTrue⟩,
    ⟨.human, some 'h', some "human".toList, .setTrue⟩], []⟩

theorem rleLine_wf : CliWF rleLine := by
  refine ⟨by decide +kernel, by decide +kernel, by decide +kernel, by decide +kernel, ?_, by decide +kernel⟩
  intro o ho l hl
  have : ∀ o ∈ rleLine.opts, ∀ l ∈ o.long.toList, '=' ∉ l := by decide +kernel
  exact this o ho l (by rw [hl]; simp)

theorem rle_findShort (c : Char) : findShort rleArgs c = findShort rleLine c := by
  by_cases h1 : c = 'i'
  · subst h1; rfl
  by_cases h2 : c = 'o'
  · subst h2; rfl
  have e1 : ∀ (o : Opt) (d : Char) (l : List Opt), o.short = some d → c ≠ d →
      (o :: l).find? (fun o => decide (o.short = some c)) = l.find? fun o => decide (o.short = some c) := by
    intro o d l h hd
    rw [List.find?_cons_of_neg]
    simp [h, Ne.symm hd]
  have e2 : ∀ (o : Opt) (l : List Opt), o.short = none →
      (o :: l).find? (fun o => decide (o.short = some c)) = l.find? fun o => decide (o.short = some c) := by
    intro o l h
    rw [List.find?_cons_of_neg]
    simp [h]
  unfold findShort rleArgs rleLine
  simp only [List.cons_append, List.nil_append]
  refine ((e1 _ 'i' _ rfl h1).trans ((e1 _ 'o' _ rfl h2).trans (e1 _ 'o' _ rfl h2))).trans ?_
  exact ((e1 _ 'i' _ rfl h1).trans ((e1 _ 'o' _ rfl h2).trans (e2 _ _ rfl))).symm

theorem rle_stepLong (st : St) (body : List Char) : stepLong rleArgs st body = stepLong rleLine st body := by
  by_cases h : (splitEq body).1 = "onlyzero".toList
  · unfold stepLong
    rw [h]
    have e1 : findLong rleArgs "onlyzero".toList =
      some ⟨.onlyzero, some 'o', some "onlyzero".toList, .setTrue⟩ := by rfl
    have e2 : findLong rleLine "onlyzero".toList = some ⟨.onlyzero, none, some "onlyzero".toList, .setTrue⟩ := by rfl
    rw [e1, e2]
    cases (splitEq body).2 with
    | some v => rfl
    | none => cases resolve st <;> rfl
  · have : findLong rleArgs (splitEq body).1 = findLong rleLine (splitEq body).1 := by
      unfold findLong rleArgs rleLine
      have e1 : ∀ (o : Opt) (l : List Opt), o.long = some "onlyzero".toList →
          (o :: l).find? (fun o => decide (o.long = some (splitEq body).1)) =
            l.find? fun o => decide (o.long = some (splitEq body).1) := by
        intro o l h'
        rw [List.find?_cons_of_neg]
        simpa [h'] using Ne.symm h
      have e2 : ∀ (o : Opt) (l l' : List Opt), l.find? (fun o => decide (o.long = some (splitEq body).1)) =
            l'.find? (fun o => decide (o.long = some (splitEq body).1)) →
          (o :: l).find? (fun o => decide (o.long = some (splitEq body).1)) =
            (o :: l').find? fun o => decide (o.long = some (splitEq body).1) := by
        intro o l l' h'
        rw [List.find?_cons, List.find?_cons, h']
      simp only [List.cons_append, List.nil_append]
      refine e2 _ _ _ (e2 _ _ _ ?_)
      exact (e1 _ _ rfl).trans (e1 _ _ rfl).symm
    unfold stepLong
    rw [this]

theorem rle_stepShort (st : St) (r : List Char) : stepShort rleArgs st r = stepShort rleLine st r := by
  induction r generalizing st with
  | nil => rfl
  | cons c r ih =>
    rw [stepShort, stepShort, rle_findShort]
    simp only [ih]

theorem rle_steps (st : St) (argv : List (List Char)) : steps rleArgs st argv = steps rleLine st argv := by
  induction argv generalizing st with
  | nil => rfl
  | cons s argv ih =>
    have hs : step rleArgs st s = step rleLine st s := by
      unfold step
      simp only [rle_stepLong, rle_stepShort]
    rw [steps, steps, hs]
    simp only [ih]

/-- C104: the command lines of `rle` in the release build, exactly: `-o` always names the output file, `-h` is `--human`
and not a request for help, and `--onlyzero` can only be written out. -/
theorem C104_rle_release_partial (argv : List (List Char)) (occ : List (Field × Val)) :
    parseIn .wrapping rleArgs argv = .ok (.ok occ) ↔ Line rleLine argv occ := by
  rw [← parse_iff rleLine_wf]
  have : parse rleArgs argv = parse rleLine argv := by
    unfold parse
    rw [rle_steps]
    rfl
  unfold parseIn
  rw [if_neg (by rintro ⟨h, _⟩; cases h), this]
  constructor
  · intro h; exact Except.ok.inj h
  · intro h; rw [h]

/-- C104: the letter of `--onlyzero` does not select it: a command line none of whose words is `--onlyzero` never turns
the mode on, in whatever way it uses `-o`. -/
theorem C104_onlyzero_needs_long (argv : List (List Char)) (occ : List (Field × Val))
    (h : parseIn .wrapping rleArgs argv = .ok (.ok occ)) (hn : "--onlyzero".toList ∉ argv) :
    getFlag occ .onlyzero = false := by
  rw [C104_rle_release_partial] at h
  obtain ⟨gs, h1, h2, rfl, -, -⟩ := h
  rw [Bool.eq_false_iff]
  intro hf
  rw [getFlag_iff] at hf
  obtain ⟨v, hv⟩ := hf
  obtain ⟨g, hg, hgv⟩ := List.mem_flatMap.1 hv
  have hw : ∀ x ∈ g.1, x ≠ "--onlyzero".toList := by
    intro x hx e
    apply hn
    rw [← e]
    rcases h2 with rfl | rfl
    · exact List.mem_flatMap.2 ⟨g, hg, hx⟩
    · exact List.mem_append_left _ (List.mem_flatMap.2 ⟨g, hg, hx⟩)
  have hopt : ∀ o ∈ rleLine.opts, o.field = .onlyzero → o = ⟨.onlyzero, none, some "onlyzero".toList, .setTrue⟩ := by
    decide +kernel
  have hflags : ∀ (fs : List Opt) (cs : List Char), (∀ o ∈ fs, o ∈ rleLine.opts ∧ o.action = .setTrue) →
      fs.map Opt.short = cs.map some → Field.onlyzero ∉ fs.map Opt.field := by
    intro fs cs h1 h2 hm
    obtain ⟨o, ho, hof⟩ := List.mem_map.1 hm
    have e := hopt o (h1 o ho).1 hof
    have : o.short ∈ cs.map some := h2 ▸ List.mem_map.2 ⟨o, ho, rfl⟩
    rw [e] at this
    simp at this
  have hhead : ∀ (w : List Char) (fs : List Field) (x : Option (Opt × Option (List Char))), Head rleLine w fs x →
      w ≠ "--onlyzero".toList → Field.onlyzero ∉ fs ∧ ∀ o s, x = some (o, s) → o.field ≠ .onlyzero := by
    intro w fs x hd hw
    have hk : ∀ o ∈ rleLine.opts, o.action.kind? ≠ none → o.field ≠ .onlyzero := by decide +kernel
    cases hd with
    | flags fs cs hne h1 h2 hd => exact ⟨hflags _ _ h1 h2, by rintro _ _ ⟨⟩⟩
    | opened fs cs o e h1 h2 ho hk' hs hd => exact ⟨hflags _ _ h1 h2, by rintro _ _ ⟨⟩; exact hk o ho hk'⟩
    | attached fs cs o e v h1 h2 ho hk' hs hd hv1 hv2 =>
      exact ⟨hflags _ _ h1 h2, by rintro _ _ ⟨⟩; exact hk o ho hk'⟩
    | equals fs cs o e v h1 h2 ho hk' hs hd => exact ⟨hflags _ _ h1 h2, by rintro _ _ ⟨⟩; exact hk o ho hk'⟩
    | longFlag o l ho ha hl =>
      refine ⟨?_, by rintro _ _ ⟨⟩⟩
      rw [List.mem_singleton]
      intro hof
      rw [hopt o ho hof.symm] at hl
      cases hl
      exact hw rfl
    | longOpened o l ho hk' hl => exact ⟨by simp, by rintro _ _ ⟨⟩; exact hk o ho hk'⟩
    | longEquals o l v ho hk' hl => exact ⟨by simp, by rintro _ _ ⟨⟩; exact hk o ho hk'⟩
  have hmem : ∀ (fs : List Field), Field.onlyzero ∉ fs → ∀ v, (Field.onlyzero, v) ∉ fs.map fun f => (f, Val.on) := by
    intro fs hfs v hm
    obtain ⟨f, hf, e⟩ := List.mem_map.1 hm
    cases e
    exact hfs hf
  have hgrp := h1 g hg
  obtain ⟨ws, os⟩ := g
  simp only at hgrp hgv hw
  cases hgrp with
  | flags w fs hd => exact hmem fs (hhead w fs none hd (hw w (by simp))).1 _ hgv
  | attached w fs o s k v' hd hk hden =>
    obtain ⟨g1, g2⟩ := hhead w fs _ hd (hw w (by simp))
    rcases List.mem_append.1 hgv with hm | hm
    · exact hmem fs g1 _ hm
    · rw [List.mem_singleton] at hm
      exact g2 o _ rfl (congrArg Prod.fst hm).symm
  | one w fs o s k v' hd hk ho hden =>
    obtain ⟨g1, g2⟩ := hhead w fs _ hd (hw w (by simp))
    rcases List.mem_append.1 hgv with hm | hm
    · exact hmem fs g1 _ hm
    · rw [List.mem_singleton] at hm
      exact g2 o _ rfl (congrArg Prod.fst hm).symm
  | many w fs o ss k vs hd ha hne hno hden =>
    obtain ⟨g1, g2⟩ := hhead w fs _ hd (hw w (by simp))
    rcases List.mem_append.1 hgv with hm | hm
    · exact hmem fs g1 _ hm
    · obtain ⟨x, -, hx⟩ := List.mem_map.1 hm
      exact g2 o _ rfl (congrArg Prod.fst hx)

/-- C104: `rle` in the release build with input and output file, in any spelling: if no run of the file is longer than
255 bytes, the run succeeds and expanding the output file gives the input file. -/
theorem C104_rle_files_partial (usage : List UInt8) (creatable : String → Bool) (argv : List (List Char))
    (occ : List (Field × Val)) (h : Line rleLine argv occ) (i o : String)
    (hocc : occ.Perm [(.infilename, .str i.toList), (.outfilename, .str o.toList)]) (stdin : Reader) (w : World)
    (c : List UInt8) (hruns : ∀ rs, IsRuns rs c → ∀ p ∈ rs, p.2 ≤ 255) (hio : i ≠ o) (hc : creatable o = true)
    (hi : w.files i = some c) :
    ∃ w' out, rleCmd .wrapping usage creatable argv stdin w = (w', .ok 0) ∧ Wrote w o out w' ∧ unrle out = c := by
  have hp := (C104_rle_release_partial argv occ).2 h
  have hnr := line_noRepeat h
  have hrep : ∀ f, ¬ Repeatable rleLine f := by
    rintro f ⟨p, hp, -, hh⟩
    have : ∀ p ∈ rleLine.opts, p.action = .set .str ∨ p.action = .setTrue := by decide +kernel
    rcases hh with ⟨k, hk⟩ | ⟨k, hk⟩ <;> rcases this p hp with e | e <;> rw [e] at hk <;> cases hk
  have h1 : getStr occ .infilename = some i := (getStr_iff hnr (hrep _) i).2 (hocc.mem_iff.2 (by simp))
  have h2 : getStr occ .outfilename = some o := (getStr_iff hnr (hrep _) o).2 (hocc.mem_iff.2 (by simp))
  have h3 : ∀ f, f = .human ∨ f = .onlyzero → getFlag occ f = false := by
    intro f hf
    rw [Bool.eq_false_iff]
    intro hg
    obtain ⟨v, hv⟩ := (getFlag_iff occ f).1 hg
    have := hocc.mem_iff.1 hv
    rcases hf with rfl | rfl <;> simp at this
  obtain ⟨w', g1, g2⟩ := filterMain_ok (tool := rle .wrapping) (stdin := stdin) hio hc hi
  obtain ⟨rs, hrs, -⟩ := runs_exist_unique c
  have hrs' : IsRuns rs (delivered (sliceReader c)) := by rwa [delivered_slice]
  obtain ⟨k1, k2⟩ := C106_release_rle (sliceReader c) rs hrs'
  have hok : (rle .wrapping (sliceReader c)).2 = .ok () := k1.2 fun p hp => by
    have := hruns rs hrs p (List.mem_of_mem_dropLast hp)
    have := hrs.2.1 p (List.mem_of_mem_dropLast hp)
    omega
  refine ⟨w', _, ?_, g2, ?_⟩
  · unfold rleCmd withArgs
    rw [hp]
    simp only [h1, h2, h3 .human (Or.inl rfl), h3 .onlyzero (Or.inr rfl)]
    unfold rleMain rleDispatch
    simp only [Bool.false_eq_true, if_false, g1, hok]
    rfl
  · have := (k2 hok).2.2 fun p hp => (hruns rs hrs p hp).trans (by omega)
    rwa [delivered_slice] at this

/-- No option of `rle` may be repeated. -/
theorem rleLine_once (f : Field) : ¬ Repeatable rleLine f := by
  rintro ⟨p, hp, -, hh⟩
  have : ∀ p ∈ rleLine.opts, p.action = .set .str ∨ p.action = .setTrue := by decide +kernel
  rcases hh with ⟨k, hk⟩ | ⟨k, hk⟩ <;> rcases this p hp with e | e <;> rw [e] at hk <;> cases hk

/-- C104: `rle` in the release build with `-h` or `--human`, in any spelling and with or without `--onlyzero`: the output
file has "(byte,length mod 256)" for every maximal run of the input file, whatever that is. -/
theorem C104_rle_human_partial (usage : List UInt8) (creatable : String → Bool) (argv : List (List Char))
    (occ : List (Field × Val)) (h : Line rleLine argv occ) (i o : String)
    (hin : (Field.infilename, Val.str i.toList) ∈ occ) (hout : (Field.outfilename, Val.str o.toList) ∈ occ)
    (hh : (Field.human, Val.on) ∈ occ) (stdin : Reader) (w : World)
    (c : List UInt8) (rs : List (UInt8 × Nat)) (hrs : IsRuns rs c) (hio : i ≠ o) (hc : creatable o = true)
    (hi : w.files i = some c) :
    ∃ w', rleCmd .wrapping usage creatable argv stdin w = (w', .ok 0) ∧
      Wrote w o (rs.flatMap (fun p => rleTextItem p.1 (UInt8.ofNat (p.2 % 256)))) w' := by
  have hp := (C104_rle_release_partial argv occ).2 h
  have hnr := line_noRepeat h
  have h1 : getStr occ .infilename = some i := (getStr_iff hnr (rleLine_once _) i).2 hin
  have h2 : getStr occ .outfilename = some o := (getStr_iff hnr (rleLine_once _) o).2 hout
  have h3 : getFlag occ .human = true := (getFlag_iff occ _).2 ⟨_, hh⟩
  obtain ⟨w', g1, g2⟩ := filterMain_ok (tool := rleText .wrapping) (stdin := stdin) hio hc hi
  rw [C106_release_text (sliceReader c) rs (by rwa [delivered_slice])] at g1 g2
  refine ⟨w', ?_, g2⟩
  unfold rleCmd withArgs
  rw [hp]
  simp only [h1, h2, h3]
  unfold rleMain rleDispatch
  simp only [if_true, g1]
  rfl

example := C104_rle_human_partial [] (fun _ => true) (cliWords ["--onlyzero", "-hog", "-i", "f"])
  [(.onlyzero, .on), (.human, .on), (.outfilename, .str ['g']), (.infilename, .str ['f'])]
  (by rw [← parse_iff rleLine_wf]; rfl) "f" "g" (by decide) (by decide) (by decide) []
  (exampleWorld.set "f" [97, 98, 97, 97, 98]) [97, 98, 97, 97, 98] [(97, 1), (98, 1), (97, 2), (98, 1)] ⟨by decide, by decide, by decide⟩ (by decide) rfl rfl

/-- C104: `rle` in the release build with `--onlyzero` and without `--human`, in any spelling: the output file is the
encoding of the runs of `'0'` in the input file. -/
theorem C104_rle_onlyzero_partial (usage : List UInt8) (creatable : String → Bool) (argv : List (List Char))
    (occ : List (Field × Val)) (h : Line rleLine argv occ) (i o : String)
    (hin : (Field.infilename, Val.str i.toList) ∈ occ) (hout : (Field.outfilename, Val.str o.toList) ∈ occ)
    (hz : (Field.onlyzero, Val.on) ∈ occ) (hh : ∀ v, (Field.human, v) ∉ occ) (stdin : Reader) (w : World)
    (c out : List UInt8) (hcode : ZeroEncoded c out) (hio : i ≠ o) (hc : creatable o = true)
    (hi : w.files i = some c) :
    ∃ w', rleCmd .wrapping usage creatable argv stdin w = (w', .ok 0) ∧ Wrote w o out w' := by
  have hp := (C104_rle_release_partial argv occ).2 h
  have hnr := line_noRepeat h
  have h1 : getStr occ .infilename = some i := (getStr_iff hnr (rleLine_once _) i).2 hin
  have h2 : getStr occ .outfilename = some o := (getStr_iff hnr (rleLine_once _) o).2 hout
  have h3 : getFlag occ .onlyzero = true := (getFlag_iff occ _).2 ⟨_, hz⟩
  have h4 : getFlag occ .human = false := by
    rw [Bool.eq_false_iff]
    intro hg
    obtain ⟨v, hv⟩ := (getFlag_iff occ _).1 hg
    exact hh v hv
  obtain ⟨w', g1, g2⟩ := filterMain_ok (tool := rleZero .wrapping) (stdin := stdin) hio hc hi
  rw [C33_exact_partial .wrapping (sliceReader c) out (by rwa [delivered_slice])] at g1 g2
  refine ⟨w', ?_, g2⟩
  unfold rleCmd withArgs
  rw [hp]
  simp only [h1, h2, h3, h4]
  unfold rleMain rleDispatch
  simp only [Bool.false_eq_true, if_false, if_true, g1]
  rfl

example := C104_rle_onlyzero_partial [] (fun _ => true) (cliWords ["--onlyzero", "-og", "-i", "f"])
  [(.onlyzero, .on), (.outfilename, .str ['g']), (.infilename, .str ['f'])]
  (by rw [← parse_iff rleLine_wf]; rfl) "f" "g" (by decide) (by decide) (by decide)
  (by intro v hv; simp at hv) []
  (exampleWorld.set "f" [97, 48, 48, 98, 99, 48]) [97, 48, 48, 98, 99, 48] [97, 48, 1, 99, 48, 1]
  (.letter (by decide) (.run (j := 2) (by decide) (by decide) (by decide) (.letter (by decide) (.last (j := 1) (by decide) (by decide)))))
  (by decide) rfl rfl

/-- `rle -oout -i in` is such a command line; `rle -h -i in` asks for the readable output. -/
example : Line rleLine (cliWords ["-oout", "-i", "in"])
    [(.outfilename, .str "out".toList), (.infilename, .str "in".toList)] ∧
    Line rleLine (cliWords ["-h", "-i", "in"]) [(.human, .on), (.infilename, .str "in".toList)] := by
  rw [← parse_iff rleLine_wf, ← parse_iff rleLine_wf]
  exact ⟨rfl, rfl⟩

/-! ## enumerate -/

/-- Two or three numbers. -/
def enumerateNumbers : Nat × Nat × Option Nat → List Nat
  | (a, b, none) => [a, b]
  | (a, b, some c) => [a, b, c]

theorem parseUnsigned_denotes (s : List Char) (n : Nat) :
    parseUnsigned (2 ^ 64) s = some n ↔ Denotes .usize s (.num n) := by
  rw [← parseVal_iff, parseVal]
  constructor
  · intro h; rw [h]; rfl
  · intro h
    obtain ⟨m, hm, e⟩ := Option.map_eq_some_iff.1 h
    cases e
    exact hm

theorem denotes_not_optionLike {s : List Char} {n : Nat} (h : Denotes .usize s (.num n)) : ¬ OptionLike s := by
  rintro ⟨c, r, rfl⟩
  obtain ⟨m, -, -, h⟩ := h
  rcases h with h | ⟨r, h, -⟩
  · have := h.2.1 '-' List.mem_cons_self
    unfold IsDigit at this
    exact absurd this.1 (by decide)
  · cases h

theorem enumerateEnd (tr : Bool) (ns : List Nat) (x : Nat × Nat × Option Nat) :
    enumerateParse tr ns [] = .ok x ↔ ns = enumerateNumbers x := by
  obtain ⟨a, b, c⟩ := x
  unfold enumerateParse
  match ns with
  | [] => cases c <;> simp [enumerateNumbers]
  | [p] => cases c <;> simp [enumerateNumbers]
  | [p, q] => cases c <;> simp [enumerateNumbers]
  | [p, q, r] => cases c <;> simp [enumerateNumbers]
  | p :: q :: r :: s :: l => cases c <;> simp [enumerateNumbers]

theorem enumerateNumbers_length (x : Nat × Nat × Option Nat) : (enumerateNumbers x).length ≤ 3 := by
  obtain ⟨a, b, _ | c⟩ := x <;> simp [enumerateNumbers]

theorem enumerateParse_cons (trailing : Bool) (ns : List Nat) (s : List Char) (argv : List (List Char)) :
    enumerateParse trailing ns (s :: argv) =
      (let value : Except Nat (Nat × Nat × Option Nat) :=
        if ns.length < 3 then
          match parseUnsigned (2 ^ 64) s with
          | none => .error 2
          | some n => enumerateParse trailing (ns ++ [n]) argv
        else .error 2
      if trailing then value
      else if s = ['-', '-'] then enumerateParse true ns argv
      else match s with
        | '-' :: '-' :: body => if body = "help".toList ∨ body = "version".toList then .error 0 else .error 2
        | '-' :: c :: _ => if c = 'h' ∨ c = 'V' then .error 0 else .error 2
        | _ => value) := by
  rw [enumerateParse.eq_def]; rfl

theorem enumerateTrailing (argv : List (List Char)) (ns : List Nat) (x : Nat × Nat × Option Nat) :
    enumerateParse true ns argv = .ok x ↔
      ∃ ms, enumerateNumbers x = ns ++ ms ∧ List.Forall₂ (fun s n => Denotes .usize s (.num n)) argv ms := by
  induction argv generalizing ns with
  | nil =>
    rw [enumerateEnd]
    constructor
    · intro h; exact ⟨[], by simp [h], List.Forall₂.nil⟩
    · rintro ⟨ms, h1, h2⟩; cases h2; simpa using h1.symm
  | cons s argv ih =>
    rw [enumerateParse_cons]
    simp only [if_true]
    constructor
    · intro h
      split at h
      · split at h
        · cases h
        · rename_i n hn
          obtain ⟨ms, h1, h2⟩ := (ih _).1 h
          exact ⟨n :: ms, by simpa using h1, List.Forall₂.cons ((parseUnsigned_denotes s n).1 hn) h2⟩
      · cases h
    · rintro ⟨ms, h1, h2⟩
      cases h2 with
      | cons hd tl =>
        rename_i n ms
        have := enumerateNumbers_length x
        rw [h1] at this
        simp only [List.length_append, List.length_cons] at this
        rw [if_pos (by omega), (parseUnsigned_denotes s n).2 hd]
        exact (ih _).2 ⟨ms, by simpa using h1, tl⟩

theorem enumerateBefore (argv : List (List Char)) (ns : List Nat) (x : Nat × Nat × Option Nat) :
    enumerateParse false ns argv = .ok x ↔
      ∃ ms l r, (argv = l ++ r ∨ argv = l ++ ['-', '-'] :: r) ∧ enumerateNumbers x = ns ++ ms ∧
        List.Forall₂ (fun s n => Denotes .usize s (.num n)) (l ++ r) ms := by
  induction argv generalizing ns with
  | nil =>
    rw [enumerateEnd]
    constructor
    · intro h; exact ⟨[], [], [], Or.inl rfl, by simp [h], List.Forall₂.nil⟩
    · rintro ⟨ms, l, r, h0, h1, h2⟩
      rcases h0 with h0 | h0
      · obtain ⟨rfl, rfl⟩ := List.append_eq_nil_iff.1 h0.symm
        cases h2; simpa using h1.symm
      · simp at h0
  | cons s argv ih =>
    rw [enumerateParse_cons]
    simp only [Bool.false_eq_true, if_false]
    by_cases hs : s = ['-', '-']
    · rw [if_pos hs, enumerateTrailing]
      constructor
      · rintro ⟨ms, h1, h2⟩
        exact ⟨ms, [], argv, Or.inr (by rw [hs]; rfl), h1, h2⟩
      · rintro ⟨ms, l, r, h0, h1, h2⟩
        refine ⟨ms, h1, ?_⟩
        have hnot : ∀ r', ¬ List.Forall₂ (fun s n => Denotes .usize s (.num n)) (['-', '-'] :: r') ms := by
          intro r' hf
          cases hf with
          | cons hd tl => exact denotes_not_optionLike hd ⟨'-', [], rfl⟩
        rcases h0 with h0 | h0
        · rw [← h0, hs] at h2; exact absurd h2 (hnot _)
        · cases l with
          | nil => simp only [List.nil_append, List.cons.injEq] at h0; rw [h0.2]; exact h2
          | cons a l =>
            simp only [List.cons_append, List.cons.injEq] at h0
            rw [← h0.1, hs] at h2; exact absurd h2 (hnot _)
    · rw [if_neg hs]
      by_cases ho : OptionLike s
      · have lhs : ¬ ∃ ms l r, (s :: argv = l ++ r ∨ s :: argv = l ++ ['-', '-'] :: r) ∧ enumerateNumbers x = ns ++ ms ∧
            List.Forall₂ (fun s n => Denotes .usize s (.num n)) (l ++ r) ms := by
          rintro ⟨ms, l, r, h0, h1, h2⟩
          rcases h0 with h0 | h0
          · rw [← h0] at h2
            cases h2 with
            | cons hd tl => exact denotes_not_optionLike hd ho
          · cases l with
            | nil => simp only [List.nil_append, List.cons.injEq] at h0; exact hs h0.1
            | cons a l =>
              simp only [List.cons_append, List.cons.injEq] at h0
              cases h2 with
              | cons hd tl => exact denotes_not_optionLike hd (h0.1 ▸ ho)
        refine ⟨fun h => ?_, fun h => absurd h lhs⟩
        exfalso
        obtain ⟨c, r, rfl⟩ := ho
        split at h
        · split at h <;> cases h
        · split at h <;> cases h
        · rename_i h1 h2
          exact h2 c r rfl
      · split
        · rename_i body; exact absurd ⟨'-', body, rfl⟩ ho
        · rename_i c r _; exact absurd ⟨c, r, rfl⟩ ho
        · rename_i hx1 hx2
          clear hx1 hx2
          constructor
          · intro h
            split at h
            · split at h
              · cases h
              · rename_i n hn
                obtain ⟨ms, l, r, h0, h1, h2⟩ := (ih _).1 h
                refine ⟨n :: ms, s :: l, r, ?_, by simpa using h1, ?_⟩
                · rcases h0 with h0 | h0
                  · left; rw [h0]; rfl
                  · right; rw [h0]; rfl
                · exact List.Forall₂.cons ((parseUnsigned_denotes s n).1 hn) h2
            · cases h
          · rintro ⟨ms, l, r, h0, h1, h2⟩
            have h0' : ∃ l' r', (argv = l' ++ r' ∨ argv = l' ++ ['-', '-'] :: r') ∧ l ++ r = s :: (l' ++ r') := by
              rcases h0 with h0 | h0
              · exact ⟨argv, [], Or.inl (by simp), by rw [← h0]; simp⟩
              · cases l with
                | nil => simp only [List.nil_append, List.cons.injEq] at h0; exact absurd h0.1 hs
                | cons a l =>
                  simp only [List.cons_append, List.cons.injEq] at h0
                  exact ⟨l, r, Or.inr h0.2, by rw [← h0.1]; rfl⟩
            obtain ⟨l', r', h3, h4⟩ := h0'
            rw [h4] at h2
            cases h2 with
            | cons hd tl =>
              rename_i n ms
              have := enumerateNumbers_length x
              rw [h1] at this
              simp only [List.length_append, List.length_cons] at this
              rw [if_pos (by omega), (parseUnsigned_denotes s n).2 hd]
              exact (ih _).2 ⟨ms, l', r', h3, by simpa using h1, tl⟩

/-- C105: the command lines of `enumerate`, exactly: two or three numbers, with at most one `--` anywhere among them. -/
theorem C105_enumerate_lines (argv : List (List Char)) (a b : Nat) (c : Option Nat) :
    enumerateParse false [] argv = .ok (a, b, c) ↔
      ∃ l r, (argv = l ++ r ∨ argv = l ++ ['-', '-'] :: r) ∧
        List.Forall₂ (fun s n => Denotes .usize s (.num n)) (l ++ r) ([a, b] ++ c.toList) := by
  rw [enumerateBefore]
  have e : enumerateNumbers (a, b, c) = [a, b] ++ c.toList := by cases c <;> rfl
  rw [e]
  constructor
  · rintro ⟨ms, l, r, h0, h1, h2⟩
    rw [List.nil_append] at h1
    exact ⟨l, r, h0, h1 ▸ h2⟩
  · rintro ⟨l, r, h0, h2⟩
    exact ⟨_, l, r, h0, rfl, h2⟩

theorem enumerateParse_error (argv : List (List Char)) : ∀ (tr : Bool) (ns : List Nat) (e : Nat),
    enumerateParse tr ns argv = .error e → e = 2 ∨ e = 0 ∧ ∃ w ∈ argv, AsksHelp w := by
  induction argv with
  | nil =>
    intro tr ns e h
    unfold enumerateParse at h
    split at h
    · cases h
    · cases h
    · cases h; exact Or.inl rfl
  | cons s argv ih =>
    intro tr ns e h
    have lift : ∀ tr ns, enumerateParse tr ns argv = .error e → e = 2 ∨ e = 0 ∧ ∃ w ∈ s :: argv, AsksHelp w := by
      intro tr ns h
      rcases ih tr ns e h with h | ⟨h, w, hw, h'⟩
      · exact Or.inl h
      · exact Or.inr ⟨h, w, List.mem_cons_of_mem _ hw, h'⟩
    have value : (if ns.length < 3 then
        match parseUnsigned (2 ^ 64) s with
        | none => .error 2
        | some n => enumerateParse tr (ns ++ [n]) argv
      else (.error 2 : Except Nat (Nat × Nat × Option Nat))) = .error e → e = 2 ∨ e = 0 ∧ ∃ w ∈ s :: argv, AsksHelp w := by
      intro h
      split at h
      · split at h
        · cases h; exact Or.inl rfl
        · exact lift _ _ h
      · cases h; exact Or.inl rfl
    rw [enumerateParse_cons] at h
    simp only at h
    split at h
    · exact value h
    · split at h
      · exact lift _ _ h
      · split at h
        · split at h
          · rename_i hb
            cases h
            refine Or.inr ⟨rfl, _, List.mem_cons_self, ?_⟩
            rcases hb with rfl | rfl
            · exact Or.inl rfl
            · exact Or.inr (Or.inl rfl)
          · cases h; exact Or.inl rfl
        · split at h
          · rename_i hb
            cases h
            refine Or.inr ⟨rfl, _, List.mem_cons_self, Or.inr (Or.inr ⟨_, rfl, ?_⟩)⟩
            rcases hb with rfl | rfl
            · exact Or.inl List.mem_cons_self
            · exact Or.inr List.mem_cons_self
          · cases h; exact Or.inl rfl
        · exact value h

/-- C105: any other command line changes nothing: status 2 and no output, or the help text and status 0 if asked for. -/
theorem C105_enumerate_rejected (usage : List UInt8) (argv : List (List Char)) (w : World)
    (h : ∀ a b c l r, (argv = l ++ r ∨ argv = l ++ ['-', '-'] :: r) →
      ¬ List.Forall₂ (fun s n => Denotes .usize s (.num n)) (l ++ r) ([a, b] ++ Option.toList c)) :
    enumerateCmd usage argv w = (w, .ok 2) ∨
      (enumerateCmd usage argv w = ({ w with stdout := w.stdout ++ usage }, .ok 0) ∧ ∃ x ∈ argv, AsksHelp x) := by
  unfold enumerateCmd
  cases hp : enumerateParse false [] argv with
  | ok x =>
    obtain ⟨a, b, c⟩ := x
    obtain ⟨l, r, h0, h1⟩ := (C105_enumerate_lines argv a b c).1 hp
    exact absurd h1 (h a b c l r h0)
  | error e =>
    rcases enumerateParse_error argv false [] e hp with rfl | ⟨rfl, h⟩
    · exact Or.inl rfl
    · exact Or.inr ⟨rfl, h⟩

/-- C105: `enumerate a lo hi` as a command: for `1 ≤ a ≤ 26` and `1 ≤ lo ≤ hi` exactly the words of these lengths over the
first `a` letters are printed, one per line, shortest first and in lexicographic order, with status 0; for all other
numbers nothing is printed and the status is 1. -/
theorem C105_enumerate_command (usage : List UInt8) (w : World) (x y z : List Char) (a lo hi : Nat)
    (hx : Denotes .usize x (.num a)) (hy : Denotes .usize y (.num lo)) (hz : Denotes .usize z (.num hi)) :
    ((1 ≤ a ∧ a ≤ 26 ∧ 1 ≤ lo ∧ lo ≤ hi) → ∃ lines : List (List UInt8),
      enumerateCmd usage [x, y, z] w = ({ w with stdout := w.stdout ++ lines.flatMap (· ++ [10]) }, .ok 0) ∧
      (∀ v, v ∈ lines ↔ (lo ≤ v.length ∧ v.length ≤ hi) ∧ ∀ c ∈ v, 97 ≤ c.toNat ∧ c.toNat < 97 + a) ∧
      lines.Pairwise fun u v => u.length < v.length ∨ (u.length = v.length ∧ u < v)) ∧
    (¬ (1 ≤ a ∧ a ≤ 26 ∧ 1 ≤ lo ∧ lo ≤ hi) → enumerateCmd usage [x, y, z] w = (w, .ok 1)) := by
  have hp : enumerateParse false [] [x, y, z] = .ok (a, lo, some hi) := by
    rw [C105_enumerate_lines]
    exact ⟨[x, y, z], [], Or.inl rfl, List.Forall₂.cons hx (List.Forall₂.cons hy (List.Forall₂.cons hz List.Forall₂.nil))⟩
  constructor
  · rintro ⟨h1, h2, h3, h4⟩
    obtain ⟨ws, g1, g2, -⟩ := C40_enumerate a h1 h2
    refine ⟨(List.range' lo (hi + 1 - lo)).flatMap ws, ?_, ?_, ?_⟩
    · unfold enumerateCmd
      rw [hp]
      simp only [g2 lo hi h3 h4]
    · intro v
      rw [List.mem_flatMap]
      constructor
      · rintro ⟨n, hn, hv⟩
        obtain ⟨rfl, k⟩ := ((g1 n).2 v).1 hv
        rw [List.mem_range'_1] at hn
        exact ⟨by omega, k⟩
      · rintro ⟨k1, k2⟩
        exact ⟨v.length, by rw [List.mem_range'_1]; omega, ((g1 _).2 v).2 ⟨rfl, k2⟩⟩
    · rw [List.pairwise_flatMap]
      refine ⟨fun n _ => ?_, ?_⟩
      · have := (g1 n).1
        refine List.Pairwise.imp_of_mem ?_ this
        intro u v hu hv huv
        exact Or.inr ⟨(((g1 n).2 u).1 hu).1.trans (((g1 n).2 v).1 hv).1.symm, huv⟩
      · refine List.Pairwise.imp ?_ List.pairwise_lt_range'
        intro m n hmn u hu v hv
        left
        rw [(((g1 m).2 u).1 hu).1, (((g1 n).2 v).1 hv).1]
        exact hmn
  · intro hno
    unfold enumerateCmd
    rw [hp]
    simp only
    rw [C40_invalid a lo (some hi) (by
      by_contra hc
      apply hno
      push Not at hc
      obtain ⟨k1, k2, k3, k4⟩ := hc
      have := k4 hi rfl
      omega)]
    simp

example : enumerateCmd [] (cliWords ["2", "--", "1", "+2"]) ⟨fun _ => none, []⟩ =
    (⟨fun _ => none, [97, 10, 98, 10, 97, 97, 10, 97, 98, 10, 98, 97, 10, 98, 98, 10]⟩, .ok 0) := by
  unfold enumerateCmd
  have : enumerateParse false [] (cliWords ["2", "--", "1", "+2"]) = .ok (2, 1, some 2) := by rfl
  rw [this]
  have : enumerateMain 2 1 (some 2) =
    .ok ([97, 10, 98, 10, 97, 97, 10, 97, 98, 10, 98, 97, 10, 98, 98, 10], 0) := by decide +kernel
  simp only [this]
  rfl

end Verif.Props
