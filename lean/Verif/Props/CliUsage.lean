import Verif.Props.CliOrder
import Verif.Spec.CliUsage

/-! # C100: which options there are -/

namespace Verif.Props

open Verif Spec Spec.Cli Model Model.Cli

/-- C100: the options of every tool (whose meaning is `Line`), and those that must be given. -/
theorem C100_options :
    usageOf bwtArgs = (["-i,--infilename <text>", "-o,--outfilename <text>", "-p,--prefixlength <0..2^64-1>", "-u,--use-matrix",
      "-n,--no-dollar"], []) ∧
    usageOf countLexparseArgs = (["-i,--infilename <text>", "-o,--outfilename <text>", "-p,--prefixlength <0..2^64-1>"], []) ∧
    usageOf countRArgs = (["-i,--infilename <text>", "-p,--prefixlength <0..2^64-1>", "-u,--use-matrix", "-n,--no-dollar"], []) ∧
    usageOf countRunsArgs = (["-i,--infilename <text>"], []) ∧
    usageOf countSigmaArgs = (["-i,--infilename <text>", "-p,--prefixlength <0..2^64-1>"], []) ∧
    usageOf countZArgs = (["-i,--infilename <text>", "-p,--prefixlength <0..2^64-1>", "-o,--outfilename <text>"], []) ∧
    usageOf entropyArgs = (["-i,--infilename <text>", "-p,--prefixlength <0..2^64-1>", "-o,--order <0..2^64-1>"], []) ∧
    usageOf escapeArgs = (["-i,--infilename <text>", "-o,--outfilename <text>", "-p,--prefixlength <0..2^64-1>",
      "-e,--escape-symbol <0..255>", "-f,--from-symbols <0..255> repeatable", "-t,--to-symbols <0..255> repeatable",
      "--is-reversion"], []) ∧
    usageOf isStringattractorArgs = (["-i,--infilename <text>", "-p,--prefixlength <0..2^64-1>",
      "-a,--attractor <0..2^64-1>... repeatable"], []) ∧
    usageOf lyndonfactorizationArgs = (["-i,--infilename <text>", "-o,--outfilename <text>", "-p,--prefixlength <0..2^64-1>"], []) ∧
    usageOf lyndonwordsArgs = (["-l <0..2^64-1>", "-s <0..2^64-1>", "-o,--outfilename <text>"], []) ∧
    usageOf mtfArgs = (["-i,--infilename <text>", "-o,--outfilename <text>"], []) ∧
    usageOf musArgs = (["-i,--infilename <text>", "-p,--prefixlength <0..2^64-1>"], []) ∧
    usageOf randomstringArgs = (["-o,--outfilename <text>", "-a,--alphabet-size <0..2^64-1>", "-p,--prefixlength <0..2^64-1>"],
      ["-a,--alphabet-size <0..2^64-1>"]) ∧
    usageOf reverseArgs = (["-i,--infilename <text>", "-o,--outfilename <text>", "-p,--prefixlength <0..2^64-1>"], []) ∧
    usageOf rleArgs = (["-i,--infilename <text>", "-o,--outfilename <text>", "-o,--onlyzero", "-h,--human"], []) ∧
    usageOf wordArgs = (["-k <0..255>", "-n,--name <word name>", "-o,--outfilename <text>"],
      ["-k <0..255>", "-n,--name <word name>"]) := by
  refine ⟨?_, ?_, ?_, ?_, ?_, ?_, ?_, ?_, ?_, ?_, ?_, ?_, ?_, ?_, ?_, ?_, ?_⟩ <;> decide +kernel

/-- The first word of an accepted command line that starts with a dash and a letter names an option of the tool. -/
theorem C100_known_letter {t : Tool} (ht : t ∈ tools) (hr : t ≠ rleArgs) (c : Char) (rest : List Char) (argv : List (List Char))
    (hc : c ≠ '-') (occ : List (Field × Val)) (h : parse t (('-' :: c :: rest) :: argv) = .ok occ) :
    ∃ o ∈ t.opts, o.short = some c := by
  obtain ⟨gs, h1, h2, -⟩ := (C100_command_lines ht hr _ occ).1 h
  have head : ∀ {w : List Char} {fs : List Field} {x : Option (Opt × Option (List Char))}, Head t w fs x →
      w = '-' :: c :: rest → ∃ o ∈ t.opts, o.short = some c := by
    intro w fs x hw e
    have pick : ∀ {fs : List Opt} {cs : List Char}, (∀ o ∈ fs, o ∈ t.opts ∧ o.action = .setTrue) →
        fs.map Opt.short = cs.map some → cs.head? = some c → ∃ o ∈ t.opts, o.short = some c := by
      intro fs cs g1 g2 g3
      rcases cs with _ | ⟨d, cs⟩
      · simp at g3
      · rcases fs with _ | ⟨o, fs⟩
        · simp at g2
        · simp at g2 g3
          exact ⟨o, (g1 o (by simp)).1, g3 ▸ g2.1⟩
    have pick' : ∀ {fs : List Opt} {cs v : List Char} {o : Opt} {d : Char}, (∀ o ∈ fs, o ∈ t.opts ∧ o.action = .setTrue) →
        fs.map Opt.short = cs.map some → o ∈ t.opts → o.short = some d → '-' :: cs ++ d :: v = '-' :: c :: rest →
        ∃ o ∈ t.opts, o.short = some c := by
      intro fs cs v o d g1 g2 g3 g4 g5
      rcases cs with _ | ⟨d', cs⟩
      · simp at g5
        exact ⟨o, g3, g5.1 ▸ g4⟩
      · simp at g5
        exact pick g1 g2 (by simp [g5.1])
    cases hw with
    | flags fs cs g0 g1 g2 g3 =>
      simp at e
      exact pick g1 g2 (by simp [e])
    | opened fs cs o d g1 g2 g3 g4 g5 g6 => exact pick' g1 g2 g3 g5 e
    | attached fs cs o d v g1 g2 g3 g4 g5 g6 g7 g8 => exact pick' g1 g2 g3 g5 e
    | equals fs cs o d v g1 g2 g3 g4 g5 g6 => exact pick' g1 g2 g3 g5 e
    | longFlag o l => simp at e; exact absurd e.1.symm hc
    | longOpened o l => simp at e; exact absurd e.1.symm hc
    | longEquals o l v => simp at e; exact absurd e.1.symm hc
  rcases gs with _ | ⟨g, gs⟩
  · rcases h2 with h2 | h2
    · simp at h2
    · simp at h2
      exact absurd h2.1.1 hc
  · obtain ⟨g1, g2⟩ := g
    have hg := h1 (g1, g2) (by simp)
    have hfirst : g1.head? = some ('-' :: c :: rest) := by
      have hne : g1 ≠ [] := by
        change Group t g1 g2 at hg
        cases hg <;> simp
      obtain ⟨x, xs, hx⟩ := List.exists_cons_of_ne_nil hne
      rw [hx]
      rcases h2 with h2 | h2 <;> · rw [List.flatMap_cons, hx] at h2; simp at h2; simp [h2.1]
    change Group t g1 g2 at hg
    cases hg with
    | flags w fs hw => simp at hfirst; exact head hw hfirst
    | attached w fs o s k v hw => simp at hfirst; exact head hw hfirst
    | one w fs o s k v hw => simp at hfirst; exact head hw hfirst
    | many w fs o ss k vs hw => simp at hfirst; exact head hw hfirst

/-- `-p=7` is a prefix length; `mus` has no option `-o`. -/
example := C100_known_letter (t := musArgs) (by simp [tools]) (fun e => absurd (congrArg Tool.opts e) (by decide +kernel)) 'p' ['=', '7']
  [] (by decide) [(.prefixlength, .num 7)] (by decide +kernel)
example : parse musArgs [['-', 'o'], ['x']] = .error 2 := by decide +kernel

end Verif.Props
