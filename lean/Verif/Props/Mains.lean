import Verif.Model.Mains
import Verif.Props.Attractor
import Verif.Props.Entropy
import Verif.Props.Fibonacci
import Verif.Props.Kolakoski
import Verif.Props.Necklace
import Verif.Props.Streams
import Verif.Props.WordMore
import Verif.Props.WordUniform

/-! # C67-C71: the `main` functions on files -/

namespace Verif.Props

open Verif Spec Model

/-- From `w` to `w'`, the content of file `o` became `c`, and nothing else changed. -/
def Wrote (w : World) (o : String) (c : List UInt8) (w' : World) : Prop :=
  w'.stdout = w.stdout ∧ w'.files o = some c ∧ ∀ n, n ≠ o → w'.files n = w.files n

/-- From `w` to `w'`, `c` was printed, and no file changed. -/
def Printed (w : World) (c : List UInt8) (w' : World) : Prop :=
  w'.stdout = w.stdout ++ c ∧ w'.files = w.files

theorem writeOut_some {w : World} {o : String} {c : List UInt8} :
    Wrote w o c (writeOut (some o) c (w.set o [])) := by
  refine ⟨rfl, ?_, ?_⟩
  · simp [writeOut, World.set]
  · intro n hn
    simp [writeOut, World.set, hn]

theorem writeOut_none {w : World} {c : List UInt8} : Printed w c (writeOut none c w) := ⟨rfl, rfl⟩

theorem delivered_slice (l : List UInt8) : delivered (sliceReader l) = l := by
  induction l with
  | nil => rfl
  | cons a l ih =>
    show delivered (.byte a :: sliceReader l) = a :: l
    rw [delivered, ih]

theorem filterMain_ok {creatable : String → Bool} {tool : Reader → Out} {i o : String} {stdin : Reader} {w : World}
    {c : List UInt8} (hio : i ≠ o) (hc : creatable o = true) (hi : w.files i = some c) :
    ∃ w', filterMain creatable tool (some i) (some o) stdin w = (w', (tool (sliceReader c)).2) ∧
      Wrote w o (tool (sliceReader c)).1 w' := by
  have h1 : (w.set o []).files i = some c := by simp [World.set, hio, hi]
  refine ⟨_, ?_, writeOut_some⟩
  simp only [filterMain, openOut, hc, if_true, openIn, readIn, h1, Option.isSome_some, Option.getD_some]

theorem filterMain_pipe {creatable : String → Bool} {tool : Reader → Out} {stdin : Reader} {w : World} :
    ∃ w', filterMain creatable tool none none stdin w = (w', (tool stdin).2) ∧
      Printed w (tool stdin).1 w' := by
  refine ⟨_, ?_, writeOut_none⟩
  simp only [filterMain, openOut, openIn, readIn]

theorem readVector_file {i : String} {c : List UInt8} {w : World} (hi : w.files i = some c) (p : Nat)
    (stdin : List UInt8) (hsize : c.length < 18446744073709551616) :
    readVector (some i) p stdin w = .ok (if p = 0 then c else c.take p) := by
  obtain ⟨h1, h2, -⟩ := C53_file_prefix c hsize p
  simp only [readVector, Option.map_some, hi, fileOrStdin2byteVector]
  split
  · subst p; exact h2
  · exact h1 (by omega)

/-- C67: `mtf` from a file into another file.  Only the output file changes; if the input has no byte 255 the run
succeeds and the textbook decoder applied to the output file returns the input file. -/
theorem C67_mtf_files (creatable : String → Bool) (i o : String) (stdin : Reader) (w : World) (c : List UInt8)
    (hio : i ≠ o) (hc : creatable o = true) (hi : w.files i = some c) :
    ∃ w' e out, mtfMain creatable (some i) (some o) stdin w = (w', e) ∧ Wrote w o out w' ∧
      ((∀ x ∈ c, x ≠ 255) → e = .ok () ∧ mtfDecode allBytes out = c) := by
  obtain ⟨w', h1, h2⟩ := filterMain_ok (tool := mtf) (stdin := stdin) hio hc hi
  refine ⟨w', _, _, h1, h2, fun h => ?_⟩
  obtain ⟨a, -, b⟩ := C30_mtf_lossless_partial (sliceReader c) (by rwa [delivered_slice])
  rw [delivered_slice] at b
  exact ⟨a, b⟩

/-- C67: `rle` (no flags) from a file into another file, in the overflow-checked build: only the output file changes,
and if the run succeeds, expanding the output gives the input file. -/
theorem C67_rle_files (creatable : String → Bool) (i o : String) (stdin : Reader) (w : World) (c : List UInt8)
    (hio : i ≠ o) (hc : creatable o = true) (hi : w.files i = some c) :
    ∃ w' e out, rleMain creatable .checked false false (some i) (some o) stdin w = (w', e) ∧ Wrote w o out w' ∧
      (e = .ok () → unrle out = c) ∧ ((∀ rs, IsRuns rs c → ∀ p ∈ rs, p.2 ≤ 255) → e = .ok ()) := by
  obtain ⟨w', h1, h2⟩ := filterMain_ok (tool := rle .checked) (stdin := stdin) hio hc hi
  obtain ⟨rs, hrs, -⟩ := runs_exist_unique c
  obtain ⟨g1, g2⟩ := C31_rle (sliceReader c) rs (by rwa [delivered_slice])
  refine ⟨w', _, _, h1, h2, fun h => ?_, fun h => ?_⟩
  · have := (g2 h).2
    rwa [delivered_slice] at this
  · refine g1.2 ⟨fun p hp => h rs hrs p (List.mem_of_mem_dropLast hp), fun p hp => ?_⟩
    exact (h rs hrs p (List.mem_of_getLast? hp)).trans (by omega)

/-- C67: the flags of `rle`: `--human` prints "(c,l)" for every maximal run and wins over `--onlyzero`. -/
theorem C67_rle_human (creatable : String → Bool) (onlyzero : Bool) (i o : String) (stdin : Reader) (w : World)
    (c : List UInt8) (rs : List (UInt8 × Nat)) (hrs : IsRuns rs c) (hshort : ∀ p ∈ rs, p.2 ≤ 255)
    (hio : i ≠ o) (hc : creatable o = true) (hi : w.files i = some c) :
    ∃ w', rleMain creatable .checked true onlyzero (some i) (some o) stdin w = (w', .ok ()) ∧
      Wrote w o (rs.flatMap (fun p => rleTextItem p.1 (UInt8.ofNat p.2))) w' := by
  obtain ⟨w', h1, h2⟩ := filterMain_ok (tool := rleText .checked) (stdin := stdin) hio hc hi
  obtain ⟨g1, g2⟩ := C32_rle_text (sliceReader c) rs (by rwa [delivered_slice])
  have e := g1.2 hshort
  rw [g2 e] at h2
  refine ⟨w', ?_, h2⟩
  rw [rleMain, rleDispatch, if_pos rfl, h1, e]

/-- C67: `reverse` from a file into another file. -/
theorem C67_reverse_files (creatable : String → Bool) (i o : String) (p : Nat) (stdin : List UInt8) (w : World)
    (c : List UInt8) (hsize : c.length < 18446744073709551616) (hio : i ≠ o) (hc : creatable o = true)
    (hi : w.files i = some c) :
    ∃ w', reverseMainFs creatable (some i) (some o) p stdin w = (w', .ok ()) ∧
      Wrote w o (if p = 0 then c else c.take p).reverse w' := by
  have h1 : (w.set o []).files i = some c := by simp [World.set, hio, hi]
  refine ⟨_, ?_, writeOut_some⟩
  simp only [reverseMainFs, openOut, hc, if_true, readVector_file h1 p stdin hsize]

/-- C67: escaping a file into a second file and reverting that into a third restores the first. -/
theorem C67_escape_files (creatable : String → Bool) (a : EscapeArgs) (i o q : String) (p : Nat) (stdin : Reader)
    (w : World) (c : List UInt8) (hlen : a.fromSymbols.length = a.toSymbols.length)
    (hfe : a.escapeSymbol ∉ a.fromSymbols) (hte : a.escapeSymbol ∉ a.toSymbols)
    (hdisj : ∀ x ∈ a.fromSymbols, x ∉ a.toSymbols) (hnd : a.toSymbols.Nodup) (hp : c.length ≤ a.prefixlength)
    (hp2 : c.length ≤ p)
    (hio : i ≠ o) (hoq : o ≠ q) (hco : creatable o = true) (hcq : creatable q = true) (hi : w.files i = some c) :
    ∃ w1 w2 s, escapeMainFs creatable { a with isReversion := false } (some i) (some o) stdin w = (w1, .ok ()) ∧
      Wrote w o s w1 ∧ (∀ x ∈ s, x ∉ a.fromSymbols) ∧
      escapeMainFs creatable { a with isReversion := true, prefixlength := p } (some o) (some q) stdin w1 =
        (w2, .ok ()) ∧ Wrote w1 q c w2 := by
  obtain ⟨s, h1, h2, h3⟩ := C34_escape_roundtrip a (sliceReader c) p hlen hfe hte hdisj hnd
    (by rwa [delivered_slice]) (by rwa [delivered_slice])
  rw [delivered_slice] at h3
  have e1 : (w.set o []).files i = some c := by simp [World.set, hio, hi]
  have W := writeOut_some (w := w) (o := o) (c := s)
  have e2 : ((writeOut (some o) s (w.set o [])).set q []).files o = some s := by
    simp only [World.set, hoq, if_false]
    exact W.2.1
  refine ⟨_, writeOut (some q) c ((writeOut (some o) s (w.set o [])).set q []), s, ?_, W, h2, ?_, writeOut_some⟩
  · simp only [escapeMainFs, openIn, hi, Option.isSome_some, if_true, openOut, hco, readIn, e1, Option.getD_some, h1]
  · simp only [escapeMainFs, openIn, W.2.1, Option.isSome_some, if_true, openOut, hcq, readIn, e2, Option.getD_some,
      h3]

/-- C67: `bwt` from a file into any file, **the same or another**: the content of the output file becomes the matrix
BWT of the (zero-free) input with the sentinel, nothing else changes. -/
theorem C67_bwt_files (creatable : String → Bool) (sufsort : List UInt8 → List Nat) (hs : SortsSuffixes sufsort)
    (i o : String) (stdin : List UInt8) (w : World) (c : List UInt8) (hsize : c.length < 2147483647)
    (h0 : ∀ x ∈ c, x ≠ 0) (hc : creatable o = true) (hi : w.files i = some c) :
    ∃ w' b, bwtMainFs creatable sufsort false false (some i) (some o) 0 stdin w = (w', .ok ()) ∧
      Wrote w o b w' ∧ IsMatrixBwt (c ++ [0]) b := by
  obtain ⟨b, h1, -, h2, -⟩ := C12_bwt_sa_eq_matrix sufsort hs c h0 hsize
  have e : bwtTool sufsort false false c = .ok b := h1
  refine ⟨_, b, ?_, writeOut_some, h2⟩
  simp only [bwtMainFs, readVector_file hi 0 stdin (by omega), if_true, e, openOut, hc]

/-- C67, standard streams: without file names the filters read standard input, append to standard output and touch
no file. -/
theorem C67_pipes (creatable : String → Bool) (stdin : Reader) (w : World) :
    (∃ w' e out, mtfMain creatable none none stdin w = (w', e) ∧ Printed w out w' ∧
      ((∀ x ∈ delivered stdin, x ≠ 255) → e = .ok () ∧ mtfDecode allBytes out = delivered stdin)) ∧
    (∃ w' e out, rleMain creatable .checked false false none none stdin w = (w', e) ∧ Printed w out w' ∧
      (e = .ok () → unrle out = delivered stdin)) := by
  constructor
  · obtain ⟨w', h1, h2⟩ := filterMain_pipe (creatable := creatable) (tool := mtf) (stdin := stdin) (w := w)
    refine ⟨w', _, _, h1, h2, fun h => ?_⟩
    obtain ⟨a, -, b⟩ := C30_mtf_lossless_partial stdin h
    exact ⟨a, b⟩
  · obtain ⟨w', h1, h2⟩ := filterMain_pipe (creatable := creatable) (tool := rle .checked) (stdin := stdin) (w := w)
    obtain ⟨rs, hrs, -⟩ := runs_exist_unique (delivered stdin)
    exact ⟨w', _, _, h1, h2, fun h => ((C31_rle stdin rs hrs).2 h).2⟩

/-- C67, an output file that cannot be created is reported as a failure and nothing changes. -/
theorem C67_uncreatable_output (creatable : String → Bool) (i : Option String) (o : String) (stdin : Reader)
    (input : List UInt8) (p : Nat) (w : World) (hc : creatable o = false) (m : Build) (human onlyzero : Bool)
    (a : EscapeArgs) (sufsort : List UInt8 → List Nat) (useMatrix noDollar : Bool) (est : ℝ) (fuel : Nat)
    (name : WordName) (k : Nat) :
    mtfMain creatable i (some o) stdin w = (w, .error .unwrap) ∧
    rleMain creatable m human onlyzero i (some o) stdin w = (w, .error .unwrap) ∧
    escapeMainFs creatable a i (some o) stdin w = (w, .error .unwrap) ∧
    reverseMainFs creatable i (some o) p input w = (w, .error .unwrap) ∧
    wordMain creatable est fuel name k (some o) w = (w, .error .unwrap) ∧
    ∃ e, bwtMainFs creatable sufsort useMatrix noDollar i (some o) p input w = (w, .error e) := by
  have ho : openOut creatable (some o) w = .error .unwrap := by simp [openOut, hc]
  refine ⟨?_, ?_, ?_, ?_, ?_, ?_⟩
  · simp only [mtfMain, filterMain, ho]
  · simp only [rleMain, filterMain, ho]
  · cases i with
    | none => simp only [escapeMainFs, openIn, ho]
    | some n => cases h : w.files n <;> simp [escapeMainFs, openIn, ho, h]
  · simp only [reverseMainFs, ho]
  · simp only [wordMain, ho]
  · unfold bwtMainFs
    rw [ho]
    split
    · exact ⟨_, rfl⟩
    · split <;> exact ⟨_, rfl⟩

/-- C68 is false of `mtf`, `rle`, `reverse` and `escape`: given the same file as input and output they report success
and leave it empty, whatever it contained. -/
theorem C68_inplace_refuted (creatable : String → Bool) (n : String) (w : World) (c : List UInt8)
    (hc : creatable n = true) (hn : w.files n = some c) (stdin : Reader) (input : List UInt8) (p : Nat)
    (m : Build) (human onlyzero : Bool) (a : EscapeArgs) (hlen : a.fromSymbols.length = a.toSymbols.length)
    (hfe : a.escapeSymbol ∉ a.fromSymbols) (hte : a.escapeSymbol ∉ a.toSymbols)
    (hdisj : ∀ x ∈ a.fromSymbols, x ∉ a.toSymbols) :
    (∃ w', mtfMain creatable (some n) (some n) stdin w = (w', .ok ()) ∧ Wrote w n [] w') ∧
    (∃ w', rleMain creatable m human onlyzero (some n) (some n) stdin w = (w', .ok ()) ∧ Wrote w n [] w') ∧
    (∃ w', reverseMainFs creatable (some n) (some n) p input w = (w', .ok ()) ∧ Wrote w n [] w') ∧
    (∃ w', escapeMainFs creatable a (some n) (some n) stdin w = (w', .ok ()) ∧ Wrote w n [] w') := by
  have e1 : (w.set n []).files n = some [] := by simp [World.set]
  refine ⟨⟨_, ?_, writeOut_some⟩, ⟨_, ?_, writeOut_some⟩, ⟨_, ?_, writeOut_some⟩, ⟨_, ?_, writeOut_some⟩⟩
  · simp only [mtfMain, filterMain, openOut, hc, if_true, openIn, readIn, e1, Option.isSome_some, Option.getD_some]
    rfl
  · simp only [rleMain, filterMain, openOut, hc, if_true, openIn, readIn, e1, Option.isSome_some, Option.getD_some]
    cases human <;> cases onlyzero <;> rfl
  · simp only [reverseMainFs, openOut, hc, if_true, readVector_file e1 p input (by simp)]
    simp
  · have h2 : escapeMain a (sliceReader []) = ([], .ok ()) := by
      have hdis : a.fromSymbols.any (fun i => decide (i ∈ a.toSymbols)) = false := by
        rw [List.any_eq_false]
        intro x hx
        simpa using hdisj x hx
      simp only [escapeMain, hlen, hfe, hte, hdis, ne_eq, not_true, if_false, Bool.false_eq_true]
      cases a.isReversion <;> cases a.prefixlength <;> rfl
    simp only [escapeMainFs, openOut, hc, if_true, openIn, hn, readIn, e1, Option.isSome_some, Option.getD_some, h2]

/-- C68 for `bwt` (missing: the other filters, where it fails): in place, the file becomes the BWT of what it
contained; and if the run fails, every file is as before. -/
theorem C68_inplace_partial (creatable : String → Bool) (sufsort : List UInt8 → List Nat)
    (hs : SortsSuffixes sufsort) (n : String) (stdin : List UInt8) (w : World) (c : List UInt8)
    (hsize : c.length < 2147483647) (hc : creatable n = true) (hn : w.files n = some c) :
    ((∀ x ∈ c, x ≠ 0) → ∃ w' b, bwtMainFs creatable sufsort false false (some n) (some n) 0 stdin w = (w', .ok ()) ∧
      Wrote w n b w' ∧ IsMatrixBwt (c ++ [0]) b) ∧
    ((0 : UInt8) ∈ c → bwtMainFs creatable sufsort false false (some n) (some n) 0 stdin w = (w, .error .assert)) := by
  refine ⟨fun h0 => C67_bwt_files creatable sufsort hs n n stdin w c hsize h0 hc hn, fun h => ?_⟩
  obtain ⟨k, hk, hk0⟩ := List.mem_iff_getElem.1 h
  have e : bwtTool sufsort false false c = .error .assert := by
    refine (C12_bwt_sa_panics sufsort).2 (c ++ [0]) k (by simp; omega) ?_
    rw [List.getElem?_append_left hk, List.getElem?_eq_getElem hk, hk0]
  simp only [bwtMainFs, readVector_file hn 0 stdin (by omega), if_true, e]

/-- C68, failing runs: whatever the flags, a failing `bwt` leaves all files and the output alone. -/
theorem C68_bwt_failure_harmless (creatable : String → Bool) (sufsort : List UInt8 → List Nat)
    (useMatrix noDollar : Bool) (i o : Option String) (p : Nat) (stdin : List UInt8) (w w' : World) (e : Panic)
    (h : bwtMainFs creatable sufsort useMatrix noDollar i o p stdin w = (w', .error e)) : w' = w := by
  unfold bwtMainFs at h
  split at h
  · cases h; rfl
  · split at h
    · cases h; rfl
    · split at h
      · cases h; rfl
      · cases h

/-- C68, failing runs of the other tools: an input that does not exist, or a word order that is too large, costs the
old content of the output file. -/
theorem C68_failure_harmless_refuted (creatable : String → Bool) (i o : String) (hio : i ≠ o) (w : World)
    (hi : w.files i = none) (hc : creatable o = true) (stdin : Reader) (input : List UInt8) (p : Nat) (m : Build)
    (human onlyzero : Bool) (est : ℝ) (fuel : Nat) :
    (∃ w', mtfMain creatable (some i) (some o) stdin w = (w', .error .unwrap) ∧ Wrote w o [] w') ∧
    (∃ w', rleMain creatable m human onlyzero (some i) (some o) stdin w = (w', .error .unwrap) ∧ Wrote w o [] w') ∧
    (∃ w', reverseMainFs creatable (some i) (some o) p input w = (w', .error .unwrap) ∧ Wrote w o [] w') ∧
    (∃ w', wordMain creatable est fuel .thueMorse 64 (some o) w = (w', .error .arith) ∧ Wrote w o [] w') := by
  have e1 : (w.set o []).files i = none := by simp [World.set, hio, hi]
  have W : Wrote w o [] (w.set o []) := ⟨rfl, by simp [World.set], fun n hn => by simp [World.set, hn]⟩
  refine ⟨⟨_, ?_, W⟩, ⟨_, ?_, W⟩, ⟨_, ?_, W⟩, ⟨_, ?_, W⟩⟩
  · simp [mtfMain, filterMain, openOut, hc, openIn, e1]
  · simp [rleMain, filterMain, openOut, hc, openIn, e1]
  · simp [reverseMainFs, openOut, hc, readVector, e1, fileOrStdin2byteVector, file2byteVector]
  · have : thuemorseWord 64 = .error .arith := rfl
    simp [wordMain, openOut, hc, wordOf, this]

/-- A world with one file `f` containing `aab`. -/
def exampleWorld : World := ⟨fun n => if n = "f" then some [97, 97, 98] else none, []⟩

example : ((rleMain (fun _ => true) .checked false false (some "f") (some "g") [] exampleWorld).1.files "g" =
      some [97, 1, 98, 0]) ∧
    ((rleMain (fun _ => true) .checked false false (some "f") (some "f") [] exampleWorld).1.files "f" = some []) ∧
    ((mtfMain (fun _ => true) (some "f") (some "g") [] exampleWorld).1.files "g" = some [97, 0, 98]) ∧
    ((bwtMainFs (fun _ => true) naiveSufsort false false (some "f") (some "f") 0 [] exampleWorld).1.files "f" =
      some [98, 0, 97, 97]) ∧
    ((reverseMainFs (fun _ => true) (some "f") (some "g") 2 [] exampleWorld).1.files "g" = some [97, 97]) ∧
    ((escapeMainFs (fun _ => true) { prefixlength := 9, fromSymbols := [98], toSymbols := [99] } (some "f") (some "g") []
      exampleWorld).1.files "g" = some [97, 97, 0, 99]) := by decide +kernel

/-! ## C69: the word tool -/

theorem wordMain_ok {creatable : String → Bool} {est : ℝ} {fuel : Nat} {name : WordName} {k : Nat} {o : String}
    {w : World} {t : List UInt8} (hc : creatable o = true) (h : wordOf est fuel name k = .ok t) :
    ∃ w', wordMain creatable est fuel name k (some o) w = (w', .ok ()) ∧ Wrote w o t w' := by
  refine ⟨_, ?_, writeOut_some⟩
  simp only [wordMain, openOut, hc, if_true, h]

/-- C69: `word --name <name> -k <k> -o <o>` writes exactly the named word into the file, nothing else changes:
Fibonacci words, the Tribonacci words, the fixed points of the morphisms (ternary Thue-Morse variant, Thue-Morse,
period doubling, quaternary paper folding), and the Lyndon factors of the Fibonacci word, given by `a -> aab, b -> ab`
iterated on `ab`.  `fuel` only has to exceed the length of the word. -/
theorem C69_word_tool_morphic (creatable : String → Bool) (o : String) (hc : creatable o = true) (w : World) (k fuel : Nat) :
    (k ≤ 90 → ∃ w', wordMain creatable (binet (k + 2)) fuel .fibonacci k (some o) w = (w', .ok ()) ∧
      Wrote w o (fibWord k) w') ∧
    (k ≤ 71 → tribNum k < fuel → ∀ est, ∃ w', wordMain creatable est fuel .tribonacci k (some o) w = (w', .ok ()) ∧
      Wrote w o (tribWord k) w') ∧
    (k ≤ 29 → (iter vtmMor k [97]).length < fuel → ∀ est, ∃ w',
      wordMain creatable est fuel .vtm k (some o) w = (w', .ok ()) ∧ Wrote w o (iter vtmMor k [97]) w') ∧
    (k ≤ 29 → ∀ est, ∃ w', wordMain creatable est fuel .fibonacciLyndonFactor k (some o) w = (w', .ok ()) ∧
      Wrote w o (iter lyndonMor k [97, 98]) w') ∧
    (k ≤ 62 → ∀ est, ∃ w', wordMain creatable est fuel .thueMorse k (some o) w = (w', .ok ()) ∧
      Wrote w o (iter tmMor k [97]) w') ∧
    (k ≤ 62 → ∀ est, ∃ w', wordMain creatable est fuel .periodDoubling k (some o) w = (w', .ok ()) ∧
      Wrote w o (iter pdMor k [97]) w') ∧
    (k ≤ 62 → ∀ est, ∃ w', wordMain creatable est fuel .quaternaryPaperFolding k (some o) w = (w', .ok ()) ∧
      Wrote w o (iter paperMor k [100]) w') := by
  refine ⟨fun h => wordMain_ok hc (C42_fibonacci_word_exact k h), fun h hf est => wordMain_ok hc
    (C50_tribonacci_word k h fuel hf).1, fun h hf est => wordMain_ok hc (C51_vtm_word_partial k h fuel hf),
    fun h est => wordMain_ok hc ?_, fun h est => wordMain_ok hc (C43_thuemorse_morphism k h).1,
    fun h est => ?_, fun h est => wordMain_ok hc (C46_quaternary k h)⟩
  · show fibonacciLyndonfactor k = _
    unfold fibonacciLyndonfactor
    rw [i32SizeHint_ok h, ok_bind]
    exact withStart_ok (capacity_ok h)
  · obtain ⟨t, h1, h2, -⟩ := C45_period_doubling k h
    subst h2
    exact wordMain_ok hc h1

/-- C69, the words given by their letters: paper folding (`1` at the positions whose odd part is 1 modulo 4), the
characteristic word of the powers of two (but for its last letter, see C49), Kolakoski (the runs of each word spell
the previous word), and the small binary de Bruijn words (larger ones: see C47). -/
theorem C69_word_tool_other (creatable : String → Bool) (o : String) (hc : creatable o = true) (w : World) (est : ℝ)
    (fuel : Nat) :
    (∀ k, k ≤ 61 → ∃ w' t, wordMain creatable est fuel .paperFolding k (some o) w = (w', .ok ()) ∧ Wrote w o t w' ∧
      t.length = 2 ^ (k + 1) ∧
      ∀ p (h : p < t.length), (t[p] = 49 ∨ t[p] = 48) ∧ (t[p] = 49 ↔ ∃ e m, p + 1 = 2 ^ e * (4 * m + 1))) ∧
    (∀ k, k ≤ 62 → ∃ w' t, wordMain creatable est fuel .power2 k (some o) w = (w', .ok ()) ∧ Wrote w o t w' ∧
      t.length = 2 ^ k ∧ ∀ j, 1 ≤ j → j < 2 ^ k → (t[j - 1]? = some 97 ∨ t[j - 1]? = some 98) ∧
        (t[j - 1]? = some 98 ↔ ∃ e, j = 2 ^ e)) ∧
    (∃ t : Nat → List UInt8, (∀ k, k ≤ 60 → ∃ w', wordMain creatable est fuel .kolakoski k (some o) w = (w', .ok ()) ∧
        Wrote w o (t k) w') ∧ t 0 = [98, 98] ∧
      ∀ k, ((t (k + 1)).splitBy (· == ·)).map List.length = (t k).map (fun c => if c = 97 then 1 else 2)) ∧
    (∀ k, k ≤ 3 → 16 ≤ fuel → ∃ w' t, wordMain creatable est fuel .binaryDeBrujin k (some o) w = (w', .ok ()) ∧
      Wrote w o t w' ∧ IsDeBruijn (k + 1) t) := by
  refine ⟨fun k hk => ?_, fun k hk => ?_, ?_, fun k hk hf => ?_⟩
  · obtain ⟨t, h1, h2, h3⟩ := C46_paperfolding k hk
    obtain ⟨w', g1, g2⟩ := wordMain_ok (creatable := creatable) (est := est) (fuel := fuel) (name := .paperFolding)
      (w := w) hc h1
    exact ⟨w', t, g1, g2, h2, h3⟩
  · obtain ⟨t, h1, h2, h3⟩ := C49_power2_partial k hk
    obtain ⟨w', g1, g2⟩ := wordMain_ok (creatable := creatable) (est := est) (fuel := fuel) (name := .power2)
      (w := w) hc h1
    exact ⟨w', t, g1, g2, h2, h3⟩
  · obtain ⟨t, h1, h2, h3⟩ := C44_kolakoski
    exact ⟨t, fun k hk => wordMain_ok hc (h1 k hk), h2, fun k => (h3 k).2.2.2⟩
  · obtain ⟨t, h1, h2⟩ := C47_small_partial k hk
    obtain ⟨t', g, -⟩ := C47_binary_debruijn_partial k
    have hp : 2 ^ (k + 1) ≤ 16 := by
      have := Nat.pow_le_pow_right (n := 2) (by omega) (show k + 1 ≤ 4 by omega)
      omega
    have e : t' = t := by
      have := (g 16 hp).symm.trans h1
      injection this
    obtain ⟨w', g1, g2⟩ := wordMain_ok (creatable := creatable) (est := est) (fuel := fuel) (name := .binaryDeBrujin)
      (w := w) (k := k) (t := t) hc (e ▸ g fuel (by omega))
    exact ⟨w', t, g1, g2, h2⟩

example : iter lyndonMor 1 [97, 98] = [97, 97, 98, 97, 98] ∧ fibWord 3 = [97, 98, 97, 97, 98] := by decide

/-! ## C70: the exit status of is_stringattractor -/

theorem isStringattractorMain_eq (sufsort : List UInt8 → List Nat) (attractor : List Nat) (inn : Option String)
    (prefixLength : Nat) (stdin : List UInt8) (w : World) :
    isStringattractorMain sufsort attractor inn prefixLength stdin w = (do
      let input ← readVector inn prefixLength stdin w
      if attractor.any (fun p => decide (p ≥ (input ++ [0]).length)) then pure 1
      else do
        let b ← isAttractor sufsort (input ++ [0]) attractor
        if ! b then pure 2 else pure 0) := by
  simp only [isStringattractorMain, isStringattractorRun, isAttractor]
  cases readVector inn prefixLength stdin w with
  | error e => rfl
  | ok input =>
    simp only [ok_bind]
    split
    · rfl
    · cases attractorReport sufsort (input ++ [0]) attractor with
      | error e => rfl
      | ok r =>
        simp only [ok_bind, pure_ok]
        split <;> rfl

/-- C70: for a non-empty zero-free file, `is_stringattractor` exits with 1 exactly if a position lies behind the
sentinel; otherwise with 0 exactly if the positions are a string attractor of the file's content, and on an ASCII
file with 2 exactly if they are not. -/
theorem C70_exit_status (sufsort : List UInt8 → List Nat) (hs : SortsSuffixes sufsort) (i : String) (stdin : List UInt8)
    (w : World) (T : List UInt8) (hi : w.files i = some T) (h0 : T ≠ []) (hT : ∀ x ∈ T, x ≠ 0)
    (hlen : T.length < 2147483647) (positions : List Nat) :
    (isStringattractorMain sufsort positions (some i) 0 stdin w = .ok 1 ↔ ∃ p ∈ positions, T.length < p) ∧
    (isStringattractorMain sufsort positions (some i) 0 stdin w = .ok 0 ↔
      (∀ p ∈ positions, p ≤ T.length) ∧ IsAttractor T positions) ∧
    ((∀ x ∈ T, x < 128) → (isStringattractorMain sufsort positions (some i) 0 stdin w = .ok 2 ↔
      (∀ p ∈ positions, p ≤ T.length) ∧ ¬ IsAttractor T positions)) := by
  have hrd := readVector_file hi 0 stdin (by omega)
  rw [if_pos rfl] at hrd
  rw [isStringattractorMain_eq]
  rw [hrd, ok_bind]
  by_cases hb : ∃ p ∈ positions, T.length < p
  · have hb' : ¬ ∀ p ∈ positions, p ≤ T.length := by
      obtain ⟨p, h1, h2⟩ := hb
      exact fun h => absurd (h p h1) (by omega)
    have : positions.any (fun p => decide (p ≥ (T ++ [(0 : UInt8)]).length)) = true := by
      rw [List.any_eq_true]
      obtain ⟨p, h1, h2⟩ := hb
      exact ⟨p, h1, by simp; omega⟩
    simp only [this, if_true, hb, hb', pure_ok]
    simp
  · have hb' : ∀ p ∈ positions, p ≤ T.length := by
      intro p hp
      by_contra h
      exact hb ⟨p, hp, by omega⟩
    have : positions.any (fun p => decide (p ≥ (T ++ [(0 : UInt8)]).length)) = false := by
      rw [List.any_eq_false]
      intro p hp
      have := hb' p hp
      simp; omega
    obtain ⟨c1, c2, c3, c4⟩ := C25_attractor_exact sufsort hs T h0 hT hlen positions
      (fun p hp => by have := hb' p hp; omega)
    simp only [this, Bool.false_eq_true, if_false, hb, iff_false]
    cases hr : isAttractor sufsort (T ++ [0]) positions with
    | error e =>
      have hA := (c4 e hr).2.1
      have hasc := (c4 e hr).2.2
      simp [bind, Except.bind, hA, hasc]
    | ok b =>
      cases b with
      | true =>
        have hA := c1.1 hr
        simp [bind, Except.bind, pure, Except.pure, hA]
        exact hb'
      | false =>
        have hA := c3 hr
        simp only [ok_bind, pure_ok]
        refine ⟨by simp, by simp [hA], fun _ => ?_⟩
        simp [hA]
        exact hb'

example : isStringattractorMain naiveSufsort [1, 2] (some "f") 0 [] exampleWorld = .ok 0 ∧
    isStringattractorMain naiveSufsort [1] (some "f") 0 [] exampleWorld = .ok 2 ∧
    isStringattractorMain naiveSufsort [4] (some "f") 0 [] exampleWorld = .ok 1 ∧
    isStringattractorMain naiveSufsort [3] (some "f") 0 [] exampleWorld = .ok 2 := by decide +kernel

/-! ## C71: the result lines of the counting tools -/

/-- C71: with `--prefixlength p`, `count_sigma` on a file reports the length and the number of different bytes of the
prefix (the whole file for `p = 0`), unless all 256 byte values occur in it. -/
theorem C71_count_sigma (m : Build) (i : String) (p : Nat) (stdin : List UInt8) (w : World) (c t : List UInt8)
    (hi : w.files i = some c) (hsize : c.length < 18446744073709551616) (ht : t = if p = 0 then c else c.take p)
    (h : t.toFinset.card < 256) :
    ∃ s, countSigmaMain m (some i) p stdin w = .ok (t.length, s) ∧ s.toNat = t.toFinset.card := by
  obtain ⟨s, h1, h2⟩ := C29_count_sigma_partial m t h
  refine ⟨s, ?_, h2⟩
  rw [countSigmaMain, readVector_file hi p stdin hsize, ok_bind, ← ht, h1]
  rfl

/-- C71: `count_runs` on a file reports the number of maximal runs of its content. -/
theorem C71_count_runs (i : String) (stdin : Reader) (w : World) (c : List UInt8) (hi : w.files i = some c)
    (rs : List (UInt8 × Nat)) (hrs : IsRuns rs c) : countRunsMain (some i) stdin w = .ok rs.length := by
  have := (C28_number_of_runs (sliceReader c)).1 rs (by rwa [delivered_slice])
  simp only [countRunsMain, openIn, hi, Option.isSome_some, if_true, readIn, Option.getD_some, this]

/-- C71: `entropy` on a non-empty zero-free file reports the length with the sentinel, and the empirical entropy of
the requested order of the content with the sentinel; `entropy_kmer` reports the same pair for the orders 1 to 7 not
exceeding the length. -/
theorem C71_entropy (sufsort : List UInt8 → List Nat) (hs : SortsSuffixes sufsort) (i : String) (stdin : List UInt8)
    (w : World) (T : List UInt8) (hi : w.files i = some T) (h0 : T ≠ []) (hT : ∀ x ∈ T, x ≠ 0)
    (hlen : T.length < 2147483647) (k : Nat) :
    (k = 0 → entropyMain sufsort k (some i) 0 stdin w = .ok (T.length + 1, zeroOrder (T ++ [0]))) ∧
    (1 ≤ k → entropyMain sufsort k (some i) 0 stdin w = .ok (T.length + 1, kthOrder (T ++ [0]) k)) ∧
    (1 ≤ k → k ≤ 7 → k ≤ T.length + 1 →
      entropyKmerMain k (some i) 0 stdin w = entropyMain sufsort k (some i) 0 stdin w) ∧
    (k = 0 ∨ 8 ≤ k → entropyKmerMain k (some i) 0 stdin w = .error .assert) ∧
    (1 ≤ k → k ≤ 7 → T.length + 1 < k → entropyKmerMain k (some i) 0 stdin w = .error .unwrap) := by
  have hrd := readVector_file hi 0 stdin (by omega)
  rw [if_pos rfl] at hrd
  have hk1 : 1 ≤ k → entropyMain sufsort k (some i) 0 stdin w = .ok (T.length + 1, kthOrder (T ++ [0]) k) := by
    intro h
    rw [entropyMain, hrd, ok_bind, if_neg (by omega), C26_kth_order sufsort hs T h0 hT hlen k h, ok_bind]
    simp [pure_ok]
  refine ⟨fun h => ?_, hk1, fun h1 h2 h3 => ?_, fun h => ?_, fun h1 h2 h3 => ?_⟩
  · rw [entropyMain, hrd, ok_bind, if_pos h, C26_zero_order _ (by simp), ok_bind]
    simp [pure_ok]
  · rw [hk1 h1]
    obtain ⟨e, g1, g2, g3⟩ := C27_tools_agree sufsort hs T h0 hT hlen k h1 h2 (by simpa using h3)
    rw [entropyKmerMain, assertR, if_pos (by simp; omega), ok_bind, assertR, if_pos (by simp; omega), ok_bind, hrd,
      ok_bind]
    show (entropyViaKmerCounting (T ++ [0]) k >>= fun e => pure (e.2, e.1)) = _
    rw [g2, ok_bind, g3]
    simp [pure_ok]
  · rw [entropyKmerMain, assertR]
    by_cases hk : k = 0
    · rw [if_neg (by simp; omega)]; rfl
    · rw [if_pos (by simp; omega), ok_bind, assertR, if_neg (by simp; omega)]; rfl
  · rw [entropyKmerMain, assertR, if_pos (by simp; omega), ok_bind, assertR, if_pos (by simp; omega), ok_bind, hrd,
      ok_bind]
    show (entropyViaKmerCounting (T ++ [0]) k >>= fun e => pure (e.2, e.1)) = _
    rw [C27_short_panics _ _ (by simpa using h3)]
    rfl

example : countSigmaMain .checked (some "f") 2 [] exampleWorld = .ok (2, 1) ∧
    countRunsMain (some "f") [] exampleWorld = .ok 2 := by decide +kernel

/-! ## C72: the compression pipeline -/

/-- The standard output of `bwt < input | mtf | rle`, with how the last tool ended; every tool starts in `w`. -/
def pipeline (creatable : String → Bool) (sufsort : List UInt8 → List Nat) (input : List UInt8) (w : World) :
    List UInt8 × List (Res Unit) :=
  let r1 := bwtMainFs creatable sufsort false false none none 0 input w
  let r2 := mtfMain creatable none none (sliceReader (r1.1.stdout.drop w.stdout.length)) w
  let r3 := rleMain creatable .checked false false none none (sliceReader (r2.1.stdout.drop w.stdout.length)) w
  (r3.1.stdout.drop w.stdout.length, [r1.2, r2.2, r3.2])

/-- C72: for zero-free inputs without byte 255, `bwt | mtf | rle` (overflow-checked build) either reports a failure
of the last tool, namely if the move-to-front codes have a run of more than 255 equal bytes, or writes an output
from which the input can be recovered. -/
theorem C72_pipeline (creatable : String → Bool) (sufsort : List UInt8 → List Nat) (hs : SortsSuffixes sufsort)
    (w : World) :
    ∃ decode : List UInt8 → List UInt8, ∀ input : List UInt8, (∀ x ∈ input, x ≠ 0 ∧ x ≠ 255) →
      input.length < 2147483647 →
      ∃ out e, pipeline creatable sufsort input w = (out, [.ok (), .ok (), e]) ∧
        (e = .ok () → decode out = input) ∧
        (∀ b, bwtFromTextBySa sufsort (input ++ [0]) = .ok b →
          (∀ rs, IsRuns rs (mtf (sliceReader b)).1 → ∀ p ∈ rs, p.2 ≤ 255) → e = .ok ()) := by
  classical
  refine ⟨fun out => if h : ∃ t : List UInt8, (∀ x ∈ t, x ≠ 0) ∧ t.length < 2147483647 ∧
    bwtFromTextBySa sufsort (t ++ [0]) = .ok (mtfDecode allBytes (unrle out)) then h.choose else [], ?_⟩
  intro input h0 hlen
  obtain ⟨b, hb, -, -, hperm⟩ := C12_bwt_sa_eq_matrix sufsort hs input (fun x hx => (h0 x hx).1) hlen
  have hb255 : ∀ x ∈ b, x ≠ 255 := by
    intro x hx
    rcases List.mem_append.1 (hperm.mem_iff.1 hx) with h | h
    · exact (h0 x h).2
    · rw [List.mem_singleton] at h; subst h; decide
  have e1 : bwtMainFs creatable sufsort false false none none 0 input w = (writeOut none b w, .ok ()) := by
    have e : bwtTool sufsort false false input = .ok b := hb
    have hv : readVector none 0 input w = .ok input := rfl
    simp only [bwtMainFs, hv, e, openOut]
  have d : ∀ c, (writeOut none c w).stdout.drop w.stdout.length = c := by
    intro c; simp [writeOut]
  have e2 : mtfMain creatable none none (sliceReader b) w =
      (writeOut none (mtf (sliceReader b)).1 w, (mtf (sliceReader b)).2) := rfl
  have e3 : rleMain creatable .checked false false none none (sliceReader (mtf (sliceReader b)).1) w =
      (writeOut none (rle .checked (sliceReader (mtf (sliceReader b)).1)).1 w,
        (rle .checked (sliceReader (mtf (sliceReader b)).1)).2) := rfl
  obtain ⟨m1, -, m2⟩ := C30_mtf_lossless_partial (sliceReader b) (by rwa [delivered_slice])
  rw [delivered_slice] at m2
  obtain ⟨rs, hrs, -⟩ := runs_exist_unique (mtf (sliceReader b)).1
  obtain ⟨g1, g2⟩ := C31_rle (sliceReader (mtf (sliceReader b)).1) rs (by rwa [delivered_slice])
  refine ⟨(rle .checked (sliceReader (mtf (sliceReader b)).1)).1,
    (rle .checked (sliceReader (mtf (sliceReader b)).1)).2, ?_, ?_, ?_⟩
  · simp only [pipeline, e1, d, e2, e3, m1]
  · intro he
    have hu := (g2 he).2
    rw [delivered_slice] at hu
    have hex : ∃ t : List UInt8, (∀ x ∈ t, x ≠ 0) ∧ t.length < 2147483647 ∧
        bwtFromTextBySa sufsort (t ++ [0]) =
          .ok (mtfDecode allBytes (unrle (rle .checked (sliceReader (mtf (sliceReader b)).1)).1)) :=
      ⟨input, fun x hx => (h0 x hx).1, hlen, by rw [hu, m2]; exact hb⟩
    beta_reduce
    rw [dif_pos hex]
    obtain ⟨q1, q2, q3⟩ := hex.choose_spec
    refine C14_sentinel_bwt_injective sufsort hs _ _ q1 (fun x hx => (h0 x hx).1) q2 hlen ?_
    rw [q3, hu, m2, hb]
  · intro b' hb' hruns
    rw [hb] at hb'
    injection hb' with hb'
    subst hb'
    refine g1.2 ⟨fun p hp => hruns rs hrs p (List.mem_of_mem_dropLast hp), fun p hp => ?_⟩
    exact (hruns rs hrs p (List.mem_of_getLast? hp)).trans (by omega)

example : pipeline (fun _ => true) naiveSufsort [97, 97, 98] exampleWorld =
    ([98, 0, 1, 0, 98, 0, 0, 0], [.ok (), .ok (), .ok ()]) := by decide +kernel

/-! ## Instances: a file `f` with `aab` -/

theorem example_runs : IsRuns [(97, 2), (98, 1)] ([97, 97, 98] : List UInt8) := ⟨by decide, by decide, by decide⟩

example := C67_mtf_files (fun _ => true) "f" "g" [] exampleWorld [97, 97, 98] (by decide) rfl rfl
example := C67_rle_files (fun _ => true) "f" "g" [] exampleWorld [97, 97, 98] (by decide) rfl rfl
example := C67_rle_human (fun _ => true) true "f" "g" [] exampleWorld [97, 97, 98] _ example_runs (by decide) (by decide) rfl rfl
example := C67_reverse_files (fun _ => true) "f" "g" 2 [] exampleWorld [97, 97, 98] (by decide) (by decide) rfl rfl
example := C67_escape_files (fun _ => true) { prefixlength := 9, fromSymbols := [98], toSymbols := [99] } "f" "g" "h" 9 []
  exampleWorld [97, 97, 98] (by decide) (by decide) (by decide) (by decide) (by decide) (by decide) (by decide) (by decide) (by decide)
  rfl rfl rfl
example := C67_bwt_files (fun _ => true) naiveSufsort naiveSufsort_sorts "f" "g" [] exampleWorld [97, 97, 98] (by decide) (by decide) rfl
  rfl
example := C67_uncreatable_output (fun n => n != "g") (some "f") "g" [] [] 0 exampleWorld rfl .checked false false
  { fromSymbols := [98], toSymbols := [99] } naiveSufsort false false (binet 5) 100 .thueMorse 3
example := C68_inplace_partial (fun _ => true) naiveSufsort naiveSufsort_sorts "f" [] exampleWorld [97, 97, 98] (by decide) rfl rfl
example := C68_bwt_failure_harmless (fun _ => true) naiveSufsort true false (some "missing") (some "g") 0 [] exampleWorld exampleWorld
  .unwrap rfl
example := C68_inplace_refuted (fun _ => true) "f" exampleWorld [97, 97, 98] rfl rfl [] [] 2 .checked false false
  { prefixlength := 9, fromSymbols := [98], toSymbols := [99] } (by decide) (by decide) (by decide) (by decide)
example := C68_failure_harmless_refuted (fun _ => true) "missing" "f" (by decide) exampleWorld rfl rfl [] [] 2 .checked false false
  (binet 5) 100
example := C69_word_tool_morphic (fun _ => true) "g" rfl exampleWorld 6 100
example := C69_word_tool_other (fun _ => true) "g" rfl exampleWorld (binet 5) 100
example := C70_exit_status naiveSufsort naiveSufsort_sorts "f" [] exampleWorld [97, 97, 98] rfl (by decide) (by decide) (by decide) [1, 2]
example := C71_count_sigma .checked "f" 2 [] exampleWorld [97, 97, 98] [97, 97] rfl (by decide) rfl (by decide)
example := C71_count_runs "f" [] exampleWorld [97, 97, 98] rfl _ example_runs
example := C71_entropy naiveSufsort naiveSufsort_sorts "f" [] exampleWorld [97, 97, 98] rfl (by decide) (by decide) (by decide) 2
example := C72_pipeline (fun _ => true) naiveSufsort naiveSufsort_sorts exampleWorld

end Verif.Props
