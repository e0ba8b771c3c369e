import Verif.Props.Bwt
import Verif.Props.Streams

/-! # C74: the pipeline recommended in the README: `escape -f 0 -t 255 -e 254 | count_r` -/

namespace Verif.Props

open Verif Spec Model

/-- The arguments `-f 0 -t 255 -e 254` with prefix length `p` (the default is 0).  README.md, "CAVEATS" -/
def readmeArgs (p : Nat) : EscapeArgs :=
  { prefixlength := p, escapeSymbol := 254, fromSymbols := [0], toSymbols := [255] }

/-- What `escape -f 0 -t 255 -e 254` should do with a letter. -/
def readmeLetter (c : UInt8) : List UInt8 :=
  if c = 0 then [254, 255] else if c = 254 then [254, 254] else [c]

theorem readme_letter (c : UInt8) : escapeLetter 254 (lookupLast [0] [255]) c = readmeLetter c := by
  unfold escapeLetter readmeLetter
  by_cases h : c = 254
  · subst h; decide
  · rw [if_neg h]
    by_cases h0 : c = 0
    · subst h0; decide
    · have : lookupLast [0] [255] c = none := by
        simp [lookupLast, Ne.symm h0]
      rw [this, if_neg h0, if_neg h]

/-- C74 with an explicit prefix length covering the input (missing: the default, where it fails): on **every** input,
zeros included, `escape -p p | count_r` succeeds: zero bytes become `254 255`, bytes `254` are doubled, and `count_r`
reports the length of that with the sentinel and the number of runs of its BWT; different inputs give different
escaped texts. -/
theorem C74_readme_pipeline_partial (sufsort : List UInt8 → List Nat) (hs : SortsSuffixes sufsort)
    (input : List UInt8) (p : Nat) (hp : input.length ≤ p) (hlen : 2 * input.length < 2147483647) :
    ∃ s b, escapeMain (readmeArgs p) (sliceReader input) = (s, .ok ()) ∧ s = input.flatMap readmeLetter ∧
      (∀ x ∈ s, x ≠ 0) ∧ IsMatrixBwt (s ++ [0]) b ∧
      countR sufsort false false s = .ok (s.length + 1, numberOfRuns (sliceReader b)) ∧
      ∀ input' s', input'.length ≤ p → escapeMain (readmeArgs p) (sliceReader input') = (s', .ok ()) → s' = s →
        input' = input := by
  have hd : ∀ l : List UInt8, delivered (sliceReader l) = l := by
    intro l
    induction l with
    | nil => rfl
    | cons a l ih =>
      show delivered (.byte a :: sliceReader l) = a :: l
      rw [delivered, ih]
  have hesc : ∀ l : List UInt8, l.length ≤ p →
      escapeMain (readmeArgs p) (sliceReader l) = (l.flatMap readmeLetter, .ok ()) := by
    intro l hl
    rw [C35_escape_prefix_partial (readmeArgs p) (sliceReader l) rfl (by simp [readmeArgs]) (by simp [readmeArgs]) (by simp [readmeArgs]) rfl, hd,
      show (readmeArgs p).prefixlength = p from rfl, List.take_of_length_le hl]
    congr 2
    funext c
    exact readme_letter c
  have h0 : ∀ x ∈ input.flatMap readmeLetter, x ≠ 0 := by
    intro x hx
    rw [List.mem_flatMap] at hx
    obtain ⟨c, -, hc⟩ := hx
    unfold readmeLetter at hc
    split at hc
    · simp only [List.mem_cons, List.not_mem_nil, or_false] at hc
      rcases hc with rfl | rfl <;> decide
    · split at hc
      · simp only [List.mem_cons, List.not_mem_nil, or_false] at hc
        rcases hc with rfl | rfl <;> decide
      · rw [List.mem_singleton] at hc; subst hc; assumption
  have hl : (input.flatMap readmeLetter).length ≤ 2 * input.length := by
    clear hlen h0 hp
    induction input with
    | nil => simp
    | cons c l ih =>
      have : (readmeLetter c).length ≤ 2 := by
        unfold readmeLetter; split <;> [skip; split] <;> simp
      rw [List.flatMap_cons, List.length_append, List.length_cons]
      omega
  obtain ⟨b, h1, -, h2, h3⟩ := C12_bwt_sa_eq_matrix sufsort hs _ h0 (by omega)
  refine ⟨_, b, hesc input hp, rfl, h0, h2, ?_, ?_⟩
  · have e : bwtToolTransform sufsort false (bwtToolText false (input.flatMap readmeLetter)) = .ok b := h1
    rw [countR, e, ok_bind, h3.length_eq]
    simp [pure_ok]
  · intro input' s' hp' he' hs'
    obtain ⟨s1, a1, -, a2⟩ := C34_escape_roundtrip (readmeArgs p) (sliceReader input) (max input.length input'.length)
      rfl (by simp [readmeArgs]) (by simp [readmeArgs]) (by simp [readmeArgs]) (by simp [readmeArgs]) (by rw [hd]; exact hp) (by rw [hd]; omega)
    obtain ⟨s2, b1, -, b2⟩ := C34_escape_roundtrip (readmeArgs p) (sliceReader input') (max input.length input'.length)
      rfl (by simp [readmeArgs]) (by simp [readmeArgs]) (by simp [readmeArgs]) (by simp [readmeArgs]) (by rw [hd]; exact hp') (by rw [hd]; omega)
    have ea : s1 = input.flatMap readmeLetter := by
      have := a1.symm.trans (hesc input hp)
      injection this
    have eb : s2 = s' := by
      have := b1.symm.trans he'
      injection this
    rw [hd] at a2 b2
    rw [eb, hs', ← ea, a2] at b2
    injection b2 with b2 _
    exact b2.symm

example := C74_readme_pipeline_partial naiveSufsort naiveSufsort_sorts [97, 0, 97, 254] 4 (by decide) (by decide)

/-- C74 is false for the command as printed in the README: without `-p` the prefix length is 0, nothing is escaped, and
`count_r` reports length 1 and one run whatever the input is. -/
theorem C74_readme_refuted (sufsort : List UInt8 → List Nat) (hs : SortsSuffixes sufsort) (input : List UInt8) :
    ∃ s, escapeMain (readmeArgs 0) (sliceReader input) = (s, .ok ()) ∧
      countR sufsort false false s = .ok (1, 1) := by
  refine ⟨[], rfl, ?_⟩
  obtain ⟨b, h1, -, -, h3⟩ := C12_bwt_sa_eq_matrix sufsort hs [] (by simp) (by simp)
  have hb : b = [0] := List.perm_singleton.1 h3
  subst hb
  have e : bwtToolTransform sufsort false (bwtToolText false []) = .ok [0] := h1
  rw [countR, e]
  rfl

example := C74_readme_refuted naiveSufsort naiveSufsort_sorts [97, 0, 97, 254]

/-- Concrete case: the input `a 0 a 254`. -/
example : escapeMain (readmeArgs 4) (sliceReader [97, 0, 97, 254]) = ([97, 254, 255, 97, 254, 254], .ok ()) ∧
    countR naiveSufsort false false [97, 254, 255, 97, 254, 254] = .ok (7, 6) := by decide +kernel

end Verif.Props
