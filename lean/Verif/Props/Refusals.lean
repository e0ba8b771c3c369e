import Verif.Props.Mains
import Verif.Props.Generators
import Verif.Lemmas.Mus

/-! # C34, C41, C68: inputs that the tools refuse -/

namespace Verif.Props

open Verif Spec Model

/-- C34: `escape` refuses, before it writes anything, exactly the symbol tables whose lists differ in length, contain the
escape symbol or have a symbol in common; with a table it accepts it never stops with a failed assertion, and escaping
always succeeds. -/
theorem C34_refused (a : EscapeArgs) (r : Reader) :
    ((a.fromSymbols.length = a.toSymbols.length ∧ a.escapeSymbol ∉ a.fromSymbols ∧ a.escapeSymbol ∉ a.toSymbols ∧
      ∀ x ∈ a.fromSymbols, x ∉ a.toSymbols) →
        (escapeMain a r).2 ≠ .error .assert ∧ (a.isReversion = false → (escapeMain a r).2 = .ok ())) ∧
    (¬ (a.fromSymbols.length = a.toSymbols.length ∧ a.escapeSymbol ∉ a.fromSymbols ∧ a.escapeSymbol ∉ a.toSymbols ∧
      ∀ x ∈ a.fromSymbols, x ∉ a.toSymbols) → escapeMain a r = ([], .error .assert)) := by
  constructor
  · rintro ⟨h1, h2, h3, h4⟩
    have key : ∀ n r, (unescapeLoop a n r).2 ≠ .error .assert := by
      intro n
      induction n with
      | zero => intro r; simp [unescapeLoop, Model.done]
      | succ n ih =>
        intro r
        have em : ∀ (x : List UInt8) (o : Out), (emit x o).2 = o.2 := fun x o => rfl
        match r with
        | [] => simp [unescapeLoop, Model.done]
        | .err :: r => simp [unescapeLoop, Model.done]
        | .eof :: r => simp [unescapeLoop, Model.done]
        | .byte c :: r =>
          simp only [unescapeLoop]
          split
          · match r with
            | [] => simp
            | .err :: r => simp
            | .eof :: r => simp
            | .byte d :: r =>
              simp only
              split
              · rw [em]; exact ih _
              · split
                · rw [em]; exact ih _
                · simp
          · rw [em]; exact ih _
    have ok := escapeMain_ok ⟨h1, h2, h3, h4⟩ r
    have esc : a.isReversion = false → (escapeMain a r).2 = .ok () := by
      intro hr
      rw [C35_escape_prefix_partial a r h1 h2 h3 h4 hr]
    refine ⟨?_, esc⟩
    cases hr : a.isReversion with
    | false => rw [esc hr]; simp
    | true => rw [ok, hr, if_pos rfl]; exact key _ _
  · intro h
    unfold escapeMain
    by_cases h1 : a.fromSymbols.length ≠ a.toSymbols.length
    · rw [if_pos h1]
    rw [if_neg h1]
    by_cases h2 : a.escapeSymbol ∈ a.fromSymbols
    · rw [if_pos h2]
    rw [if_neg h2]
    by_cases h3 : a.escapeSymbol ∈ a.toSymbols
    · rw [if_pos h3]
    rw [if_neg h3]
    rw [if_pos]
    rw [List.any_eq_true]
    by_contra hc
    exact h ⟨not_ne_iff.1 h1, h2, h3, fun x hx hx' => hc ⟨x, hx, by simpa using hx'⟩⟩

/-- Both outcomes occur. -/
example : escapeMain { prefixlength := 9, escapeSymbol := 3, fromSymbols := [1, 2], toSymbols := [4, 3] } (sliceReader [1]) =
      ([], .error .assert) ∧
    escapeMain { prefixlength := 9, escapeSymbol := 3, fromSymbols := [1, 2], toSymbols := [2, 4] } (sliceReader [1]) =
      ([], .error .assert) ∧
    escapeMain { prefixlength := 9, escapeSymbol := 3, fromSymbols := [1, 2], toSymbols := [5, 4] } (sliceReader [1]) =
      ([3, 5], .ok ()) := by decide

/-- C68: a table that `escape` refuses still costs the output file its content: the file is opened for writing before the
table is looked at. -/
theorem C68_refused_table_empties (creatable : String → Bool) (a : EscapeArgs) (i : Option String) (o : String) (stdin : Reader)
    (w : World) (hc : creatable o = true) (hi : ∀ n, i = some n → ∃ d, w.files n = some d)
    (h : ¬ (a.fromSymbols.length = a.toSymbols.length ∧ a.escapeSymbol ∉ a.fromSymbols ∧ a.escapeSymbol ∉ a.toSymbols ∧
      ∀ x ∈ a.fromSymbols, x ∉ a.toSymbols)) :
    ∃ w', escapeMainFs creatable a i (some o) stdin w = (w', .error .assert) ∧ Wrote w o [] w' := by
  have hin : openIn i w = .ok () := by
    cases i with
    | none => rfl
    | some n =>
      obtain ⟨d, hd⟩ := hi n rfl
      simp [openIn, hd]
  refine ⟨writeOut (some o) [] (w.set o []), ?_, ?_⟩
  · unfold escapeMainFs
    rw [hin]
    simp only [openOut, hc, if_true]
    rw [(C34_refused a _).2 h]
  · refine ⟨rfl, by simp [writeOut, World.set], fun n hn => by simp [writeOut, World.set, hn]⟩

example := C68_refused_table_empties (fun _ => true) { prefixlength := 9, escapeSymbol := 3, fromSymbols := [1, 2], toSymbols := [4, 3] }
  (some "f") "g" [] exampleWorld rfl (fun n hn => by cases hn; exact ⟨_, rfl⟩) (by decide)

/-- C41: outside the range of `C41_kmer_generator` the generator stops with an arithmetic overflow: for an alphabet of 160
or more letters (the letter after `255` does not fit a byte; from 256 letters on as well), and when the number of texts
does not fit a `usize`. -/
theorem C41_limits (sigma n : Nat) :
    (18446744073709551616 ≤ sigma ^ n → kmerTexts sigma n = .error .arith) ∧
    (160 ≤ sigma → 1 ≤ n → kmerTexts sigma n = .error .arith) := by
  constructor
  · intro h
    rw [kmerTexts, if_neg (by omega)]
  · intro h1 h2
    by_cases hp : sigma ^ n < 18446744073709551616
    · rw [kmerTexts, if_pos hp]
      obtain ⟨m, rfl⟩ := Nat.exists_eq_add_of_le' h2
      have h159 : 159 < sigma ^ (m + 1) := by
        have := Nat.le_self_pow (n := m + 1) (by omega) sigma
        omega
      have tot : ∀ l k, (∃ t, kmerText sigma l k = .ok t) ∨ kmerText sigma l k = .error .arith := by
        intro l
        induction l with
        | zero => intro k; exact Or.inl ⟨[], rfl⟩
        | succ l ih =>
          intro k
          simp only [kmerText]
          rw [if_neg (by omega)]
          split
          · rcases ih (k / sigma) with ⟨t, ht⟩ | ht
            · exact Or.inl ⟨_, by rw [ht, ok_bind]; rfl⟩
            · exact Or.inr (by rw [ht]; rfl)
          · exact Or.inr rfl
      refine forRange_error (m := 159) (by omega) h159 ?_ ?_
      · intro i s _ _
        rcases tot (m + 1) i with ⟨t, ht⟩ | ht
        · exact Or.inl ⟨_, by rw [ht, ok_bind]; rfl⟩
        · exact Or.inr (by rw [ht]; rfl)
      · intro s
        have : kmerText sigma (m + 1) 159 = .error .arith := by
          simp only [kmerText]
          rw [if_neg (by omega), Nat.mod_eq_of_lt (show 159 < sigma by omega), if_neg (by omega)]
        rw [this]; rfl
    · rw [kmerTexts, if_neg hp]

end Verif.Props
