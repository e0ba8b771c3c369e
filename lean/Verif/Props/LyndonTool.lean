import Verif.Lemmas.LyndonTool

/-! # Property C55: the output of the `lyndonfactorization` tool

`report`, `records`, `listed` and `decimal` are in `Verif/Spec/LyndonFile.lean`. -/

namespace Verif.Props

open Verif Spec Model

/-- C55: for every non-empty input the tool prints the number of Lyndon factors and writes the report
whose bodies are the Lyndon factors `f, fs...` in order, each with its number and position, with the
last one left out if it is not the only one and ends with a zero byte. -/
theorem C55_lyndon_report (text : List UInt8) (ht : text ≠ []) :
    ∃ f fs, IsLyndonFactorization (f :: fs) text ∧
      lyndonfactorizationMain text = .ok (fs.length + 1, report f fs) := by
  obtain ⟨l, hl⟩ := exists_factorization text
  cases l with
  | nil => exact absurd hl.1.symm ht
  | cons f fs => exact ⟨f, fs, hl, lyndonfactorizationMain_ok hl⟩

example := C55_lyndon_report [98, 97, 98, 97, 0] (by decide)

/-- C55: the factor left out is never more than the single zero byte, and it is left out exactly if
the text has at least two factors and ends with a zero byte. -/
theorem C55_dropped (text f : List UInt8) (fs : List (List UInt8))
    (h : IsLyndonFactorization (f :: fs) text) :
    (text.getLast? = some 0 ∧ fs ≠ [] → fs = listed fs ++ [[0]]) ∧
    (¬ (text.getLast? = some 0 ∧ fs ≠ []) → listed fs = fs) := by
  rcases List.eq_nil_or_concat fs with rfl | ⟨gs, l, rfl⟩
  · simp [listed]
  have hl : IsLyndon l := h.2.1 l (by simp)
  have hlast : text.getLast? = l.getLast? := by
    rw [← h.1, List.getLast?_eq_getLast_of_ne_nil hl.1]
    simp [List.getLast?_append_of_ne_nil _ hl.1, List.getLast?_eq_getLast_of_ne_nil hl.1]
  rw [hlast]
  constructor
  · rintro ⟨h0, _⟩
    have := lyndon_ends_zero hl h0
    subst this
    simp [listed]
  · intro h0
    have h0' : l.getLast? ≠ some 0 := fun h => h0 ⟨h, by simp⟩
    simp [listed, h0']

example := C55_dropped [98, 97, 0] [98] [[97], [0]] (by decide +kernel)

/-- The tool panics on the empty input. -/
theorem C55_empty : lyndonfactorizationMain [] = .error .unwrap := by
  unfold lyndonfactorizationMain
  have : duval ([] : List UInt8) = .ok [] := by decide
  rw [this, ok_bind]; rfl

/-- The printed decimal numbers are read back as the numbers. -/
theorem decimal_value (n : Nat) :
    (decimal n).foldl (fun a d => 10 * a + (d.toNat - 48)) 0 = n := by
  unfold decimal
  split
  · subst n; rfl
  · rw [List.foldl_map, List.foldl_reverse]
    have h : ∀ l : List Nat, (∀ d ∈ l, d < 10) →
        l.foldr (fun d a => 10 * a + ((UInt8.ofNat (48 + d)).toNat - 48)) 0 = Nat.ofDigits 10 l := by
      intro l hl
      induction l with
      | nil => rfl
      | cons d l ih =>
        have hd : d < 10 := hl d (by simp)
        rw [List.foldr_cons, ih (fun x hx => hl x (by simp [hx])), Nat.ofDigits_cons,
          UInt8.toNat_ofNat', Nat.mod_eq_of_lt (by omega)]
        simp; omega
    rw [h _ (fun d hd => Nat.digits_lt_base (by omega) hd), Nat.ofDigits_digits]

/-- A concrete case: `b ab \0` has the factors `b`, `ab` and the dropped `\0`. -/
example : IsLyndonFactorization [[98], [97, 98], [0]] [98, 97, 98, 0] := by decide
example : lyndonfactorizationMain [98, 97, 98, 0] =
    .ok (3, ascii ">Factor 1\nb\n>Factor 2 : 1 -> 3\nab") := by decide +kernel
example : lyndonfactorizationMain [0] = .ok (1, ascii ">Factor 1\n" ++ [0]) := by decide +kernel

end Verif.Props
