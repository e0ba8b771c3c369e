import Verif.Spec.Unescape
import Verif.Props.Streams

/-! # Property C85: reverting an escaped stream (`src/bin/escape.rs`)

`Unescapes` is in `Verif/Spec/Unescape.lean`. -/

namespace Verif.Props

open Verif Spec Model

private theorem zip_get {froms tos : List UInt8} {x y : UInt8} (h : (y, x) ∈ tos.zip froms) :
    ∃ i : Nat, froms[i]? = some x ∧ tos[i]? = some y := by
  obtain ⟨i, hi, he⟩ := List.mem_iff_getElem.1 h
  rw [List.getElem_zip] at he
  rw [List.length_zip] at hi
  simp only [Prod.mk.injEq] at he
  exact ⟨i, by rw [← he.2]; simp, by rw [← he.1]; simp⟩

private theorem get_zip {froms tos : List UInt8} {x y : UInt8} {i : Nat} (hx : froms[i]? = some x)
    (hy : tos[i]? = some y) : (y, x) ∈ tos.zip froms := by
  obtain ⟨h1, e1⟩ := List.getElem?_eq_some_iff.1 hx
  obtain ⟨h2, e2⟩ := List.getElem?_eq_some_iff.1 hy
  exact List.mem_iff_getElem.2 ⟨i, by rw [List.length_zip]; omega, by rw [List.getElem_zip]; simp [e1, e2]⟩

private theorem unescape_plain {a : EscapeArgs} {c : UInt8} (hc : c ≠ a.escapeSymbol) (n : Nat) (r : Reader) :
    unescapeLoop a (n + 1) (.byte c :: r) = emit [c] (unescapeLoop a n r) := by
  match r with
  | [] => simp [unescapeLoop, hc]
  | .eof :: _ => simp [unescapeLoop, hc]
  | .err :: _ => simp [unescapeLoop, hc]
  | .byte d :: r => simp [unescapeLoop, hc]

private theorem unescape_accepts {a : EscapeArgs} (h : EscapeOK a) (hn : a.toSymbols.Nodup)
    {s o : List UInt8} (hu : Unescapes a.escapeSymbol a.fromSymbols a.toSymbols s o) (r : Reader)
    (hr : delivered r = s) (n : Nat) : o.length ≤ n → unescapeLoop a n r = (o, .ok ()) := by
  have cons : ∀ {c : UInt8} {s : List UInt8} {r : Reader}, delivered r = c :: s →
      ∃ r', r = .byte c :: r' ∧ delivered r' = s := by
    intro c s r h
    match r, h with
    | .byte b :: r', h =>
      simp only [delivered, List.cons.injEq] at h
      exact ⟨r', by rw [h.1], h.2⟩
  induction hu generalizing r n with
  | nil =>
    intro _
    match n, r, hr with
    | 0, _, _ => rfl
    | _ + 1, [], _ => rfl
    | _ + 1, .eof :: _, _ => rfl
    | _ + 1, .err :: _, _ => rfl
  | plain hc t ih =>
    intro hl
    obtain ⟨r', rfl, hr'⟩ := cons hr
    obtain ⟨n, rfl⟩ : ∃ k, n = k + 1 := ⟨n - 1, by simp at hl; omega⟩
    rw [unescape_plain hc, ih r' hr' n (by simpa using hl)]
    rfl
  | double t ih =>
    intro hl
    obtain ⟨r₁, rfl, hr₁⟩ := cons hr
    obtain ⟨r', rfl, hr'⟩ := cons hr₁
    obtain ⟨n, rfl⟩ : ∃ k, n = k + 1 := ⟨n - 1, by simp at hl; omega⟩
    simp only [unescapeLoop, if_true]
    rw [ih r' hr' n (by simpa using hl)]
    rfl
  | @pair i x y s o hx hy t ih =>
    intro hl
    obtain ⟨r₁, rfl, hr₁⟩ := cons hr
    obtain ⟨r', rfl, hr'⟩ := cons hr₁
    obtain ⟨n, rfl⟩ : ∃ k, n = k + 1 := ⟨n - 1, by simp at hl; omega⟩
    have hz := get_zip hx hy
    have hye : y ≠ a.escapeSymbol := by rintro rfl; exact h.te (List.of_mem_zip hz).1
    simp only [unescapeLoop, if_true, hye, if_false, lookupLast_unique hn hz]
    rw [ih r' hr' n (by simpa using hl)]
    rfl

private theorem unescape_cases {a : EscapeArgs} (h : EscapeOK a) (r : Reader) (n : Nat)
    (hl : (delivered r).length ≤ n) :
    (∃ o, Unescapes a.escapeSymbol a.fromSymbols a.toSymbols (delivered r) o) ∨
    ∃ s1 s2 o, delivered r = s1 ++ a.escapeSymbol :: s2 ∧
      Unescapes a.escapeSymbol a.fromSymbols a.toSymbols s1 o ∧
      (∀ y, s2.head? = some y → y ≠ a.escapeSymbol ∧ y ∉ a.toSymbols) ∧
      unescapeLoop a n r = (o, .error .unwrap) := by
  induction n using Nat.strong_induction_on generalizing r with
  | _ n ih =>
    match r, hl with
    | [], _ => exact .inl ⟨_, .nil⟩
    | .eof :: _, _ => exact .inl ⟨_, .nil⟩
    | .err :: _, _ => exact .inl ⟨_, .nil⟩
    | .byte c :: r, hl =>
      simp only [delivered, List.length_cons] at hl ⊢
      obtain ⟨n, rfl⟩ : ∃ k, n = k + 1 := ⟨n - 1, by omega⟩
      by_cases hc : c = a.escapeSymbol
      · subst hc
        have stop : (∀ y, (delivered r).head? = some y → y ≠ a.escapeSymbol ∧ y ∉ a.toSymbols) →
            unescapeLoop a (n + 1) (.byte a.escapeSymbol :: r) = ([], .error .unwrap) := by
          intro hy
          match r, hy with
          | [], _ => simp [unescapeLoop]
          | .eof :: _, _ => simp [unescapeLoop]
          | .err :: _, _ => simp [unescapeLoop]
          | .byte d :: r, hy =>
            have := hy d rfl
            have e := (lookupLast_none (c := d) h.len.symm).2 this.2
            simp [unescapeLoop, this.1, e]
        cases hd : (delivered r).head? with
        | none =>
          exact .inr ⟨[], delivered r, [], rfl, .nil, by simp [hd], stop (by simp [hd])⟩
        | some d =>
          obtain ⟨r', rfl⟩ : ∃ r', r = .byte d :: r' := by
            match r, hd with
            | .byte b :: r', hd =>
              simp only [delivered, List.head?_cons, Option.some.injEq] at hd
              exact ⟨r', by rw [hd]⟩
          simp only [delivered, List.length_cons] at hl
          by_cases hde : d = a.escapeSymbol
          · subst hde
            rcases ih n (by omega) r' (by omega) with ⟨o, ho⟩ | ⟨s1, s2, o, e1, e2, e3, e4⟩
            · exact .inl ⟨_, .double ho⟩
            · refine .inr ⟨_, s2, _, ?_, .double e2, e3, ?_⟩
              · simp only [delivered, e1, List.cons_append]
              · simp only [unescapeLoop, if_true]
                rw [e4]; rfl
          · cases hlk : lookupLast a.toSymbols a.fromSymbols d with
            | none =>
              have := (lookupLast_none h.len.symm).1 hlk
              refine .inr ⟨[], _, [], rfl, .nil, ?_, stop ?_⟩ <;>
              · intro y hy
                simp only [delivered, List.head?_cons, Option.some.injEq] at hy
                subst hy; exact ⟨hde, this⟩
            | some x =>
              obtain ⟨i, h1, h2⟩ := zip_get (lookupLast_mem hlk)
              rcases ih n (by omega) r' (by omega) with ⟨o, ho⟩ | ⟨s1, s2, o, e1, e2, e3, e4⟩
              · exact .inl ⟨_, .pair h1 h2 ho⟩
              · refine .inr ⟨_, s2, _, ?_, .pair h1 h2 e2, e3, ?_⟩
                · simp only [delivered, e1, List.cons_append]
                · simp only [unescapeLoop, if_true, hde, if_false, hlk]
                  rw [e4]; rfl
      · rcases ih n (by omega) r (by omega) with ⟨o, ho⟩ | ⟨s1, s2, o, e1, e2, e3, e4⟩
        · exact .inl ⟨_, .plain hc ho⟩
        · refine .inr ⟨c :: s1, s2, c :: o, ?_, .plain hc e2, e3, ?_⟩
          · rw [e1]; rfl
          · rw [unescape_plain hc, e4]; rfl

/-- The checks of the tool on its symbol lists, and pairwise distinct `to` symbols. -/
structure ValidTable (a : EscapeArgs) : Prop where
  length_eq : a.fromSymbols.length = a.toSymbols.length
  esc_from : a.escapeSymbol ∉ a.fromSymbols
  esc_to : a.escapeSymbol ∉ a.toSymbols
  disjoint : ∀ x ∈ a.fromSymbols, x ∉ a.toSymbols
  to_nodup : a.toSymbols.Nodup

/-- C85: with a prefix length covering the input, reverting succeeds with output `o` exactly if the input is
an escaped form of `o`. -/
theorem C85_revert_iff (a : EscapeArgs) (hv : ValidTable a) (hrev : a.isReversion = true) (r : Reader)
    (hp : (delivered r).length ≤ a.prefixlength) (o : List UInt8) :
    escapeMain a r = (o, .ok ()) ↔
      Unescapes a.escapeSymbol a.fromSymbols a.toSymbols (delivered r) o := by
  have ok : EscapeOK a := ⟨hv.length_eq, hv.esc_from, hv.esc_to, hv.disjoint⟩
  have hlen : ∀ {s o}, Unescapes a.escapeSymbol a.fromSymbols a.toSymbols s o → o.length ≤ s.length := by
    intro s o hu
    induction hu <;> simp <;> omega
  rw [escapeMain_ok ok, hrev, if_pos rfl]
  constructor
  · intro h
    rcases unescape_cases ok r a.prefixlength hp with ⟨o', ho⟩ | ⟨s1, s2, o', e1, e2, e3, e4⟩
    · have := unescape_accepts ok hv.to_nodup ho r rfl a.prefixlength ((hlen ho).trans hp)
      rw [this] at h
      rw [← (Prod.mk.inj h).1]; exact ho
    · rw [e4] at h
      simp at h
  · intro hu
    exact unescape_accepts ok hv.to_nodup hu r rfl _ ((hlen hu).trans hp)

example : ValidTable { prefixlength := 9, escapeSymbol := 92, fromSymbols := [0, 255], toSymbols := [97, 98], isReversion := true } ∧
    escapeMain { prefixlength := 9, escapeSymbol := 92, fromSymbols := [0, 255], toSymbols := [97, 98], isReversion := true }
      (sliceReader [92, 97, 92, 92, 120]) = ([0, 92, 120], .ok ()) :=
  have h : ValidTable { prefixlength := 9, escapeSymbol := 92, fromSymbols := [0, 255], toSymbols := [97, 98], isReversion := true } :=
    ⟨rfl, by decide, by decide, by decide, by decide⟩
  ⟨h, (C85_revert_iff _ h rfl _ (by decide) _).2 (.pair (i := 0) rfl rfl (.double (.plain (by decide) .nil)))⟩

/-- C85: on every other input it fails at the first escape symbol whose partner is missing or unknown,
having written what the input before it stands for. -/
theorem C85_revert_fails (a : EscapeArgs) (hv : ValidTable a) (hrev : a.isReversion = true) (r : Reader)
    (hp : (delivered r).length ≤ a.prefixlength)
    (hno : ¬ ∃ o, Unescapes a.escapeSymbol a.fromSymbols a.toSymbols (delivered r) o) :
    ∃ s1 s2 o, delivered r = s1 ++ a.escapeSymbol :: s2 ∧
      Unescapes a.escapeSymbol a.fromSymbols a.toSymbols s1 o ∧
      (∀ y, s2.head? = some y → y ≠ a.escapeSymbol ∧ y ∉ a.toSymbols) ∧
      escapeMain a r = (o, .error .unwrap) := by
  have ok : EscapeOK a := ⟨hv.length_eq, hv.esc_from, hv.esc_to, hv.disjoint⟩
  rw [escapeMain_ok ok, hrev, if_pos rfl]
  exact (unescape_cases ok r a.prefixlength hp).resolve_left hno

example := C85_revert_fails { prefixlength := 9, escapeSymbol := 92, fromSymbols := [0, 255], toSymbols := [97, 98], isReversion := true }
  ⟨rfl, by decide, by decide, by decide, by decide⟩ rfl (sliceReader [120, 92]) (by decide) (by
    rintro ⟨o, h⟩
    rw [← C85_revert_iff { prefixlength := 9, escapeSymbol := 92, fromSymbols := [0, 255], toSymbols := [97, 98], isReversion := true }
      ⟨rfl, by decide, by decide, by decide, by decide⟩ rfl (sliceReader [120, 92]) (by decide) o] at h
    have e : escapeMain { prefixlength := 9, escapeSymbol := 92, fromSymbols := [0, 255], toSymbols := [97, 98], isReversion := true }
      (sliceReader [120, 92]) = ([120], .error .unwrap) := by decide
    rw [e] at h
    simp at h)

/-- C85: if reverting succeeds on an input free of `from` symbols (pairwise distinct), escaping the result
gives the input back: on such inputs the two directions are inverse to each other. -/
theorem C85_revert_then_escape (a : EscapeArgs) (hv : ValidTable a) (hrev : a.isReversion = true)
    (hnd : a.fromSymbols.Nodup) (r : Reader) (hp : (delivered r).length ≤ a.prefixlength)
    (hfree : ∀ x ∈ delivered r, x ∉ a.fromSymbols) (o : List UInt8)
    (ho : escapeMain a r = (o, .ok ())) (q : Nat) (hq : o.length ≤ q) :
    escapeMain { a with isReversion := false, prefixlength := q } (sliceReader o) =
      (delivered r, .ok ()) := by
  have hu := (C85_revert_iff a hv hrev r hp o).1 ho
  have ok : EscapeOK { a with isReversion := false, prefixlength := q } :=
    ⟨hv.length_eq, hv.esc_from, hv.esc_to, hv.disjoint⟩
  rw [escapeMain_ok ok]
  simp only [Bool.false_eq_true, if_false]
  rw [escapeLoop_ok]
  have e : delivered (sliceReader o) = o := by
    clear * -
    induction o with
    | nil => rfl
    | cons c o ih => simpa [sliceReader, delivered] using ih
  rw [e]
  dsimp only
  rw [List.take_of_length_le hq]
  congr 1
  clear ho hq e hp hrev
  generalize delivered r = s at hu hfree ⊢
  revert hfree
  induction hu with
  | nil => intro _; rfl
  | @plain c s o hc t ih =>
    intro hf
    have h1 : lookupLast a.fromSymbols a.toSymbols c = none :=
      (lookupLast_none hv.length_eq).2 (hf c (by simp))
    rw [List.flatMap_cons, ih (fun x hx => hf x (by simp [hx]))]
    simp [escapeLetter, hc, h1]
  | @double s o t ih =>
    intro hf
    rw [List.flatMap_cons, ih (fun x hx => hf x (by simp [hx]))]
    simp [escapeLetter]
  | @pair i x y s o hx hy t ih =>
    intro hf
    rw [List.flatMap_cons, ih (fun x hx => hf x (by simp [hx]))]
    have hz := zip_swap_mem (get_zip hx hy)
    have hxe : x ≠ a.escapeSymbol := by rintro rfl; exact hv.esc_from (List.of_mem_zip hz).1
    simp [escapeLetter, hxe, lookupLast_unique hnd hz]

example := C85_revert_then_escape { prefixlength := 9, escapeSymbol := 92, fromSymbols := [0, 255], toSymbols := [97, 98], isReversion := true }
  ⟨rfl, by decide, by decide, by decide, by decide⟩ rfl (by decide) (sliceReader [92, 97, 92, 92, 120]) (by decide) (by decide)
  [0, 92, 120] (by decide) 9 (by decide)

/-- Concrete cases: a valid table; a stream that is reverted; one that ends after the escape symbol; one
with an unknown partner. -/
example : ValidTable { prefixlength := 9, escapeSymbol := 92, fromSymbols := [0, 255], toSymbols := [97, 98] } :=
  ⟨rfl, by decide, by decide, by decide, by decide⟩
example : Unescapes 92 [0, 255] [97, 98] [92, 97, 92, 92, 120] [0, 92, 120] :=
  .pair (i := 0) rfl rfl (.double (.plain (by decide) .nil))
example : escapeMain { prefixlength := 9, escapeSymbol := 92, fromSymbols := [0, 255], toSymbols := [97, 98], isReversion := true }
    (sliceReader [120, 92]) = ([120], .error .unwrap) := by decide
example : escapeMain { prefixlength := 9, escapeSymbol := 92, fromSymbols := [0, 255], toSymbols := [97, 98], isReversion := true }
    (sliceReader [120, 92, 99, 100]) = ([120], .error .unwrap) := by decide

end Verif.Props
