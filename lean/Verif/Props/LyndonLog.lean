import Verif.Model.LyndonLog
import Verif.Props.LyndonFile
import Verif.Props.LyndonMore
import Verif.Lemmas.MaxReport

/-! # C116: `RUST_LOG=debug lyndonfactorization` -/

namespace Verif.Props

open Verif Spec Model

theorem ends_lastPositions (fs : List (List UInt8)) : ends 0 fs = lastPositions fs := by
  apply List.ext_getElem?
  intro i
  by_cases hi : i < fs.length
  · have h : fs = fs.take i ++ fs[i] :: fs.drop (i + 1) := by
      rw [← List.drop_eq_getElem_cons hi, List.take_append_drop]
    have := tool_ends_get h
    rw [List.length_take, Nat.min_eq_left (by omega)] at this
    rw [this, lastPositions, List.getElem?_map, List.getElem?_range hi, Option.map_some, List.take_add_one, List.getElem?_eq_getElem hi]
    simp only [Option.toList_some, List.flatten_append, List.length_append, List.flatten_cons, List.flatten_nil, List.append_nil]
  · rw [List.getElem?_eq_none (by rw [ends_length]; omega), List.getElem?_eq_none (by simp [lastPositions]; omega)]

theorem lyndonFileMsgs_ok (level : Nat) {text : List UInt8} {fs : List (List UInt8)} (ht : fs.flatten = text)
    (hne : ∀ g ∈ fs, g ≠ []) (rest : List (List UInt8)) :
    ∀ (pre : List (List UInt8)), fs = pre ++ rest → pre ≠ [] →
    lyndonFileMsgs level text (ends 0 fs) rest.length pre.length =
      .ok (if 3 ≤ level then writingMessages (pre.length + 1) pre.flatten.length (listed rest) else []) := by
  induction rest with
  | nil => intro pre _ _; simp [lyndonFileMsgs, listed, writingMessages]
  | cons f rest ih =>
    intro pre h hp
    rw [List.length_cons, lyndonFileMsgs, lyndonFileStop_ok h ht hne, ok_bind]
    by_cases hs : rest = [] ∧ f.getLast? = some 0
    · rw [if_pos (by simpa using hs)]
      simp [hs.1, listed, hs.2, writingMessages, pure_ok]
    · have hf : f ≠ [] := hne f (by simp [h])
      have hfl := List.length_pos_iff.2 hf
      have hpl := List.length_pos_iff.2 hp
      obtain ⟨pre', g, hpre⟩ : ∃ pre' g, pre = pre' ++ [g] :=
        ⟨pre.dropLast, pre.getLast hp, (List.dropLast_append_getLast hp).symm⟩
      have hg : g ≠ [] := hne g (by simp [h, hpre])
      have hgl := List.length_pos_iff.2 hg
      have h' : fs = pre' ++ g :: (f :: rest) := by rw [h, hpre]; simp
      have e0 : pre.length - 1 = pre'.length := by rw [hpre]; simp
      have e3 : pre.flatten.length = pre'.flatten.length + g.length := by rw [hpre]; simp
      rw [if_neg (by simpa using hs), usub_ok hpl, ok_bind, e0, rd_some (tool_ends_get h'), ok_bind,
        rd_some (tool_ends_get h), ok_bind]
      have hih := ih (pre ++ [f]) (by rw [h]; simp) (by simp)
      have e1 : (pre ++ [f]).length = pre.length + 1 := by simp
      have e2 : (pre ++ [f]).flatten.length = pre.flatten.length + f.length := by simp
      rw [e1, e2] at hih
      rw [hih, ok_bind, pure_ok]
      have hl : listed (f :: rest) = f :: listed rest := by
        cases rest with
        | nil =>
          have hs' : f.getLast? ≠ some 0 := fun h => hs ⟨rfl, h⟩
          simp [listed, hs']
        | cons g r => exact listed_cons
      rw [hl, writingMessages, logMsg]
      have e5 : pre'.flatten.length + g.length - 1 + 1 = pre.flatten.length := by omega
      have e6 : pre.flatten.length + f.length - 1 + 1 = pre.flatten.length + f.length := by omega
      rw [e5, e6]
      by_cases h3 : 3 ≤ level
      · rw [if_pos h3, if_pos h3, if_pos (show Level.info.rank ≤ level from h3)]; rfl
      · rw [if_neg h3, if_neg h3, if_neg (show ¬ Level.info.rank ≤ level from h3)]; rfl

theorem selfCheck_ok (m : Build) (level : Nat) {sufsort : List UInt8 → List Nat} (hs : SortsSuffixes sufsort)
    {text : List UInt8} (hne : text ≠ []) (hlen : text.length < 2147483648) {es : List Nat} (h : duval text = .ok es) :
    lyndonSelfCheck m level sufsort text es = .ok () := by
  unfold lyndonSelfCheck
  split
  · cases m with
    | wrapping => rfl
    | checked =>
      obtain ⟨isa, es', h1, h2, h3⟩ := C03_duval_eq_isa text hne (by omega) _ (hs text hlen)
      rw [h] at h3
      injection h3 with h3
      simp only [h1, ok_bind, h2, assertR, h3]
      simp
  · rfl

/-- C116: whatever is logged, in a build with or without debug assertions, `lyndonfactorization` ends in the same way, writes the
same file and prints the same numbers as without logging; in particular the check against the suffix array at the end never
fails.  (For texts below 2^31 bytes and any suffix sorting algorithm that sorts.) -/
theorem C116_logging_is_harmless (m : Build) (level : Nat) (sufsort : List UInt8 → List Nat) (hs : SortsSuffixes sufsort)
    (creatable : String → Bool) (inn out : Option String) (p : Nat) (stdin : List UInt8) (w : World)
    (hlen : ∀ text, readVector inn p stdin w = .ok text → text.length < 2147483648) :
    (lyndonfactorizationLogged m level sufsort creatable inn out p stdin w).2 =
      lyndonfactorizationFiles creatable inn out p stdin w := by
  unfold lyndonfactorizationLogged lyndonfactorizationFiles
  cases hr : readVector inn p stdin w with
  | error e => rfl
  | ok text =>
    have hl := hlen text hr
    by_cases hne : text = []
    · subst hne
      simp only [C55_empty]
      rw [show duval ([] : List UInt8) = .ok [] by decide]
      rfl
    · obtain ⟨f, fs, hf, hmain⟩ := C55_lyndon_report text hne
      have hd := duval_of_factorization hf
      have hne' : ∀ g ∈ f :: fs, g ≠ [] := fun g hg => (hf.2.1 g hg).1
      obtain ⟨pre, l, hpl⟩ : ∃ pre l, f :: fs = pre ++ [l] :=
        ⟨(f :: fs).dropLast, (f :: fs).getLast (by simp), (List.dropLast_append_getLast (by simp)).symm⟩
      have hll := List.length_pos_iff.2 (hne' l (by rw [hpl]; simp))
      have htl : text.length = pre.flatten.length + l.length := by rw [← hf.1, hpl]; simp
      have hlast : (ends 0 (f :: fs)).getLast? = some (pre.flatten.length + l.length - 1) := by
        rw [List.getLast?_eq_getElem?, ends_length]
        have : (f :: fs).length - 1 = pre.length := by rw [hpl]; simp
        rw [this]
        exact tool_ends_get (rest := []) hpl
      have hmsg := lyndonFileMsgs_ok level hf.1 hne' fs [f] (by simp) (by simp)
      simp only [List.length_singleton] at hmsg
      simp only [hd, hlast, hmain]
      rw [if_pos (by omega)]
      have hlen2 : (ends 0 (f :: fs)).length = fs.length + 1 := by rw [ends_length]; rfl
      cases out with
      | none => simp only [selfCheck_ok m level hs hne hl hd, hlen2]; rfl
      | some n =>
        simp only
        cases openOut creatable (some n) w with
        | error e => rfl
        | ok w1 =>
          simp only [hlen2, Nat.add_sub_cancel, hmsg, selfCheck_ok m level hs hne hl hd]
          rfl

example := C116_logging_is_harmless .checked 4 naiveSufsort naiveSufsort_sorts (fun _ => true) (some "f") (some "g") 0 []
  ⟨fun n => if n = "f" then some [98, 97, 98, 97] else none, []⟩ (by
    intro text h
    have : readVector (some "f") 0 [] ⟨fun n => if n = "f" then some [98, 97, 98, 97] else none, []⟩ = .ok [98, 97, 98, 97] := by
      decide
    rw [this] at h
    injection h with h
    subst h
    decide)

/-- C116, the documented output: for a non-empty text with Lyndon factorization `f, fs...`, these messages are logged, and no
others: at level info `read text`, at level debug the line with the list of the positions where the factors end, and, if a
file is written, at level info one line per listed factor after the first. -/
theorem C116_messages (m : Build) (level : Nat) (sufsort : List UInt8 → List Nat) (creatable : String → Bool)
    (inn out : Option String) (p : Nat) (stdin : List UInt8) (w : World) (text : List UInt8)
    (hr : readVector inn p stdin w = .ok text) (f : List UInt8) (fs : List (List UInt8))
    (hf : IsLyndonFactorization (f :: fs) text) :
    (lyndonfactorizationLogged m level sufsort creatable inn out p stdin w).1 =
      (if 3 ≤ level then [(.info, ascii "read text")] else []) ++
      (if 4 ≤ level then [(.debug, ascii "Lyndon factorization : " ++ listText (lastPositions (f :: fs)))] else []) ++
      (if 3 ≤ level ∧ ∃ n, out = some n ∧ creatable n = true then writingMessages 2 f.length (listed fs) else []) := by
  unfold lyndonfactorizationLogged
  have hd := duval_of_factorization hf
  have hmain := lyndonfactorizationMain_ok hf
  have hne' : ∀ g ∈ f :: fs, g ≠ [] := fun g hg => (hf.2.1 g hg).1
  obtain ⟨pre, l, hpl⟩ : ∃ pre l, f :: fs = pre ++ [l] :=
    ⟨(f :: fs).dropLast, (f :: fs).getLast (by simp), (List.dropLast_append_getLast (by simp)).symm⟩
  have hll := List.length_pos_iff.2 (hne' l (by rw [hpl]; simp))
  have htl : text.length = pre.flatten.length + l.length := by rw [← hf.1, hpl]; simp
  have hlast : (ends 0 (f :: fs)).getLast? = some (pre.flatten.length + l.length - 1) := by
    rw [List.getLast?_eq_getElem?, ends_length]
    have : (f :: fs).length - 1 = pre.length := by rw [hpl]; simp
    rw [this]
    exact tool_ends_get (rest := []) hpl
  have hmsg := lyndonFileMsgs_ok level hf.1 hne' fs [f] (by simp) (by simp)
  simp only [List.length_singleton] at hmsg
  have hlen2 : (ends 0 (f :: fs)).length = fs.length + 1 := by rw [ends_length]; rfl
  simp only [hr, hd, hlast, hmain]
  rw [if_pos (by omega)]
  have e1 : logMsg level .info (ascii "read text") = if 3 ≤ level then [(.info, ascii "read text")] else [] := rfl
  have e2 : logMsg level .debug (ascii "Lyndon factorization : " ++ listText (ends 0 (f :: fs))) =
      if 4 ≤ level then [(.debug, ascii "Lyndon factorization : " ++ listText (lastPositions (f :: fs)))] else [] := by
    rw [ends_lastPositions]; rfl
  rw [e1, e2]
  cases out with
  | none => simp
  | some n =>
    simp only [Option.some.injEq, exists_eq_left']
    by_cases hc : creatable n = true
    · simp only [openOut, hc, if_true, hlen2, Nat.add_sub_cancel, hmsg, and_true]
      congr 2
      simp
    · simp only [openOut, hc]
      simp

example := C116_messages .checked 4 naiveSufsort (fun _ => true) (some "f") (some "g") 0 []
  ⟨fun n => if n = "f" then some [98, 97, 98, 97] else none, []⟩ [98, 97, 98, 97] (by decide) [98] [[97, 98], [97]]
  (by refine ⟨rfl, ?_, ?_⟩ <;> decide)

/-- What `RUST_LOG=debug lyndonfactorization -i f -o g` logs about `baba`. -/
example : (lyndonfactorizationLogged .checked 4 naiveSufsort (fun _ => true) (some "f") (some "g") 0 []
    ⟨fun n => if n = "f" then some [98, 97, 98, 97] else none, []⟩).1 =
    [(.info, ascii "read text"), (.debug, ascii "Lyndon factorization : [0, 2, 3]"),
     (.info, ascii "writing Factor 2 : 1 -> 3"), (.info, ascii "writing Factor 3 : 3 -> 4")] := by decide +kernel

theorem listTail_inj : ∀ {xs ys : List Nat}, listTail xs = listTail ys → xs = ys
  | [], [], _ => rfl
  | [], y :: ys, h => by
    have := congrArg List.head? h
    simp [listTail, ascii] at this
  | x :: xs, [], h => by
    have := congrArg List.head? h
    simp [listTail, ascii] at this
  | x :: xs, y :: ys, h => by
    simp only [listTail, List.append_assoc] at h
    have h := List.append_cancel_left h
    have key : ∀ zs, ∃ c r, listTail zs = c :: r ∧ isDigit c = false := by
      intro zs
      cases zs with
      | nil => exact ⟨93, [], rfl, rfl⟩
      | cons z zs => exact ⟨44, 32 :: (decimal z ++ listTail zs), rfl, rfl⟩
    have cutAny : ∀ {a b : List UInt8} {c d : UInt8} {r s : List UInt8}, (∀ x ∈ a, isDigit x = true) → (∀ x ∈ b, isDigit x = true) →
        isDigit c = false → isDigit d = false → a ++ c :: r = b ++ d :: s → a = b ∧ c :: r = d :: s := by
      intro a
      induction a with
      | nil =>
        intro b c d r s _ hb hc hd h
        cases b with
        | nil => exact ⟨rfl, h⟩
        | cons z b =>
          simp only [List.nil_append, List.cons_append, List.cons.injEq] at h
          rw [h.1, hb z (by simp)] at hc; cases hc
      | cons z a ih =>
        intro b c d r s ha hb hc hd h
        cases b with
        | nil =>
          simp only [List.nil_append, List.cons_append, List.cons.injEq] at h
          rw [← h.1, ha z (by simp)] at hd; cases hd
        | cons z' b =>
          simp only [List.cons_append, List.cons.injEq] at h
          obtain ⟨i1, i2⟩ := ih (fun x hx => ha x (by simp [hx])) (fun x hx => hb x (by simp [hx])) hc hd h.2
          exact ⟨by rw [h.1, i1], i2⟩
    obtain ⟨c, r, hc, hc'⟩ := key xs
    obtain ⟨d, s, hd, hd'⟩ := key ys
    rw [hc, hd] at h
    obtain ⟨h1, h2⟩ := cutAny (decimal_isDigit x) (decimal_isDigit y) hc' hd' h
    rw [← hc, ← hd] at h2
    rw [decimal_inj h1, listTail_inj h2]

/-- C116: from the line with the positions the Lyndon factorization can be read off: two texts of which the same line is logged
have factors of the same lengths. -/
theorem C116_line_determines_lengths (fs gs : List (List UInt8)) (hf : ∀ f ∈ fs, f ≠ []) (hg : ∀ g ∈ gs, g ≠ [])
    (h : ascii "Lyndon factorization : " ++ listText (lastPositions fs) =
      ascii "Lyndon factorization : " ++ listText (lastPositions gs)) : fs.map List.length = gs.map List.length := by
  have h := List.append_cancel_left h
  have hp : lastPositions fs = lastPositions gs := by
    cases e1 : lastPositions fs with
    | nil =>
      cases e2 : lastPositions gs with
      | nil => rfl
      | cons y ys =>
        rw [e1, e2] at h
        simp only [listText] at h
        have h := congrArg List.length h
        have := List.length_pos_iff.2 (decimal_ne_nil y)
        have : 1 ≤ (listTail ys).length := by cases ys <;> simp [listTail, ascii]
        simp [ascii] at h
        omega
    | cons x xs =>
      cases e2 : lastPositions gs with
      | nil =>
        rw [e1, e2] at h
        simp only [listText] at h
        have h := congrArg List.length h
        have := List.length_pos_iff.2 (decimal_ne_nil x)
        have : 1 ≤ (listTail xs).length := by cases xs <;> simp [listTail, ascii]
        simp [ascii] at h
        omega
      | cons y ys =>
        rw [e1, e2] at h
        simp only [listText, List.append_assoc] at h
        have h := List.append_cancel_left h
        apply listTail_inj
        simp only [listTail, List.append_assoc, h]
  rw [← ends_lastPositions, ← ends_lastPositions] at hp
  have key : ∀ (fs gs : List (List UInt8)) s, (∀ f ∈ fs, f ≠ []) → (∀ g ∈ gs, g ≠ []) → ends s fs = ends s gs →
      fs.map List.length = gs.map List.length := by
    intro fs
    induction fs with
    | nil =>
      intro gs s _ _ h
      cases gs with
      | nil => rfl
      | cons g gs => simp [ends] at h
    | cons f fs ih =>
      intro gs s hf hg h
      cases gs with
      | nil => simp [ends] at h
      | cons g gs =>
        have a := List.length_pos_iff.2 (hf f (by simp))
        have b := List.length_pos_iff.2 (hg g (by simp))
        simp only [ends, List.cons.injEq] at h
        have e : f.length = g.length := by omega
        rw [e] at h
        rw [List.map_cons, List.map_cons, e, ih gs _ (fun x hx => hf x (by simp [hx])) (fun x hx => hg x (by simp [hx])) h.2]
  exact key fs gs 0 hf hg hp

example := C116_line_determines_lengths [[98], [97, 98]] [[97], [98, 98]] (by decide) (by decide) (by decide +kernel)

end Verif.Props
