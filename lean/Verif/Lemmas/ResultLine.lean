import Verif.Model.ResultLines
import Verif.Props.FactorFiles

/-! # Lemmas on result lines -/

namespace Verif

open Spec Model

/-- No blank occurs. -/
def BlankFree (x : List UInt8) : Prop := ∀ c ∈ x, isBlank c = false

instance (x : List UInt8) : Decidable (BlankFree x) := by unfold BlankFree; infer_instance

theorem blankFree_append {x y : List UInt8} (hx : BlankFree x) (hy : BlankFree y) : BlankFree (x ++ y) := by
  intro c hc
  rcases List.mem_append.1 hc with h | h
  · exact hx c h
  · exact hy c h

theorem decimal_blankFree (n : Nat) : BlankFree (decimal n) := by
  intro c hc
  obtain ⟨h1, h2⟩ := Props.decimal_digits n c hc
  have e1 : (c == 32) = false := by
    rw [beq_eq_false_iff_ne]
    rintro rfl
    exact absurd h1 (by decide)
  have e2 : ¬ c ≤ 13 := by
    rw [UInt8.le_iff_toNat_le]
    have : (13 : UInt8).toNat = 13 := rfl
    omega
  simp [isBlank, e1, e2]

theorem decimal_ne_nil (n : Nat) : decimal n ≠ [] := by
  unfold decimal
  split
  · simp
  · rename_i h
    simp [Nat.digits_ne_nil_iff_ne_zero, h]

theorem blocks_cut {x : List UInt8} (hx : BlankFree x) {s : UInt8} (hs : isBlank s = true) (l : List UInt8) :
    lineBlocks (x ++ s :: l) = x :: lineBlocks l := by
  induction x with
  | nil => simp [lineBlocks, hs]
  | cons c x ih =>
    rw [List.cons_append, lineBlocks, if_neg (by simp [hx c (by simp)]), ih (fun c hc => hx c (by simp [hc]))]

theorem words_cut {x : List UInt8} (hx : BlankFree x) (hne : x ≠ []) {s : UInt8} (hs : isBlank s = true)
    (l : List UInt8) : lineWords (x ++ s :: l) = x :: lineWords l := by
  rw [lineWords, blocks_cut hx hs, List.filter_cons_of_pos (by simpa using hne)]
  rfl

theorem words_blank {s : UInt8} (hs : isBlank s = true) (l : List UInt8) : lineWords (s :: l) = lineWords l := by
  have := blocks_cut (x := []) (fun c hc => by simp at hc) hs l
  rw [List.nil_append] at this
  rw [lineWords, this]
  rfl

theorem words_blanks {sp : List UInt8} (hs : ∀ c ∈ sp, isBlank c = true) (l : List UInt8) :
    lineWords (sp ++ l) = lineWords l := by
  induction sp with
  | nil => rfl
  | cons c sp ih =>
    rw [List.cons_append, words_blank (hs c (by simp)), ih (fun c hc => hs c (by simp [hc]))]

theorem keyValue_field {k : List UInt8} (hk : (61 : UInt8) ∉ k) (v : List UInt8) :
    keyValue (k ++ 61 :: v) = (k, v) := by
  have h : ∀ c ∈ k, decide (c ≠ 61) = true := fun c hc => by
    rw [decide_eq_true_iff]; rintro rfl; exact hk hc
  rw [keyValue, List.takeWhile_append_of_pos h, List.dropWhile_append_of_pos h]
  simp

/-- A line of fields: separator, key, value. -/
def fieldText (fs : List (List UInt8 × List UInt8 × List UInt8)) : List UInt8 :=
  fs.flatMap fun f => f.1 ++ f.2.1 ++ 61 :: f.2.2

/-- What the fields of a line must satisfy to be readable. -/
def Readable (f : List UInt8 × List UInt8 × List UInt8) : Prop :=
  f.1 ≠ [] ∧ (∀ c ∈ f.1, isBlank c = true) ∧ BlankFree f.2.1 ∧ (61 : UInt8) ∉ f.2.1 ∧ BlankFree f.2.2

theorem words_fields {z : UInt8} (hz : isBlank z = true) (l : List UInt8) :
    ∀ (fs : List (List UInt8 × List UInt8 × List UInt8)) (x : List UInt8), BlankFree x → x ≠ [] →
    (∀ f ∈ fs, Readable f) →
    lineWords (x ++ fieldText fs ++ z :: l) = x :: ((fs.map fun f => f.2.1 ++ 61 :: f.2.2) ++ lineWords l)
  | [], x, hx, hne, _ => by
    rw [fieldText, List.flatMap_nil, List.append_nil, words_cut hx hne hz]
    rfl
  | f :: fs, x, hx, hne, h => by
    obtain ⟨h1, h2, h3, -, h5⟩ := h f (by simp)
    obtain ⟨s, sp, hsp⟩ := List.exists_cons_of_ne_nil h1
    have e : x ++ fieldText (f :: fs) ++ z :: l =
        x ++ s :: (sp ++ ((f.2.1 ++ 61 :: f.2.2) ++ fieldText fs ++ z :: l)) := by
      simp [fieldText, hsp, List.append_assoc]
    rw [e, words_cut hx hne (h2 s (by simp [hsp])), words_blanks (fun c hc => h2 c (by simp [hsp, hc])),
      words_fields hz l fs _ (blankFree_append h3 (by
        intro c hc
        rcases List.mem_cons.1 hc with rfl | hc
        · decide
        · exact h5 c hc)) (by simp) (fun f hf => h f (by simp [hf]))]
    rfl

theorem resultFields_prefix (fs : List (List UInt8 × List UInt8 × List UInt8)) (h : ∀ f ∈ fs, Readable f)
    {z : UInt8} (hz : isBlank z = true) (l : List UInt8) :
    resultFields (ascii "RESULT" ++ fieldText fs ++ z :: l) =
      some ((fs.map fun f => f.2) ++ (lineWords l).map keyValue) := by
  rw [resultFields, words_fields hz l fs _ (by decide) (by decide) h]
  simp only [if_true, Option.some.injEq, List.map_append, List.map_map]
  congr 1
  apply List.map_congr_left
  intro f hf
  exact keyValue_field (h f hf).2.2.2.1 _

theorem resultFields_of (fs : List (List UInt8 × List UInt8 × List UInt8)) (h : ∀ f ∈ fs, Readable f) :
    resultFields (ascii "RESULT" ++ fieldText fs ++ [10]) = some (fs.map fun f => f.2) := by
  rw [resultFields_prefix fs h (by decide)]
  simp [lineWords, lineBlocks]

/-! ## sed -/

/-- The searched pattern starts with a space. -/
theorem sedMatch_other {key : List UInt8} {cls : UInt8 → Bool} {sep : List UInt8} {c : UInt8} (l : List UInt8)
    (h : isBlank c = false) : sedMatch (32 :: key) cls sep (c :: l) = none := by
  have : (32 == c) = false := by
    rw [beq_eq_false_iff_ne]; rintro rfl; simp [isBlank] at h
  simp [sedMatch, List.isPrefixOf, this]

theorem sedLast_skip {key : List UInt8} {cls : UInt8 → Bool} {sep : List UInt8} {x : List UInt8} (hx : BlankFree x)
    (l : List UInt8) : sedLast (32 :: key) cls sep (x ++ l) = sedLast (32 :: key) cls sep l := by
  induction x with
  | nil => rfl
  | cons c x ih =>
    rw [List.cons_append, sedLast, ih (fun c hc => hx c (by simp [hc])), sedMatch_other _ (hx c (by simp))]
    simp

theorem sedLast_free {key : List UInt8} {cls : UInt8 → Bool} {sep : List UInt8} {x : List UInt8} (hx : BlankFree x) :
    sedLast (32 :: key) cls sep x = none := by
  have := sedLast_skip (key := key) (cls := cls) (sep := sep) hx []
  rw [List.append_nil] at this
  rw [this, sedLast, sedMatch]
  rfl

theorem sedLast_hit {key : List UInt8} {cls : UInt8 → Bool} {sep v l : List UInt8} (hv : v ≠ [])
    (hc : ∀ c ∈ v, cls c = true) (hl : sep.isPrefixOf l = true) (hl' : l = [] ∨ ∃ c l', l = c :: l' ∧ cls c = false)
    (hfree : BlankFree key) (hfree' : BlankFree v) (hlast : sedLast (32 :: key) cls sep l = none) :
    sedLast (32 :: key) cls sep (32 :: (key ++ (v ++ l))) = some v := by
  rw [sedLast, sedLast_skip hfree, sedLast_skip hfree', hlast, Option.none_or, sedMatch, if_pos (by simp)]
  have h1 : ((32 :: (key ++ (v ++ l))).drop (32 :: key).length) = v ++ l := by
    simp
  have h2 : (v ++ l).takeWhile cls = v := by
    rw [List.takeWhile_append_of_pos hc]
    rcases hl' with rfl | ⟨c, l', rfl, hcc⟩
    · simp
    · simp [hcc]
  have h3 : (v ++ l).dropWhile cls = l := by
    rw [List.dropWhile_append_of_pos hc]
    rcases hl' with rfl | ⟨c, l', rfl, hcc⟩
    · simp
    · simp [hcc]
  simp only [h1, h2, h3]
  rw [if_pos ⟨hv, hl⟩]

/-- A field with another key is skipped. -/
theorem sedLast_miss {key k : List UInt8} {cls : UInt8 → Bool} {sep v l : List UInt8}
    (hk : BlankFree k) (hv : BlankFree v) (hp : (key.isPrefixOf (k ++ (v ++ l))) = false) :
    sedLast (32 :: key) cls sep (32 :: (k ++ (v ++ l))) = sedLast (32 :: key) cls sep l := by
  rw [sedLast, sedLast_skip hk, sedLast_skip hv, sedMatch]
  simp [List.isPrefixOf, hp]

theorem key_prefix {key k : List UInt8} (h1 : (61 : UInt8) ∉ key) (h2 : (61 : UInt8) ∉ k) {l : List UInt8}
    (h : (key ++ [61]).isPrefixOf (k ++ 61 :: l) = true) : key = k := by
  obtain ⟨m, hm⟩ := List.isPrefixOf_iff_prefix.1 h
  have g1 : ∀ c ∈ key, decide (c ≠ 61) = true := fun c hc => by
    rw [decide_eq_true_iff]; rintro rfl; exact h1 hc
  have g2 : ∀ c ∈ k, decide (c ≠ 61) = true := fun c hc => by
    rw [decide_eq_true_iff]; rintro rfl; exact h2 hc
  have := congrArg (List.takeWhile (fun c => decide (c ≠ 61))) hm
  rw [List.append_assoc, List.takeWhile_append_of_pos g1, List.takeWhile_append_of_pos g2] at this
  simpa using this

/-- A field with another key is skipped. -/
theorem sedLast_other {key : List UInt8} (hk : BlankFree key) (hk' : (61 : UInt8) ∉ key) {cls : UInt8 → Bool}
    {sep : List UInt8} {f : List UInt8 × List UInt8 × List UInt8} (hf : Readable f) (hne : key ≠ f.2.1)
    (fs : List (List UInt8 × List UInt8 × List UInt8)) (l : List UInt8) :
    sedLast (32 :: (key ++ [61])) cls sep (fieldText (f :: fs) ++ l) =
      sedLast (32 :: (key ++ [61])) cls sep (fieldText fs ++ l) := by
  obtain ⟨sp, k, v⟩ := f
  obtain ⟨-, h2, h3, h4, h5⟩ := hf
  simp only at h2 h3 h4 h5 hne
  have e : fieldText ((sp, k, v) :: fs) ++ l = sp ++ ((k ++ 61 :: v) ++ (fieldText fs ++ l)) := by
    simp [fieldText, List.append_assoc]
  have hkv : BlankFree (k ++ 61 :: v) := blankFree_append h3 (by
    intro c hc
    rcases List.mem_cons.1 hc with rfl | hc
    · decide
    · exact h5 c hc)
  rw [e]
  clear e
  induction sp with
  | nil => rw [List.nil_append, sedLast_skip hkv]
  | cons c sp ih =>
    rw [List.cons_append, sedLast, ih (fun c hc => h2 c (by simp [hc])), sedMatch, if_neg]
    · simp
    · rw [List.isPrefixOf, Bool.and_eq_true]
      rintro ⟨-, h⟩
      cases sp with
      | nil =>
        rw [List.nil_append, List.append_assoc, List.cons_append] at h
        exact hne (key_prefix hk' h4 h)
      | cons d sp =>
        have hd := h2 d (by simp)
        cases key with
        | nil =>
          simp only [List.nil_append, List.cons_append, List.isPrefixOf, Bool.and_eq_true, beq_iff_eq] at h
          rw [← h.1] at hd
          exact absurd hd (by decide)
        | cons a key =>
          simp only [List.cons_append, List.isPrefixOf, Bool.and_eq_true, beq_iff_eq] at h
          rw [← h.1, hk a (by simp)] at hd
          exact absurd hd (by decide)

/-- The captured field. -/
theorem sedLast_field {key : List UInt8} (hk : BlankFree key) {cls : UInt8 → Bool} {sep v : List UInt8} (hv : v ≠ [])
    (hv' : BlankFree v) (hc : ∀ c ∈ v, cls c = true) (hcls : cls 32 = false)
    (fs : List (List UInt8 × List UInt8 × List UInt8))
    (hsep : sep.isPrefixOf (fieldText fs) = true)
    (hfs : fs = [] ∨ ∃ k v' fs', fs = ([32], k, v') :: fs')
    (hlast : sedLast (32 :: (key ++ [61])) cls sep (fieldText fs) = none) :
    sedLast (32 :: (key ++ [61])) cls sep (fieldText (([32], key, v) :: fs)) = some v := by
  have e : fieldText (([32], key, v) :: fs) = 32 :: ((key ++ [61]) ++ (v ++ fieldText fs)) := by
    simp [fieldText, List.append_assoc]
  rw [e]
  refine sedLast_hit hv hc hsep ?_ (blankFree_append hk (by decide)) hv' hlast
  rcases hfs with rfl | ⟨k, v', fs', rfl⟩
  · exact Or.inl rfl
  · exact Or.inr ⟨32, _, by simp [fieldText]; rfl, hcls⟩

theorem sedLast_nil {key : List UInt8} {cls : UInt8 → Bool} {sep : List UInt8} :
    sedLast (32 :: key) cls sep (fieldText []) = none := by
  have := sedLast_free (key := key) (cls := cls) (sep := sep) (x := []) (by decide)
  exact this

theorem sedLast_others {key : List UInt8} (hk : BlankFree key) (hk' : (61 : UInt8) ∉ key) {cls : UInt8 → Bool}
    {sep : List UInt8} (l : List UInt8) : ∀ fs : List (List UInt8 × List UInt8 × List UInt8),
    (∀ f ∈ fs, Readable f ∧ key ≠ f.2.1) →
    sedLast (32 :: (key ++ [61])) cls sep (fieldText fs ++ l) = sedLast (32 :: (key ++ [61])) cls sep l
  | [], _ => rfl
  | f :: fs, h => by
    rw [sedLast_other hk hk' (h f (by simp)).1 (h f (by simp)).2, sedLast_others hk hk' l fs
      (fun f hf => h f (by simp [hf]))]

/-- `sed` finds the value of a field whose key occurs once. -/
theorem sed_record {key : List UInt8} (hk : BlankFree key ∧ (61 : UInt8) ∉ key) {cls : UInt8 → Bool} {sep v : List UInt8}
    (hv : v ≠ []) (hv' : BlankFree v) (hc : ∀ c ∈ v, cls c = true) (hcls : cls 32 = false)
    (pre post : List (List UInt8 × List UInt8 × List UInt8)) (hpre : ∀ f ∈ pre, Readable f ∧ key ≠ f.2.1)
    (hpost : ∀ f ∈ post, Readable f ∧ key ≠ f.2.1)
    (hsep : sep = [] ∧ post = [] ∨ sep = [32] ∧ ∃ k v' fs', post = ([32], k, v') :: fs') :
    sed (32 :: (key ++ [61])) cls sep (ascii "RESULT" ++ fieldText (pre ++ ([32], key, v) :: post)) = v := by
  have e : fieldText (pre ++ ([32], key, v) :: post) = fieldText pre ++ fieldText (([32], key, v) :: post) := by
    simp [fieldText]
  rw [sed, e, sedLast_skip (by decide), sedLast_others hk.1 hk.2 _ _ hpre, sedLast_field hk.1 hv hv' hc hcls]
  · rfl
  · rcases hsep with ⟨rfl, -⟩ | ⟨rfl, k, v', fs', rfl⟩
    · simp
    · simp [fieldText, List.isPrefixOf]
  · rcases hsep with ⟨-, rfl⟩ | ⟨-, h⟩
    · exact Or.inl rfl
    · exact Or.inr h
  · have := sedLast_others (cls := cls) (sep := sep) hk.1 hk.2 [] post hpost
    rw [List.append_nil] at this
    rw [this]
    exact sedLast_nil

theorem decimal_isDigit (n : Nat) : ∀ c ∈ decimal n, isDigit c = true := by
  intro c hc
  obtain ⟨h1, h2⟩ := Props.decimal_digits n c hc
  simp only [isDigit, Bool.and_eq_true, decide_eq_true_eq, UInt8.le_iff_toNat_le]
  exact ⟨h1, h2⟩

end Verif
