import Verif.Props.FactorFiles

/-! # C77: the report of `lyndonfactorization` determines the text -/

namespace Verif.Props

open Verif Spec Model

/-- A header between two line breaks. -/
def headMid (k s e : Nat) : List UInt8 :=
  ascii ">Factor " ++ decimal k ++ ascii " : " ++ decimal s ++ ascii " -> " ++ decimal e

theorem records_cons (k s : Nat) (f : List UInt8) (fs : List (List UInt8)) :
    records k s (f :: fs) = 10 :: (headMid k s (s + f.length) ++ 10 :: (f ++ records (k + 1) (s + f.length) fs)) := by
  have t1 : ascii "\n>Factor " = 10 :: ascii ">Factor " := by decide
  have t2 : ascii "\n" = [10] := by decide
  simp only [records, headMid, t1, t2, List.append_assoc, List.cons_append, List.nil_append]

theorem headMid_no_newline (k s e : Nat) : (10 : UInt8) ∉ headMid k s e := by
  have hd : ∀ n, (10 : UInt8) ∉ decimal n := by
    intro n h; have := decimal_digits n _ h; revert this; decide
  simp only [headMid, List.mem_append, not_or]
  exact ⟨⟨⟨⟨⟨by decide, hd k⟩, by decide⟩, hd s⟩, by decide⟩, hd e⟩

theorem records_start (k s : Nat) (fs : List (List UInt8)) : records k s fs = [] ∨
    ∃ r, records k s fs = 10 :: 62 :: r := by
  cases fs with
  | nil => exact .inl rfl
  | cons f fs =>
    right
    have : ∃ m, headMid k s (s + f.length) = 62 :: m := by
      have : ascii ">Factor " = 62 :: ascii "Factor " := by decide
      rw [headMid, this]
      exact ⟨_, rfl⟩
    obtain ⟨m, hm⟩ := this
    rw [records_cons, hm]
    exact ⟨_, rfl⟩

theorem le_append' (x y : List UInt8) : x ≤ x ++ y := by
  apply not_lt.1
  induction x with
  | nil => simp
  | cons c x ih =>
    rw [List.cons_append, List.cons_lt_cons_iff]
    simpa using ih

/-- A word whose suffixes are all larger than `g` cannot reach into the records of factors not larger than `g`. -/
theorem no_overlap {g R' : List UInt8} (hR : R' = [] ∨ ∃ r, R' = 10 :: 62 :: r) (fs : List (List UInt8))
    (hfs : ∀ f ∈ fs, f ≠ [] ∧ f ≤ g) : ∀ (k s : Nat) (y : List UInt8), y ≠ [] →
      (∀ v, v ≠ [] → v <:+ y → g < v) → y ++ R' = records k s fs → False := by
  induction fs with
  | nil =>
    intro k s y hy _ h
    simp [records] at h
    exact hy h.1
  | cons f fs ih =>
    intro k s y hy hsuf h
    obtain ⟨hfne, hfg⟩ := hfs f (by simp)
    obtain ⟨c, f', rfl⟩ := List.exists_cons_of_ne_nil hfne
    rw [records_cons] at h
    set m := headMid k s (s + (c :: f').length) with hm
    set R := records (k + 1) (s + (c :: f').length) fs with hRR
    obtain ⟨y0, y1, rfl⟩ := List.exists_cons_of_ne_nil hy
    rw [List.cons_append, List.cons.injEq] at h
    obtain ⟨rfl, h⟩ := h
    have hnl := headMid_no_newline k s (s + (c :: f').length)
    rw [← hm] at hnl
    -- `y` cannot end just before the second line break of the header
    have hbad : ∀ r, R' = 10 :: 62 :: r → R' = 10 :: (c :: f' ++ R) → False := by
      intro r hr h2
      rw [hr] at h2
      simp only [List.cons.injEq, List.cons_append, true_and] at h2
      have hc : c = 62 := h2.1.symm
      have h3 := hsuf (10 :: y1) (by simp) (List.suffix_refl _)
      have h4 := lt_of_le_of_lt hfg h3
      rw [List.cons_lt_cons_iff, hc] at h4
      rcases h4 with h4 | ⟨h4, -⟩ <;> revert h4 <;> decide
    have hR2 : R' ≠ [] → ∃ r, R' = 10 :: 62 :: r := fun h => hR.resolve_left h
    rcases List.append_eq_append_iff.1 h with ⟨a, h1, h2⟩ | ⟨a, h1, h2⟩
    · obtain ⟨r, hr⟩ := hR2 (by rw [h2]; simp)
      cases a with
      | cons a0 a =>
        rw [hr] at h2
        simp only [List.cons_append, List.cons.injEq] at h2
        apply hnl
        rw [h1, ← h2.1]
        simp
      | nil => exact hbad r hr (by simpa using h2)
    · cases a with
      | nil =>
        simp only [List.nil_append] at h2
        obtain ⟨r, hr⟩ := hR2 (by rw [← h2]; simp)
        exact hbad r hr h2.symm
      | cons a0 a =>
        have h2' : (10 : UInt8) :: (c :: f' ++ R) = a0 :: (a ++ R') := h2
        rw [List.cons.injEq] at h2'
        obtain ⟨rfl, h3⟩ := h2'
        have hsa : ∀ v, v <:+ a → v <:+ 10 :: y1 := by
          intro v hv
          rw [h1]
          refine hv.trans ⟨10 :: (m ++ [10]), by simp⟩
        by_cases ha : a = []
        · subst ha
          rw [List.nil_append] at h3
          obtain ⟨r, hr⟩ := hR2 (by rw [← h3]; simp)
          rw [hr] at h3
          simp only [List.cons.injEq, List.cons_append] at h3
          have h5 := hsuf [10] (by simp) (by rw [h1]; exact ⟨10 :: m, by simp⟩)
          have h4 := lt_of_le_of_lt hfg h5
          rw [h3.1, List.cons_lt_cons_iff] at h4
          simp at h4
        · have hga := hsuf a ha (hsa a (List.suffix_refl _))
          rcases List.append_eq_append_iff.1 h3 with ⟨b, k1, k2⟩ | ⟨b, k1, k2⟩
          · by_cases hb : b = []
            · rw [hb, List.append_nil] at k1
              rw [k1] at hga
              exact absurd (lt_of_lt_of_le hga hfg) (lt_irrefl _)
            · refine ih (fun f hf => hfs f (by simp [hf])) _ _ b hb (fun v hv1 hv2 => hsuf v hv1 (hsa v ?_)) k2.symm
              exact hv2.trans ⟨_, k1.symm⟩
          · have : a ≤ c :: f' := by rw [k1]; exact le_append' a b
            exact absurd (lt_of_lt_of_le (lt_of_lt_of_le hga this) hfg) (lt_irrefl _)

/-- The listing of a Lyndon factorization determines the factors. -/
theorem listing_inj : ∀ (fs gs : List (List UInt8)) (f g : List UInt8) (k s : Nat),
    (∀ x ∈ f :: fs, IsLyndon x) → (f :: fs).Pairwise (fun x y => y ≤ x) →
    (∀ x ∈ g :: gs, IsLyndon x) → (g :: gs).Pairwise (fun x y => y ≤ x) →
    f ++ records k (s + f.length) fs = g ++ records k (s + g.length) gs → f = g ∧ fs = gs := by
  -- a first factor cannot be longer than the other
  have key : ∀ (fs gs : List (List UInt8)) (f x : List UInt8) (k s s' : Nat), x ≠ [] →
      (∀ y ∈ f :: fs, IsLyndon y) → (f :: fs).Pairwise (fun x y => y ≤ x) → IsLyndon (f ++ x) →
      x ++ records k s' gs = records k s fs → False := by
    intro fs gs f x k s s' hx hl hp hg h
    refine no_overlap (records_start k s' gs) fs (g := f ++ x) ?_ k s x hx ?_ h
    · intro y hy
      refine ⟨(hl y (by simp [hy])).1, ((List.pairwise_cons.1 hp).1 y hy).trans (le_append' f x)⟩
    · rintro v hv ⟨u, hu⟩
      refine hg.2 (f ++ u) v ?_ hv (by rw [List.append_assoc, hu])
      have := (hl f (by simp)).1
      simp [this]
  have heq : ∀ (fs gs : List (List UInt8)) (f g : List UInt8) (k s : Nat),
      (∀ x ∈ f :: fs, IsLyndon x) → (f :: fs).Pairwise (fun x y => y ≤ x) →
      (∀ x ∈ g :: gs, IsLyndon x) → (g :: gs).Pairwise (fun x y => y ≤ x) →
      f ++ records k (s + f.length) fs = g ++ records k (s + g.length) gs → f = g := by
    intro fs gs f g k s hf hfp hg hgp h
    rcases List.append_eq_append_iff.1 h with ⟨x, h1, h2⟩ | ⟨x, h1, h2⟩
    · by_cases hx : x = []
      · rw [h1, hx, List.append_nil]
      · exact (key fs gs f x k _ _ hx hf hfp (by rw [← h1]; exact hg g (by simp)) h2.symm).elim
    · by_cases hx : x = []
      · rw [h1, hx, List.append_nil]
      · exact (key gs fs g x k _ _ hx hg hgp (by rw [← h1]; exact hf f (by simp)) h2.symm).elim
  intro fs
  induction fs with
  | nil =>
    intro gs f g k s hf hfp hg hgp h
    have e := heq [] gs f g k s hf hfp hg hgp h
    subst e
    refine ⟨rfl, ?_⟩
    cases gs with
    | nil => rfl
    | cons g2 gs =>
      rw [List.append_right_inj, records_cons] at h
      simp [records] at h
  | cons f2 fs ih =>
    intro gs f g k s hf hfp hg hgp h
    have e := heq (f2 :: fs) gs f g k s hf hfp hg hgp h
    subst e
    refine ⟨rfl, ?_⟩
    rw [List.append_right_inj, records_cons] at h
    cases gs with
    | nil => simp [records] at h
    | cons g2 gs =>
      rw [records_cons, List.cons.injEq] at h
      obtain ⟨-, h3⟩ := sep_inj (headMid_no_newline _ _ _) (headMid_no_newline _ _ _) h.2
      obtain ⟨a1, a2⟩ := ih gs f2 g2 (k + 1) (s + f.length) (fun x hx => hf x (by simp only [List.mem_cons] at hx ⊢; right; exact hx))
        (List.pairwise_cons.1 hfp).2 (fun x hx => hg x (by simp only [List.mem_cons] at hx ⊢; right; exact hx))
        (List.pairwise_cons.1 hgp).2 h3
      rw [a1, a2]

/-- C77: two non-empty texts with the same report differ at most in one final zero byte. -/
theorem C77_report_determines_text (s t : List UInt8) (hs : s ≠ []) (ht : t ≠ []) (n : Nat) (file : List UInt8)
    (h1 : lyndonfactorizationMain s = .ok (n, file)) (n' : Nat)
    (h2 : lyndonfactorizationMain t = .ok (n', file)) :
    s = t ∨ s = t ++ [0] ∨ t = s ++ [0] := by
  obtain ⟨f, fs, a1, a2⟩ := C55_lyndon_report s hs
  obtain ⟨g, gs, b1, b2⟩ := C55_lyndon_report t ht
  rw [a2] at h1
  rw [b2] at h2
  injection h1 with h1
  injection h2 with h2
  rw [Prod.mk.injEq] at h1 h2
  have hrep : report f fs = report g gs := h1.2.trans h2.2.symm
  rw [report, report, List.append_assoc, List.append_assoc, List.append_right_inj] at hrep
  have hsub : ∀ fs : List (List UInt8), (listed fs).Sublist fs := by
    intro fs
    unfold listed
    split
    · split
      · exact List.dropLast_sublist _
      · exact List.Sublist.refl _
    · simp
  have hsub' : ∀ (f : List UInt8) fs, (f :: listed fs).Sublist (f :: fs) := fun f fs => (hsub fs).cons_cons f
  obtain ⟨e1, e2⟩ := listing_inj (listed fs) (listed gs) f g 2 0
    (fun x hx => a1.2.1 x ((hsub' f fs).subset hx)) (a1.2.2.sublist (hsub' f fs))
    (fun x hx => b1.2.1 x ((hsub' g gs).subset hx)) (b1.2.2.sublist (hsub' g gs)) (by simpa using hrep)
  have hc : ∀ (f : List UInt8) fs u, IsLyndonFactorization (f :: fs) u →
      u = (f :: listed fs).flatten ∨ u = (f :: listed fs).flatten ++ [0] := by
    intro f fs u hu
    obtain ⟨d1, d2⟩ := C55_dropped u f fs hu
    by_cases hz : u.getLast? = some 0 ∧ fs ≠ []
    · right
      have := d1 hz
      rw [← hu.1]
      conv => lhs; rw [this]
      simp
    · left
      rw [d2 hz, hu.1]
  have hs' := hc f fs s a1
  have ht' := hc g gs t b1
  rw [← e1, ← e2] at ht'
  rcases hs' with hs' | hs' <;> rcases ht' with ht' | ht'
  · left; rw [hs', ht']
  · right; right; rw [hs', ht']
  · right; left; rw [hs', ht']
  · left; rw [hs', ht']

example (t : List UInt8) (ht : t ≠ []) (n : Nat) (file : List UInt8) (h1 : lyndonfactorizationMain [97, 98, 97] = .ok (n, file)) (n' : Nat)
    (h2 : lyndonfactorizationMain t = .ok (n', file)) := C77_report_determines_text [97, 98, 97] t (by decide) ht n file h1 n' h2

/-- C77 for the program: on a non-empty input file it writes the report of the Lyndon factorization into the output
file (also in place), changes nothing else, and prints the number of factors.  The printed `length` is the prefix length
argument (0 by default), not the length of the text. -/
theorem C77_files (creatable : String → Bool) (i o : String) (stdin : List UInt8) (w : World) (t : List UInt8)
    (p : Nat) (hi : w.files i = some t) (ht : t ≠ []) (hsize : t.length < 18446744073709551616)
    (hc : creatable o = true) :
    ∃ w' f fs, IsLyndonFactorization (f :: fs) (if p = 0 then t else t.take p) ∧
      lyndonfactorizationFiles creatable (some i) (some o) p stdin w = (w', .ok (p, fs.length + 1)) ∧
      Wrote w o (report f fs) w' := by
  have hne : (if p = 0 then t else t.take p) ≠ [] := by
    split
    · exact ht
    · simp [ht]; assumption
  obtain ⟨f, fs, h1, h2⟩ := C55_lyndon_report _ hne
  refine ⟨_, f, fs, h1, ?_, writeOut_some⟩
  simp only [lyndonfactorizationFiles, readVector_file hi p stdin hsize, if_true, h2, openOut, hc]

example := C77_files (fun _ => true) "f" "g" [] ⟨fun n => if n = "f" then some [97, 98, 97] else none, []⟩ [97, 98, 97] 2 rfl (by decide)
  (by decide) rfl

/-- C78, the part that holds: with an explicit prefix length not exceeding the file, the printed length is the length of
the text that was factorized.  Missing: the default, see below. -/
theorem C78_length_partial (creatable : String → Bool) (i o : String) (stdin : List UInt8) (w : World)
    (t : List UInt8) (p : Nat) (hi : w.files i = some t) (hp : 0 < p) (hpt : p ≤ t.length)
    (hsize : t.length < 18446744073709551616) (hc : creatable o = true) :
    ∃ w' z u fs, IsLyndonFactorization fs u ∧ u = t.take p ∧ fs.length = z ∧
      lyndonfactorizationFiles creatable (some i) (some o) p stdin w = (w', .ok (u.length, z)) := by
  obtain ⟨w', f, fs, h1, h2, -⟩ := C77_files creatable i o stdin w t p hi
    (by rw [← List.length_pos_iff]; omega) hsize hc
  rw [if_neg (by omega)] at h1
  exact ⟨w', _, _, _, h1, rfl, rfl, by rw [h2, List.length_take, Nat.min_eq_left hpt]; rfl⟩

example := C78_length_partial (fun _ => true) "f" "g" [] ⟨fun n => if n = "f" then some [97, 98, 97] else none, []⟩ [97, 98, 97] 2 rfl
  (by decide) (by decide) (by decide) rfl

/-- C78 is false: the result line does not show the length of the text; two bytes are reported as length 0. -/
theorem C78_length_refuted : ∃ (w : World) (z : Nat), w.files "f" = some [97, 98] ∧
    lyndonfactorizationFiles (fun _ => true) (some "f") none 0 [] w = (w, .ok (0, z)) := by
  refine ⟨⟨fun n => if n = "f" then some [97, 98] else none, []⟩, 1, rfl, ?_⟩
  have e : lyndonfactorizationMain [97, 98] = .ok (1, report [97, 98] []) := by decide +kernel
  rw [lyndonfactorizationFiles, readVector_file (c := [97, 98]) rfl 0 [] (by decide)]
  simp only [if_true, e]

/-- Concrete case: `ba` and `ba0` have the same report, `bab` another. -/
example : (lyndonfactorizationMain [98, 97]).map Prod.snd = (lyndonfactorizationMain [98, 97, 0]).map Prod.snd ∧
    (lyndonfactorizationMain [98, 97]).map Prod.snd ≠ (lyndonfactorizationMain [98, 97, 98]).map Prod.snd := by
  decide +kernel

end Verif.Props
