import Verif.Lemmas.BwtNecklace

/-! # Laws of Lyndon factorizations: concatenation, suffixes, substrings, powers -/

namespace Verif

open Spec Model

variable {α : Type} [LinearOrder α]

theorem Spec.IsLyndonFactorization.run {A B C : List (List α)} {t : List α} (h : IsLyndonFactorization (A ++ B ++ C) t) :
    IsLyndonFactorization B B.flatten := by
  obtain ⟨-, h2, h3⟩ := h
  exact ⟨rfl, fun f hf => h2 f (by simp [hf]), (List.pairwise_append.1 (List.pairwise_append.1 h3).1).2.1⟩

theorem Spec.IsLyndonFactorization.append {fs gs : List (List α)} {s t : List α} (h1 : IsLyndonFactorization fs s)
    (h2 : IsLyndonFactorization gs t) (h : ∀ f ∈ fs.getLast?, ∀ g ∈ gs.head?, g ≤ f) : IsLyndonFactorization (fs ++ gs) (s ++ t) := by
  obtain ⟨a1, a2, a3⟩ := h1
  obtain ⟨b1, b2, b3⟩ := h2
  refine ⟨by rw [List.flatten_append, a1, b1], ?_, ?_⟩
  · intro f hf
    rcases List.mem_append.1 hf with hf | hf
    · exact a2 f hf
    · exact b2 f hf
  · rw [List.pairwise_append]
    refine ⟨a3, b3, fun f hf g hg => ?_⟩
    rcases List.eq_nil_or_concat fs with rfl | ⟨pre, l, rfl⟩
    · simp at hf
    rw [List.concat_eq_append] at *
    rcases gs with _ | ⟨d, gs⟩
    · simp at hg
    have hdl : d ≤ l := h l (by simp) d (by simp)
    have h4 : l ≤ f := by
      rw [List.pairwise_append] at a3
      rcases List.mem_append.1 hf with hf | hf
      · exact a3.2.2 f hf l (by simp)
      · rw [List.mem_singleton.1 hf]
    have h5 : g ≤ d := by
      rcases List.mem_cons.1 hg with rfl | hg
      · exact le_rfl
      · exact (List.pairwise_cons.1 b3).1 g hg
    exact h5.trans (hdl.trans h4)

/-- a Lyndon word between two runs of factors swallows factors on both sides -/
theorem lyndon_merge (n : Nat) : ∀ (A B : List (List α)) (w : List α), A.length + B.length = n →
    (∀ f ∈ A, IsLyndon f) → (∀ f ∈ B, IsLyndon f) → A.Pairwise (fun f g => g ≤ f) → B.Pairwise (fun f g => g ≤ f) → IsLyndon w →
    ∃ A' C D B', A = A' ++ C ∧ B = D ++ B' ∧
      IsLyndonFactorization (A' ++ (C.flatten ++ w ++ D.flatten) :: B') (A.flatten ++ w ++ B.flatten) := by
  induction n with
  | zero =>
    intro A B w hn hA hB pA pB hw
    obtain rfl : A = [] := List.eq_nil_of_length_eq_zero (by omega)
    obtain rfl : B = [] := List.eq_nil_of_length_eq_zero (by omega)
    exact ⟨[], [], [], [], rfl, rfl, by simp, by simpa using hw, by simp⟩
  | succ n ih =>
    intro A B w hn hA hB pA pB hw
    by_cases c1 : ∃ f ∈ A.getLast?, f < w
    · obtain ⟨f, hf, hlt⟩ := c1
      rcases List.eq_nil_or_concat A with rfl | ⟨A0, l, rfl⟩
      · simp at hf
      rw [List.concat_eq_append] at *
      obtain rfl : l = f := by simpa using hf
      have hl : IsLyndon l := hA l (by simp)
      obtain ⟨A', C, D, B', e1, e2, e3⟩ := ih A0 B (l ++ w) (by simp at hn; omega) (fun f hf => hA f (by simp [hf])) hB
        (List.pairwise_append.1 pA).1 pB (hl.append hw hlt)
      refine ⟨A', C ++ [l], D, B', by rw [e1, List.append_assoc], e2, ?_⟩
      simpa using e3
    by_cases c2 : ∃ f ∈ B.head?, w < f
    · obtain ⟨f, hf, hlt⟩ := c2
      rcases B with _ | ⟨d, B0⟩
      · simp at hf
      obtain rfl : d = f := by simpa using hf
      have hd : IsLyndon d := hB d (by simp)
      obtain ⟨A', C, D, B', e1, e2, e3⟩ := ih A B0 (w ++ d) (by simp at hn; omega) hA (fun f hf => hB f (by simp [hf]))
        pA (List.pairwise_cons.1 pB).2 (hw.append hd hlt)
      refine ⟨A', C, d :: D, B', e1, by rw [e2, List.cons_append], ?_⟩
      simpa using e3
    refine ⟨A, [], [], B, by simp, by simp, ?_⟩
    have hwf : IsLyndonFactorization [w] w := ⟨by simp, by simpa using hw, by simp⟩
    have hAf : IsLyndonFactorization A A.flatten := ⟨rfl, hA, pA⟩
    have hBf : IsLyndonFactorization B B.flatten := ⟨rfl, hB, pB⟩
    have h1 : IsLyndonFactorization (w :: B) (w ++ B.flatten) := hwf.append hBf (by
      intro f hf g hg
      simp only [List.getLast?_singleton, Option.mem_def, Option.some.injEq] at hf
      subst hf
      exact not_lt.1 fun hlt => c2 ⟨g, hg, hlt⟩)
    have h2 := hAf.append h1 (by
      intro f hf g hg
      simp only [List.head?_cons, Option.mem_def, Option.some.injEq] at hg
      subst hg
      exact not_lt.1 fun hlt => c1 ⟨f, hf, hlt⟩)
    simpa using h2

/-- The factorization of a concatenation: the factors of the two texts, where at most one run of factors around the cut is merged. -/
theorem Spec.IsLyndonFactorization.concat {fs gs : List (List α)} {s t : List α} (h1 : IsLyndonFactorization fs s)
    (h2 : IsLyndonFactorization gs t) (h : ∃ f ∈ fs.getLast?, ∃ g ∈ gs.head?, f < g) :
    ∃ A C D B, C ≠ [] ∧ D ≠ [] ∧ fs = A ++ C ∧ gs = D ++ B ∧ IsLyndonFactorization (A ++ (C.flatten ++ D.flatten) :: B) (s ++ t) := by
  obtain ⟨f, hf, g, hg, hlt⟩ := h
  obtain ⟨a1, a2, a3⟩ := h1
  obtain ⟨b1, b2, b3⟩ := h2
  rcases List.eq_nil_or_concat fs with rfl | ⟨A0, l, rfl⟩
  · simp at hf
  rw [List.concat_eq_append] at *
  obtain rfl : l = f := by simpa using hf
  rcases gs with _ | ⟨d, B0⟩
  · simp at hg
  obtain rfl : d = g := by simpa using hg
  obtain ⟨A', C, D, B', e1, e2, e3⟩ := lyndon_merge _ A0 B0 (l ++ d) rfl (fun f hf => a2 f (by simp [hf])) (fun f hf => b2 f (by simp [hf]))
    (List.pairwise_append.1 a3).1 (List.pairwise_cons.1 b3).2 ((a2 l (by simp)).append (b2 d (by simp)) hlt)
  refine ⟨A', C ++ [l], d :: D, B', by simp, by simp, by rw [e1, List.append_assoc], by rw [e2, List.cons_append], ?_⟩
  rw [← a1, ← b1]
  simpa using e3

/-- A suffix of the text: the factors of the rest of the cut factor, then the remaining factors. -/
theorem Spec.IsLyndonFactorization.suffix {A B gs : List (List α)} {y z t : List α}
    (h : IsLyndonFactorization (A ++ (y ++ z) :: B) t) (hg : IsLyndonFactorization gs z) :
    IsLyndonFactorization (gs ++ B) (z ++ B.flatten) := by
  have hB : IsLyndonFactorization B B.flatten := (show IsLyndonFactorization ((A ++ [y ++ z]) ++ B ++ []) t by simpa using h).run
  refine hg.append hB ?_
  intro f hf b hb
  obtain ⟨h1, h2, h3⟩ := h
  have hyz : IsLyndon (y ++ z) := h2 _ (by simp)
  have hbm : b ∈ B := List.mem_of_mem_head? hb
  have hby : b ≤ y ++ z := by
    have := (List.pairwise_append.1 h3).2.1
    exact (List.pairwise_cons.1 this).1 b hbm
  refine hby.trans ?_
  rcases List.eq_nil_or_concat gs with rfl | ⟨G, l, rfl⟩
  · simp at hf
  rw [List.concat_eq_append] at *
  obtain rfl : l = f := by simpa using hf
  have hl : l ≠ [] := (hg.2.1 l (by simp)).1
  have e : y ++ z = (y ++ G.flatten) ++ l := by rw [← hg.1]; simp
  by_cases hne : y ++ G.flatten = []
  · rw [e, hne, List.nil_append]
  · exact (hyz.2 _ _ hne hl e).le

/-- The last factor is not larger than any non-empty suffix. -/
theorem Spec.IsLyndonFactorization.last_le {fs : List (List α)} {l t y z : List α} (h : IsLyndonFactorization (fs ++ [l]) t)
    (hz : z ≠ []) (e : t = y ++ z) : l ≤ z := by
  induction fs generalizing t y with
  | nil =>
    obtain ⟨h1, h2, h3⟩ := h
    have hl : IsLyndon l := h2 l (by simp)
    have e' : l = y ++ z := by rw [← e, ← h1]; simp
    by_cases hy : y = []
    · rw [e', hy, List.nil_append]
    · exact (hl.2 _ _ hy hz e').le
  | cons f fs ih =>
    have hf : IsLyndon f := h.2.1 f (by simp)
    have hlf : l ≤ f := (List.pairwise_cons.1 h.2.2).1 l (by simp)
    have e' : f ++ (fs ++ [l]).flatten = y ++ z := by rw [← e, ← h.1]; simp
    have htl : IsLyndonFactorization (fs ++ [l]) (fs ++ [l]).flatten :=
      (show IsLyndonFactorization ([f] ++ (fs ++ [l]) ++ []) t by simpa using h).run
    rcases List.append_eq_append_iff.1 e' with ⟨w, rfl, hw⟩ | ⟨w, hw1, hw2⟩
    · exact ih htl hw
    · by_cases hwe : w = []
      · subst hwe
        exact ih (y := []) htl (by simpa using hw2.symm)
      · by_cases hy : y = []
        · subst hy
          rw [hw2]
          exact hlf.trans (le_of_prefix ⟨_, by rw [hw1]; rfl⟩)
        · have := (hf.2 _ _ hy hwe hw1).le
          exact hlf.trans (this.trans (le_of_prefix ⟨_, hw2.symm⟩))

/-- Every occurrence of a Lyndon word lies inside one factor. -/
theorem Spec.IsLyndonFactorization.inside {fs : List (List α)} {t a x b : List α} (h : IsLyndonFactorization fs t) (hx : IsLyndon x)
    (e : t = a ++ x ++ b) : ∃ A f B y z, fs = A ++ f :: B ∧ f = y ++ x ++ z ∧ a = A.flatten ++ y ∧ b = z ++ B.flatten := by
  induction fs generalizing t a with
  | nil =>
    have : t = [] := by simpa using h.1.symm
    rw [this] at e
    simp [hx.1] at e
  | cons f fs ih =>
    have htl : IsLyndonFactorization fs fs.flatten := (show IsLyndonFactorization ([f] ++ fs ++ []) t by simpa using h).run
    have e' : f ++ fs.flatten = a ++ (x ++ b) := by rw [← List.append_assoc, ← e, ← h.1]; simp
    have hf : IsLyndon f := h.2.1 f (by simp)
    have past : ∀ w, a = f ++ w → fs.flatten = w ++ (x ++ b) → 
        ∃ A f_1 B y z, f :: fs = A ++ f_1 :: B ∧ f_1 = y ++ x ++ z ∧ a = A.flatten ++ y ∧ b = z ++ B.flatten := by
      intro w hw1 hw2
      obtain ⟨A, g, B, y, z, i1, i2, i3, i4⟩ := ih htl (a := w) (by rw [hw2, List.append_assoc])
      exact ⟨f :: A, g, B, y, z, by rw [i1, List.cons_append], i2, by rw [hw1, i3]; simp, i4⟩
    rcases List.append_eq_append_iff.1 e' with ⟨w, hw1, hw2⟩ | ⟨w, hw1, hw2⟩
    · exact past w hw1 hw2
    · by_cases hwe : w = []
      · subst hwe
        exact past [] (by simpa using hw1.symm) (by simpa using hw2.symm)
      · rcases List.append_eq_append_iff.1 hw2 with ⟨v, hv1, hv2⟩ | ⟨v, hv1, hv2⟩
        · exact ⟨[], f, fs, a, v, rfl, by rw [hw1, hv1, List.append_assoc], by simp, by rw [hv2]⟩
        · -- `x = w ++ v`, `fs.flatten = v ++ b`
          by_cases hve : v = []
          · subst hve
            exact ⟨[], f, fs, a, [], rfl, by rw [hw1, hv1]; simp, by simp, by simpa using hv2.symm⟩
          · exfalso
            obtain ⟨pre, g, z, hp, hxz, hz, hzf⟩ := prefix_flatten fs v hve ⟨b, hv2.symm⟩
            have hg : g ∈ fs := hp.subset (by simp)
            have l1 : x < z := by
              refine hx.2 (w ++ pre.flatten) z (by simp [hwe]) hz ?_
              rw [hv1, hxz, List.append_assoc]
            have l2 : z ≤ g := le_of_prefix hzf
            have l3 : g ≤ f := (List.pairwise_cons.1 h.2.2).1 g hg
            have l4 : f ≤ w := by
              by_cases ha : a = []
              · rw [hw1, ha, List.nil_append]
              · exact (hf.2 a w ha hwe hw1).le
            have l5 : w ≤ x := le_of_prefix ⟨v, hv1.symm⟩
            exact absurd (l1.trans_le (l2.trans (l3.trans (l4.trans l5)))) (lt_irrefl _)

theorem map_lt_map_strict {β : Type} [LinearOrder β] {g : α → β} (hg : StrictMono g) : ∀ {u v : List α}, u.map g < v.map g ↔ u < v := by
  intro u
  induction u with
  | nil => intro v; cases v <;> simp
  | cons a u ih =>
    intro v
    cases v with
    | nil => simp
    | cons b v => simp only [List.map_cons, List.cons_lt_cons_iff, hg.lt_iff_lt, hg.injective.eq_iff, ih]

theorem map_le_map_strict {β : Type} [LinearOrder β] {g : α → β} (hg : StrictMono g) {u v : List α} : u.map g ≤ v.map g ↔ u ≤ v := by
  rw [← not_lt, ← not_lt, map_lt_map_strict hg]

theorem isLyndon_map {β : Type} [LinearOrder β] {g : α → β} (hg : StrictMono g) {w : List α} : IsLyndon (w.map g) ↔ IsLyndon w := by
  have hlt : ∀ u v : List α, u.map g < v.map g ↔ u < v := fun u v => map_lt_map_strict hg
  constructor
  · rintro ⟨h1, h2⟩
    refine ⟨by simpa using h1, fun u v hu hv e => ?_⟩
    rw [← hlt]
    exact h2 (u.map g) (v.map g) (by simpa using hu) (by simpa using hv) (by rw [e, List.map_append])
  · rintro ⟨h1, h2⟩
    refine ⟨by simpa using h1, fun u v hu hv e => ?_⟩
    obtain ⟨u', v', rfl, rfl, rfl⟩ := List.map_eq_append_iff.1 e
    rw [hlt]
    exact h2 _ _ (by simpa using hu) (by simpa using hv) rfl

end Verif
