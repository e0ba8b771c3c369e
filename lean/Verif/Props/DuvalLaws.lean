import Verif.Lemmas.DuvalLaws

/-! # C131: laws of Duval's factorization -/

namespace Verif.Props

open Verif Spec Model

variable {α : Type} [LinearOrder α]

/-- `duval` cuts `t` into the words `fs`. -/
def DuvalCuts (t : List α) (fs : List (List α)) : Prop :=
  ∃ es, duval t = .ok es ∧ pieces t 0 es = fs

theorem duvalCuts_iff {t : List α} {fs : List (List α)} : DuvalCuts t fs ↔ IsLyndonFactorization fs t := by
  obtain ⟨gs, h1, h2⟩ := duval_spec t
  constructor
  · rintro ⟨es, h3, h4⟩
    rw [h1] at h3
    injection h3 with h3
    rw [← h3, h2.pieces] at h4
    exact h4 ▸ h2
  · intro h
    exact ⟨_, duval_of_factorization h, h.pieces⟩

/-- C131: the factors of a concatenation. If the last factor of `s` is not smaller than the first factor of `t`, they are the factors of `s`
followed by those of `t`; otherwise one non-empty run of last factors of `s` and one non-empty run of first factors of `t` melt into one
factor, and all others remain. -/
theorem C131_concat (s t : List α) (fs gs : List (List α)) (h1 : DuvalCuts s fs) (h2 : DuvalCuts t gs) :
    ((∀ f ∈ fs.getLast?, ∀ g ∈ gs.head?, g ≤ f) ∧ DuvalCuts (s ++ t) (fs ++ gs)) ∨
    ((∃ f ∈ fs.getLast?, ∃ g ∈ gs.head?, f < g) ∧ ∃ A C D B, C ≠ [] ∧ D ≠ [] ∧ fs = A ++ C ∧ gs = D ++ B ∧
      DuvalCuts (s ++ t) (A ++ [C.flatten ++ D.flatten] ++ B)) := by
  rw [duvalCuts_iff] at h1 h2
  by_cases h : ∃ f ∈ fs.getLast?, ∃ g ∈ gs.head?, f < g
  · refine .inr ⟨h, ?_⟩
    obtain ⟨A, C, D, B, c1, c2, c3, c4, c5⟩ := h1.concat h2 h
    exact ⟨A, C, D, B, c1, c2, c3, c4, duvalCuts_iff.2 (by simpa using c5)⟩
  · have h' : ∀ f ∈ fs.getLast?, ∀ g ∈ gs.head?, g ≤ f := fun f hf g hg => not_lt.1 fun hlt => h ⟨f, hf, g, hg, hlt⟩
    exact .inl ⟨h', duvalCuts_iff.2 (h1.append h2 h')⟩

example : DuvalCuts [2, 1, 2] [[2], [1, 2]] ∧ DuvalCuts [1, 3] [[1, 3]] ∧ DuvalCuts [2, 1, 2, 1, 3] [[2], [1, 2, 1, 3]] :=
  ⟨⟨[0, 2], by decide +kernel, by decide⟩, ⟨[1], by decide +kernel, by decide⟩, ⟨[0, 4], by decide +kernel, by decide⟩⟩

/-- C131: concatenating two texts never produces more factors than both had, and as many exactly if the order at the cut is right. -/
theorem C131_concat_count (s t : List α) (fs gs hs : List (List α)) (h1 : DuvalCuts s fs) (h2 : DuvalCuts t gs)
    (h3 : DuvalCuts (s ++ t) hs) : hs.length ≤ fs.length + gs.length ∧
      (hs.length = fs.length + gs.length ↔ ∀ f ∈ fs.getLast?, ∀ g ∈ gs.head?, g ≤ f) := by
  have key : ∀ ks, DuvalCuts (s ++ t) ks → hs = ks := fun ks hk => (duvalCuts_iff.1 h3).unique (duvalCuts_iff.1 hk)
  rcases C131_concat s t fs gs h1 h2 with ⟨h, hc⟩ | ⟨⟨f, hf, g, hg, hlt⟩, A, C, D, B, c1, c2, c3, c4, hc⟩
  · rw [key _ hc, List.length_append]
    exact ⟨le_rfl, iff_of_true rfl h⟩
  · have hC := List.length_pos_iff.2 c1
    have hD := List.length_pos_iff.2 c2
    have hlen : hs.length < fs.length + gs.length := by
      rw [key _ hc, c3, c4]
      simp only [List.length_append, List.length_singleton]
      omega
    exact ⟨hlen.le, iff_of_false hlen.ne fun h => absurd (h f hf g hg) (not_le.2 hlt)⟩

example : DuvalCuts [2, 1, 2] [[2], [1, 2]] := ⟨[0, 2], by decide +kernel, by decide⟩

/-- C131: a text cut at borders of factors is factorized into these factors. -/
theorem C131_run (t : List α) (A B C : List (List α)) (h : DuvalCuts t (A ++ B ++ C)) : DuvalCuts B.flatten B := by
  rw [duvalCuts_iff] at *
  exact h.run

example : DuvalCuts [2, 1, 2, 1, 1] ([[2]] ++ [[1, 2], [1]] ++ [[1]]) := ⟨[0, 2, 3, 4], by decide +kernel, by decide⟩

/-- C131: the factors of a suffix are the factors of the rest of the factor that it cuts, and all later factors unchanged. -/
theorem C131_suffix (t y z : List α) (A B gs : List (List α)) (h : DuvalCuts t (A ++ [y ++ z] ++ B)) (hg : DuvalCuts z gs) :
    DuvalCuts (z ++ B.flatten) (gs ++ B) := by
  rw [duvalCuts_iff] at *
  exact Spec.IsLyndonFactorization.suffix (A := A) (y := y) (t := t) (by simpa using h) hg

example : DuvalCuts [2, 1, 2, 2, 1, 2] ([[2]] ++ [[1, 2] ++ [2]] ++ [[1, 2]]) := ⟨[0, 3, 5], by decide +kernel, by decide⟩

/-- C131: the first factor is the longest Lyndon prefix; the last one is the least non-empty suffix, and the longest Lyndon suffix. -/
theorem C131_ends (t : List α) (h0 : t ≠ []) : ∃ fs, DuvalCuts t fs ∧ ∃ f ∈ fs.head?, ∃ l ∈ fs.getLast?,
    (IsLyndon f ∧ f <+: t ∧ ∀ x, IsLyndon x → x <+: t → x.length ≤ f.length) ∧
    (l ≠ [] ∧ l <:+ t ∧ ∀ x, x ≠ [] → x <:+ t → l ≤ x) ∧
    (IsLyndon l ∧ l <:+ t ∧ ∀ x, IsLyndon x → x <:+ t → x.length ≤ l.length) := by
  obtain ⟨fs, h1, h2⟩ := duval_spec t
  refine ⟨fs, duvalCuts_iff.2 h2, ?_⟩
  rcases List.eq_nil_or_concat fs with rfl | ⟨pre, l, hpl⟩
  · exact absurd h2.1.symm h0
  rw [List.concat_eq_append] at hpl
  subst hpl
  have hl : IsLyndon l := h2.2.1 l (by simp)
  have hsuf : l <:+ t := ⟨pre.flatten, by rw [← h2.1]; simp⟩
  have hfirst : ∃ f ∈ (pre ++ [l]).head?, LongestLyndonPrefix f t := by
    rcases pre with _ | ⟨f, pre⟩
    · exact ⟨l, by simp, h2.longest⟩
    · exact ⟨f, by simp, Spec.IsLyndonFactorization.longest (fs := pre ++ [l]) (by simpa using h2)⟩
  obtain ⟨f, hf, hff⟩ := hfirst
  refine ⟨f, hf, l, by simp, hff, ⟨hl.1, hsuf, ?_⟩, hl, hsuf, ?_⟩
  · rintro x hx ⟨y, hy⟩
    exact h2.last_le hx hy.symm
  · rintro x hx ⟨y, hy⟩
    by_contra hlt
    rw [not_le] at hlt
    obtain ⟨w, hw⟩ := List.suffix_of_suffix_length_le hsuf ⟨y, hy⟩ hlt.le
    have hwne : w ≠ [] := by rintro rfl; rw [← hw] at hlt; simp at hlt
    exact absurd (hx.2 w l hwne hl.1 hw.symm) (not_lt.2 (h2.last_le hx.1 hy.symm))

example := C131_ends [2, 1, 2, 1, 1] (by decide)

/-- C131: every occurrence of a Lyndon word in the text lies inside one of the factors; so a longest factor is a longest Lyndon
substring. -/
theorem C131_substrings (t : List α) : ∃ fs, DuvalCuts t fs ∧
    (∀ a x b, IsLyndon x → t = a ++ x ++ b →
      ∃ A f B y z, fs = A ++ [f] ++ B ∧ f = y ++ x ++ z ∧ a = A.flatten ++ y ∧ b = z ++ B.flatten) ∧
    (∀ x, IsLyndon x → x <:+: t → ∃ f ∈ fs, x.length ≤ f.length) := by
  obtain ⟨fs, h1, h2⟩ := duval_spec t
  refine ⟨fs, duvalCuts_iff.2 h2, ?_, ?_⟩
  · intro a x b hx e
    obtain ⟨A, f, B, y, z, i1, i2, i3, i4⟩ := h2.inside hx e
    exact ⟨A, f, B, y, z, by simpa using i1, i2, i3, i4⟩
  · rintro x hx ⟨a, b, e⟩
    obtain ⟨A, f, B, y, z, i1, i2, i3, i4⟩ := h2.inside hx e.symm
    exact ⟨f, by simp [i1], by rw [i2]; simp only [List.length_append]; omega⟩

example := (C131_substrings [2, 1, 2, 1, 1, 2, 2]).choose_spec.2.1 [2, 1, 2, 1] [1, 2] [2] (by decide) rfl

/-- C131: the `k`-th power of a Lyndon word is cut into its `k` copies; a text is a single factor exactly if it is a Lyndon word, and is
cut into its letters exactly if they never increase. -/
theorem C131_extremes (t : List α) (h0 : t ≠ []) : ∃ es, duval t = .ok es ∧ 1 ≤ es.length ∧ es.length ≤ t.length ∧
    (es.length = 1 ↔ IsLyndon t) ∧ (es.length = t.length ↔ t.Pairwise (fun a b => b ≤ a)) ∧
    (∀ u k, IsLyndon u → t = power u k → DuvalCuts t (List.replicate k u)) := by
  obtain ⟨fs, h1, h2⟩ := duval_spec t
  have hlen : ∀ (gs : List (List α)), (∀ g ∈ gs, g ≠ []) → gs.length ≤ gs.flatten.length ∧
      (gs.length = gs.flatten.length → gs = gs.flatten.map (fun a => [a])) := by
    intro gs
    induction gs with
    | nil => intro _; simp
    | cons g gs ih =>
      intro hg
      have hgl := List.length_pos_iff.2 (hg g (by simp))
      obtain ⟨i1, i2⟩ := ih (fun x hx => hg x (by simp [hx]))
      simp only [List.flatten_cons, List.length_append, List.length_cons, List.map_append]
      refine ⟨by omega, fun e => ?_⟩
      obtain ⟨a, rfl⟩ := List.length_eq_one_iff.1 (show g.length = 1 by omega)
      rw [← i2 (by simp only [List.length_singleton] at e; omega)]
      rfl
  have hne : ∀ g ∈ fs, g ≠ [] := fun g hg => (h2.2.1 g hg).1
  have hpos : fs ≠ [] := by
    rintro rfl
    exact h0 h2.1.symm
  refine ⟨_, h1, ?_⟩
  rw [ends_length]
  refine ⟨List.length_pos_iff.2 hpos, by have := (hlen fs hne).1; rwa [h2.1] at this, ?_, ?_, ?_⟩
  · constructor
    · intro e
      obtain ⟨f, rfl⟩ := List.length_eq_one_iff.1 e
      have : f = t := by simpa using h2.1
      exact this ▸ h2.2.1 f (by simp)
    · intro ht
      rw [h2.unique (gs := [t]) ⟨by simp, by simpa using ht, by simp⟩]
      rfl
  · have hle : ∀ a b : α, [b] ≤ [a] ↔ b ≤ a := by
      intro a b
      rw [← not_lt, ← not_lt, List.cons_lt_cons_iff]
      simp
    constructor
    · intro e
      have e2 := (hlen fs hne).2 (by rw [h2.1]; exact e)
      rw [h2.1] at e2
      have := h2.2.2
      rw [e2, List.pairwise_map] at this
      exact this.imp fun h => (hle _ _).1 h
    · intro hp
      rw [h2.unique (gs := t.map (fun a => [a])) ⟨?_, ?_, ?_⟩]
      · rw [List.length_map]
      · exact (List.flatMap_def ..).symm.trans (by simp)
      · intro f hf
        obtain ⟨a, -, rfl⟩ := List.mem_map.1 hf
        exact isLyndon_singleton a
      · rw [List.pairwise_map]
        exact hp.imp fun h => (hle _ _).2 h
  · rintro u k hu rfl
    rw [duvalCuts_iff]
    refine ⟨replicate_flatten u k, fun f hf => ?_, List.pairwise_replicate.2 (.inr le_rfl)⟩
    rw [List.eq_of_mem_replicate hf]
    exact hu

example := C131_extremes [1, 2, 1, 2] (by decide)

/-- C131: the positions of the cuts only depend on the order of the letters. -/
theorem C131_rename {β : Type} [LinearOrder β] (g : α → β) (hg : StrictMono g) (t : List α) :
    duval (t.map g) = duval t := by
  obtain ⟨fs, h1, h2, h3, h4⟩ := duval_spec t
  have hf : IsLyndonFactorization (fs.map (List.map g)) (t.map g) := by
    refine ⟨by rw [← h2, List.map_flatten], ?_, ?_⟩
    · intro f hf
      obtain ⟨f', hf', rfl⟩ := List.mem_map.1 hf
      exact (isLyndon_map hg).2 (h3 f' hf')
    · rw [List.pairwise_map]
      exact h4.imp fun h => (map_le_map_strict hg).2 h
  rw [h1, duval_of_factorization hf]
  congr 1
  generalize 0 = s
  clear h1 h2 h3 h4 hf
  induction fs generalizing s with
  | nil => rfl
  | cons f fs ih => simp only [List.map_cons, ends, List.length_map, ih]

example := C131_rename (fun a : Nat => 2 * a + 1) (fun a b h => by simp only; omega) [2, 1, 2]

end Verif.Props
