import Verif.Lemmas.Lex
import Mathlib.Tactic.Push
import Mathlib.Data.List.Chain

/-! # Lyndon words and factorizations -/

set_option linter.unusedSectionVars false

namespace Verif

open Spec

variable {α : Type} [LinearOrder α]

theorem Spec.IsLyndon.ne_nil {w : List α} (h : IsLyndon w) : w ≠ [] := h.1

theorem Spec.IsLyndon.length_pos {w : List α} (h : IsLyndon w) : 0 < w.length :=
  List.length_pos_iff.2 h.1

/-- A proper suffix of a Lyndon word is larger because of a mismatch. -/
theorem Spec.IsLyndon.mis {w u v : List α} (h : IsLyndon w) (hu : u ≠ []) (hv : v ≠ []) (e : w = u ++ v) :
    Mis w v := by
  refine mis_of_lt_of_length_le (h.2 u v hu hv e) ?_
  subst e; simp

theorem Spec.IsLyndon.mis_drop {w : List α} (h : IsLyndon w) {d : Nat} (h0 : 0 < d) (h1 : d < w.length) :
    Mis w (w.drop d) := by
  refine h.mis (u := w.take d) (v := w.drop d) ?_ ?_ (List.take_append_drop _ _).symm
  · intro e; have := congrArg List.length e; rw [List.length_take, List.length_nil] at this; omega
  · intro e; have := congrArg List.length e; rw [List.length_drop, List.length_nil] at this; omega

theorem isLyndon_of_drop {w : List α} (h : w ≠ [])
    (hd : ∀ d, 0 < d → d < w.length → w < w.drop d) : IsLyndon w := by
  refine ⟨h, ?_⟩
  intro u v hu hv e
  have h1 : 0 < u.length := List.length_pos_iff.2 hu
  have h2 : 0 < v.length := List.length_pos_iff.2 hv
  have := hd u.length h1 (by rw [e]; simp; omega)
  rw [e] at this ⊢
  simpa using this

theorem isLyndon_singleton (a : α) : IsLyndon [a] := by
  refine isLyndon_of_drop (by simp) ?_
  intro d h1 h2; simp at h2; omega

/-- Concatenating `u < v` Lyndon gives a Lyndon word. -/
theorem Spec.IsLyndon.append {u v : List α} (hu : IsLyndon u) (hv : IsLyndon v) (h : u < v) :
    IsLyndon (u ++ v) := by
  have huv : u ++ v < v := by
    rcases lt_iff_mis.1 h with ⟨⟨v', rfl⟩, hne⟩ | hm
    · have hv' : v' ≠ [] := by rintro rfl; simp at hne
      exact append_lt_left.2 (hv.2 u v' hu.1 hv' rfl)
    · simpa using (hm.append v []).lt
  refine isLyndon_of_drop (by simp [hu.1]) ?_
  intro d h0 h1
  rcases lt_trichotomy d u.length with hd | rfl | hd
  · rw [List.drop_append_of_le_length hd.le]
    exact ((hu.mis_drop h0 hd).append v v).lt
  · simpa using huv
  · obtain ⟨e, rfl⟩ : ∃ e, d = u.length + e := ⟨d - u.length, by omega⟩
    rw [List.drop_length_add_append]
    simp at h1
    exact huv.trans (hv.mis_drop (by omega) (by omega)).lt

/-- `u` is the longest Lyndon prefix of `t`. -/
def LongestLyndonPrefix (u t : List α) : Prop :=
  IsLyndon u ∧ u <+: t ∧ ∀ v, IsLyndon v → v <+: t → v.length ≤ u.length

theorem LongestLyndonPrefix.unique {u v t : List α} (h1 : LongestLyndonPrefix u t)
    (h2 : LongestLyndonPrefix v t) : u = v := by
  have hl : u.length = v.length := le_antisymm (h2.2.2 u h1.1 h1.2.1) (h1.2.2 v h2.1 h2.2.1)
  exact List.IsPrefix.eq_of_length (List.prefix_of_prefix_length_le h1.2.1 h2.2.1 hl.le) hl

/-- A factorization that always takes the longest Lyndon prefix. -/
inductive Greedy : List (List α) → List α → Prop
  | nil : Greedy [] []
  | cons {u : List α} {fs : List (List α)} {t : List α} :
      LongestLyndonPrefix u (u ++ t) → Greedy fs t → Greedy (u :: fs) (u ++ t)

theorem Greedy.flatten {fs : List (List α)} {t : List α} (h : Greedy fs t) : fs.flatten = t := by
  induction h with
  | nil => rfl
  | cons _ _ ih => simp [ih]

theorem Greedy.lyndon {fs : List (List α)} {t : List α} (h : Greedy fs t) :
    ∀ f ∈ fs, IsLyndon f := by
  induction h with
  | nil => simp
  | cons h _ ih =>
    intro f hf
    rcases List.mem_cons.1 hf with rfl | hf
    · exact h.1
    · exact ih f hf

theorem Greedy.pairwise {fs : List (List α)} {t : List α} (h : Greedy fs t) :
    fs.Pairwise (fun f g => g ≤ f) := by
  induction h with
  | nil => simp
  | @cons u fs t hu hg ih =>
    rw [List.pairwise_cons]
    refine ⟨?_, ih⟩
    cases hg with
    | nil => simp
    | @cons v fs t hv hg =>
      have hvu : v ≤ u := by
        by_contra hlt
        rw [not_le] at hlt
        have := hu.2.2 (u ++ v) (hu.1.append hv.1 hlt) (by simp)
        have := hv.1.length_pos
        simp at *; omega
      intro f hf
      rcases List.mem_cons.1 hf with rfl | hf
      · exact hvu
      · exact le_trans ((List.pairwise_cons.1 ih).1 f hf) hvu

theorem Greedy.isLyndonFactorization {fs : List (List α)} {t : List α} (h : Greedy fs t) :
    IsLyndonFactorization fs t := ⟨h.flatten, h.lyndon, h.pairwise⟩

/-- A non-empty prefix of a concatenation ends inside one of the words. -/
theorem prefix_flatten {β : Type _} (fs : List (List β)) (x : List β) (hx : x ≠ [])
    (h : x <+: fs.flatten) :
    ∃ pre f z, (pre ++ [f]) <+: fs ∧ x = pre.flatten ++ z ∧ z ≠ [] ∧ z <+: f := by
  induction fs generalizing x with
  | nil => simp at h; exact absurd h hx
  | cons w fs ih =>
    simp only [List.flatten_cons] at h
    by_cases hl : x.length ≤ w.length
    · exact ⟨[], w, x, by simp, by simp, hx,
        List.prefix_of_prefix_length_le h (List.prefix_append _ _) hl⟩
    · have hw : w <+: x := List.prefix_of_prefix_length_le (List.prefix_append _ _) h (by omega)
      obtain ⟨y, rfl⟩ := hw
      have hy : y ≠ [] := by rintro rfl; simp at hl
      obtain ⟨pre, f, z, h1, h2, h3, h4⟩ := ih y hy ((List.prefix_append_right_inj w).1 h)
      exact ⟨w :: pre, f, z, by simpa using h1, by simp [h2], h3, h4⟩

/-- The first word of a Lyndon factorization is the longest Lyndon prefix (Chen-Fox-Lyndon). -/
theorem Spec.IsLyndonFactorization.longest {u : List α} {fs : List (List α)} {t : List α}
    (h : IsLyndonFactorization (u :: fs) t) : LongestLyndonPrefix u t := by
  obtain ⟨h1, h2, h3⟩ := h
  refine ⟨h2 u (by simp), ⟨fs.flatten, by simpa using h1⟩, ?_⟩
  intro x hx hxt
  by_contra hl
  rw [not_le] at hl
  subst h1
  obtain ⟨pre, f, z, hp, hxz, hz, hzf⟩ := prefix_flatten _ x hx.1 hxt
  cases pre with
  | nil =>
    simp at hp hxz
    subst hp hxz
    have := hzf.length_le
    omega
  | cons w pre =>
    simp at hp
    obtain ⟨rfl, hp⟩ := hp
    have hf : f ∈ fs := hp.subset (by simp)
    have hw : w ≠ [] := (h2 w (by simp)).1
    have l1 : x < z := hx.2 (w :: pre).flatten z (by simp [hw]) hz hxz
    have l2 : z ≤ f := le_of_prefix hzf
    have l3 : f ≤ w := (List.pairwise_cons.1 h3).1 f hf
    have l4 : w ≤ x := le_of_prefix ⟨pre.flatten ++ z, by rw [hxz]; simp⟩
    exact absurd (l1.trans_le (l2.trans (l3.trans l4))) (lt_irrefl _)

theorem Spec.IsLyndonFactorization.tail {u : List α} {fs : List (List α)} {t : List α}
    (h : IsLyndonFactorization (u :: fs) (u ++ t)) : IsLyndonFactorization fs t := by
  obtain ⟨h1, h2, h3⟩ := h
  exact ⟨by simpa using h1, fun f hf => h2 f (by simp [hf]), (List.pairwise_cons.1 h3).2⟩

/-- Uniqueness of the Lyndon factorization. -/
theorem Spec.IsLyndonFactorization.unique {fs gs : List (List α)} {t : List α}
    (h1 : IsLyndonFactorization fs t) (h2 : IsLyndonFactorization gs t) : fs = gs := by
  induction fs generalizing gs t with
  | nil =>
    have : t = [] := by simpa using h1.1.symm
    subst this
    cases gs with
    | nil => rfl
    | cons g gs =>
      have := h2.1
      simp at this
      exact absurd this.1 (h2.2.1 g (by simp)).1
  | cons f fs ih =>
    have ht : t = f ++ fs.flatten := by simpa using h1.1.symm
    subst ht
    cases gs with
    | nil =>
      have := h2.1
      simp at this
      exact absurd this.1 (h1.2.1 f (by simp)).1
    | cons g gs =>
      have : f = g := h1.longest.unique h2.longest
      subst this
      rw [ih h1.tail h2.tail]

/-! ### Prefixes of powers of a word -/

/-- `x` is a prefix of `u u u ...` of length at least `|u|`. -/
structure PPow (u x : List α) : Prop where
  ne : u ≠ []
  le : u.length ≤ x.length
  eq : ∀ m, m < x.length → x[m]? = u[m % u.length]?

theorem PPow.refl {u : List α} (h : u ≠ []) : PPow u u :=
  ⟨h, le_refl _, fun m hm => by rw [Nat.mod_eq_of_lt hm]⟩

theorem PPow.prefix {u x : List α} (h : PPow u x) : u <+: x := by
  rw [List.prefix_iff_eq_take]
  apply List.ext_getElem?
  intro m
  by_cases hm : m < u.length
  · rw [List.getElem?_take_of_lt hm, h.eq m (by have := h.le; omega), Nat.mod_eq_of_lt hm]
  · rw [List.getElem?_eq_none (by omega), List.getElem?_eq_none (by simp; omega)]

theorem PPow.shift {u x : List α} (h : PPow u x) {m : Nat} (hm : m + u.length < x.length) :
    x[m + u.length]? = x[m]? := by
  rw [h.eq _ hm, h.eq m (by omega), Nat.add_mod_right]

theorem PPow.push {u x : List α} (h : PPow u x) {c : α}
    (hc : x[x.length - u.length]? = some c) : PPow u (x ++ [c]) := by
  have h1 := h.le
  have h2 : 0 < u.length := List.length_pos_iff.2 h.ne
  refine ⟨h.ne, by simp; omega, ?_⟩
  intro m hm
  simp at hm
  by_cases hmx : m < x.length
  · rw [List.getElem?_append_left hmx, h.eq m hmx]
  · have : m = x.length := by omega
    subst this
    rw [List.getElem?_append_right (le_refl _)]
    simp
    rw [← hc, h.eq _ (by omega)]
    congr 1
    conv_rhs => rw [show x.length = (x.length - u.length) + u.length by omega, Nat.add_mod_right]

theorem PPow.drop {u x : List α} (h : PPow u x) (hl : 2 * u.length ≤ x.length) :
    PPow u (x.drop u.length) := by
  refine ⟨h.ne, by simp; omega, ?_⟩
  intro m hm
  simp at hm
  rw [List.getElem?_drop, Nat.add_comm, h.shift (by omega), h.eq m (by omega)]

theorem PPow.drop_prefix {u x : List α} (h : PPow u x) : x.drop u.length <+: x := by
  rw [List.prefix_iff_eq_take]
  apply List.ext_getElem?
  intro m
  have hl := h.le
  by_cases hm : m + u.length < x.length
  · rw [List.getElem?_take_of_lt (by simp; omega), List.getElem?_drop, Nat.add_comm, h.shift hm]
  · rw [List.getElem?_eq_none (by simp; omega), List.getElem?_eq_none (by simp; omega)]

/-- Extending a prefix of a power of a Lyndon word by a letter larger than the expected one gives a
Lyndon word. -/
theorem Spec.IsLyndon.extend {u x : List α} (hu : IsLyndon u) (h : PPow u x) {a c : α}
    (ha : x[x.length - u.length]? = some a) (hac : a < c) : IsLyndon (x ++ [c]) := by
  have hle := h.le
  have hpos := hu.length_pos
  refine isLyndon_of_drop (by simp) ?_
  intro d hd0 hd1
  simp at hd1
  rw [List.drop_append_of_le_length (by omega)]
  -- the letter a again, through the period
  have ha' : ∀ q, q < u.length → q % u.length = x.length % u.length → u[q]? = some a := by
    intro q hq hqx
    rw [← ha, h.eq _ (by omega), ← Nat.mod_eq_of_lt hq]
    congr 1
    rw [hqx]
    conv_lhs => rw [show x.length = (x.length - u.length) + u.length by omega, Nat.add_mod_right]
  -- it suffices to find the mismatch
  suffices H : ∃ i, ∃ b1 b2, (∀ t, t < i → (x ++ [c])[t]? = (x.drop d ++ [c])[t]?) ∧
      (x ++ [c])[i]? = some b1 ∧ (x.drop d ++ [c])[i]? = some b2 ∧ b1 < b2 by
    obtain ⟨i, b1, b2, e1, e2, e3, e4⟩ := H
    obtain ⟨l1, e2⟩ := List.getElem?_eq_some_iff.1 e2
    obtain ⟨l2, e3⟩ := List.getElem?_eq_some_iff.1 e3
    exact (mis_iff_index.2 ⟨i, l1, l2, e1, by rw [e2, e3]; exact e4⟩).lt
  have hdl : (x.drop d).length = x.length - d := by simp
  have hdr : ∀ t, t < x.length - d → (x.drop d ++ [c])[t]? = u[(d + t) % u.length]? := by
    intro t ht
    rw [List.getElem?_append_left (by omega), List.getElem?_drop, h.eq _ (by omega)]
  have hx : ∀ t, t < x.length → (x ++ [c])[t]? = u[t % u.length]? := by
    intro t ht
    rw [List.getElem?_append_left ht, h.eq _ ht]
  have hlast : (x.drop d ++ [c])[x.length - d]? = some c := by
    rw [List.getElem?_append_right (by omega)]; simp
  by_cases hr : d % u.length = 0
  · refine ⟨x.length - d, a, c, ?_, ?_, hlast, hac⟩
    · intro t ht
      rw [hdr t ht, hx t (by omega), Nat.add_mod, hr]; simp
    · rw [hx _ (by omega)]
      refine ha' _ (Nat.mod_lt _ hpos) ?_
      rw [Nat.mod_mod]
      conv_rhs => rw [show x.length = d + (x.length - d) by omega, Nat.add_mod, hr]
      simp
  · have hrlt := Nat.mod_lt d hpos
    obtain ⟨t, l1, l2, e1, e2⟩ := mis_iff_index.1 (hu.mis_drop (Nat.pos_of_ne_zero hr) hrlt)
    simp only [List.length_drop] at l2
    have hmod : ∀ s, d % u.length + s < u.length → (d + s) % u.length = d % u.length + s := by
      intro s hs
      rw [Nat.add_mod, Nat.mod_eq_of_lt (show s < u.length by omega), Nat.mod_eq_of_lt hs]
    by_cases htx : t < x.length - d
    · refine ⟨t, u[t], (u.drop (d % u.length))[t]'(by simp; omega), ?_, ?_, ?_, e2⟩
      · intro s hs
        rw [hdr s (by omega), hx s (by omega), hmod s (by omega), Nat.mod_eq_of_lt (by omega), e1 s hs,
          List.getElem?_drop]
      · rw [hx t (by omega), Nat.mod_eq_of_lt (by omega)]; simp
      · rw [hdr t htx, hmod t (by omega), ← List.getElem?_drop]; simp
    · have hq : d % u.length + (x.length - d) < u.length := by omega
      have hA := ha' (d % u.length + (x.length - d)) hq (by
        conv_rhs => rw [show x.length = d + (x.length - d) by omega]
        rw [Nat.mod_add_mod])
      have hlt : x.length - d < u.length := by omega
      refine ⟨x.length - d, u[x.length - d], c, ?_, ?_, hlast, lt_of_le_of_lt ?_ hac⟩
      · intro s hs
        rw [hdr s (by omega), hx s (by omega), hmod s (by omega), Nat.mod_eq_of_lt (by omega),
          e1 s (by omega), List.getElem?_drop]
      · rw [hx _ (by omega), Nat.mod_eq_of_lt hlt]; simp
      · rcases Nat.lt_or_ge (x.length - d) t with h' | h'
        · have := e1 (x.length - d) h'
          rw [List.getElem?_drop, hA, List.getElem?_eq_getElem hlt] at this
          exact le_of_eq (by simpa using this)
        · have : x.length - d = t := by omega
          rw [← List.getElem?_drop] at hA
          subst this
          rw [List.getElem?_eq_getElem (by simp; omega)] at hA
          simp only [Option.some.injEq] at hA
          rw [← hA]; exact e2.le

theorem prefix_drop {β : Type _} {u v : List β} (h : u <+: v) (d : Nat) : u.drop d <+: v.drop d := by
  obtain ⟨w, rfl⟩ := h
  rw [List.drop_append]
  exact List.prefix_append _ _

/-- The exit condition of the scan: the power run cannot be extended. -/
theorem longest_of_exit {u x y : List α} (hu : IsLyndon u) (h : PPow u x)
    (hy : y = [] ∨ ∃ a c y', x[x.length - u.length]? = some a ∧ y = c :: y' ∧ c < a) :
    LongestLyndonPrefix u (x ++ y) := by
  refine ⟨hu, h.prefix.trans (List.prefix_append _ _), ?_⟩
  intro v hv hvx
  by_contra hl
  rw [not_le] at hl
  have hlt := (hv.mis_drop hu.length_pos hl).lt
  by_cases hvl : v.length ≤ x.length
  · have hvx' : v <+: x := List.prefix_of_prefix_length_le hvx (List.prefix_append _ _) hvl
    have h1 : v.drop u.length <+: v := by
      have a1 : v.drop u.length <+: x := (prefix_drop hvx' u.length).trans h.drop_prefix
      exact List.prefix_of_prefix_length_le a1 hvx' (by simp)
    exact absurd hlt (not_lt.2 (le_of_prefix h1))
  · have hxv : x <+: v := List.prefix_of_prefix_length_le (List.prefix_append _ _) hvx (by omega)
    obtain ⟨z, rfl⟩ := hxv
    have hz : z ≠ [] := by rintro rfl; simp at hvl
    have hzy : z <+: y := (List.prefix_append_right_inj x).1 hvx
    rcases hy with rfl | ⟨a, c, y', ha, rfl, hca⟩
    · simp at hzy; exact hz hzy
    · obtain ⟨b, z, rfl⟩ := List.exists_cons_of_ne_nil hz
      have hbc : b = c := by simp at hzy; exact hzy.1
      subst hbc
      have hle := h.le
      have hpos := hu.length_pos
      have : Mis ((x ++ b :: z).drop u.length) (x ++ b :: z) := by
        rw [List.drop_append_of_le_length hle]
        obtain ⟨w, hw⟩ := h.drop_prefix
        have hw0 : w[0]? = some a := by
          have e : (x.drop u.length ++ w)[x.length - u.length]? = some a := by rw [hw]; exact ha
          rw [List.getElem?_append_right (by simp)] at e
          simpa using e
        cases w with
        | nil => simp at hw0
        | cons a' w =>
          simp at hw0; subst hw0
          exact ⟨x.drop u.length, b, a', z, w ++ b :: z, rfl, by
            conv_lhs => rw [← hw]
            simp, hca⟩
      exact absurd hlt (not_lt.2 this.lt.le)

/-! ### End positions -/

/-- (Inclusive) end positions of consecutive words starting at position `s`. -/
def ends {β : Type _} (s : Nat) : List (List β) → List Nat
  | [] => []
  | f :: fs => (s + f.length - 1) :: ends (s + f.length) fs

theorem pieces_ends {β : Type _} (t : List β) (fs : List (List β)) (s : Nat)
    (h : t.drop s = fs.flatten) (hne : ∀ f ∈ fs, f ≠ []) : pieces t s (ends s fs) = fs := by
  induction fs generalizing s with
  | nil => rfl
  | cons f fs ih =>
    have hf : 0 < f.length := List.length_pos_iff.2 (hne f (by simp))
    simp only [ends, pieces]
    rw [show s + f.length - 1 + 1 = s + f.length by omega, ih]
    · rw [h, show s + f.length - s = f.length by omega]; simp
    · rw [← List.drop_drop, h]; simp
    · exact fun g hg => hne g (by simp [hg])

theorem ends_append {β : Type _} (s : Nat) (fs gs : List (List β)) :
    ends s (fs ++ gs) = ends s fs ++ ends (s + fs.flatten.length) gs := by
  induction fs generalizing s with
  | nil => simp [ends]
  | cons f fs ih => simp only [List.cons_append, ends, ih, List.flatten_cons, List.length_append]
                    simp [Nat.add_assoc]

theorem ends_lower {β : Type _} (fs : List (List β)) (s : Nat) (hne : ∀ f ∈ fs, f ≠ []) :
    ∀ e ∈ ends s fs, s ≤ e := by
  induction fs generalizing s with
  | nil => simp [ends]
  | cons f fs ih =>
    have hf : 0 < f.length := List.length_pos_iff.2 (hne f (by simp))
    intro e he
    simp only [ends, List.mem_cons] at he
    rcases he with rfl | he
    · omega
    · have := ih (s + f.length) (fun g hg => hne g (by simp [hg])) e he; omega

theorem ends_upper {β : Type _} (fs : List (List β)) (s : Nat) (hne : ∀ f ∈ fs, f ≠ []) :
    ∀ e ∈ ends s fs, e < s + fs.flatten.length := by
  induction fs generalizing s with
  | nil => simp [ends]
  | cons f fs ih =>
    have hf : 0 < f.length := List.length_pos_iff.2 (hne f (by simp))
    intro e he
    simp only [ends, List.mem_cons] at he
    simp only [List.flatten_cons, List.length_append]
    rcases he with rfl | he
    · omega
    · have := ih (s + f.length) (fun g hg => hne g (by simp [hg])) e he; omega

theorem ends_sorted {β : Type _} (fs : List (List β)) (s : Nat) (hne : ∀ f ∈ fs, f ≠ []) :
    (ends s fs).Pairwise (· < ·) := by
  induction fs generalizing s with
  | nil => simp [ends]
  | cons f fs ih =>
    have hf : 0 < f.length := List.length_pos_iff.2 (hne f (by simp))
    simp only [ends, List.pairwise_cons]
    refine ⟨?_, ih _ (fun g hg => hne g (by simp [hg]))⟩
    intro e he
    have := ends_lower fs (s + f.length) (fun g hg => hne g (by simp [hg])) e he
    omega

theorem ends_length {β : Type _} (fs : List (List β)) (s : Nat) : (ends s fs).length = fs.length := by
  induction fs generalizing s with
  | nil => rfl
  | cons f fs ih => simp [ends, ih]

end Verif

namespace Verif

open Spec

variable {α : Type} [LinearOrder α]

theorem isLyndon_iff_drop {w : List α} :
    IsLyndon w ↔ w ≠ [] ∧ ∀ d, d < w.length → 0 < d → w < w.drop d :=
  ⟨fun h => ⟨h.1, fun _ h1 h0 => (h.mis_drop h0 h1).lt⟩,
    fun h => isLyndon_of_drop h.1 (fun d h0 h1 => h.2 d h1 h0)⟩

/-- Being a Lyndon word can be decided (used in concrete examples). -/
instance (w : List α) : Decidable (IsLyndon w) := decidable_of_iff _ isLyndon_iff_drop.symm

instance (fs : List (List α)) (t : List α) : Decidable (IsLyndonFactorization fs t) := by
  unfold IsLyndonFactorization; infer_instance

end Verif
