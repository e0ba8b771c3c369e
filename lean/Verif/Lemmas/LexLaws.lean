import Verif.Lemmas.LexWords
import Verif.Lemmas.LexTm
import Verif.Lemmas.LyndonCount
import Verif.Spec.LexLaws

/-! # Laws of the lexicographic parse -/

namespace Verif

open Spec Model

theorem split_lcp {u v : List UInt8} : ∃ p u' r, u = p ++ u' ∧ v = p ++ r ∧ p.length = lcpLen u v :=
  ⟨v.take (lcpLen u v), u.drop (lcpLen u v), v.drop (lcpLen u v), by
    rw [← lcpLen_take, List.take_append_drop], by rw [List.take_append_drop], by
    rw [List.length_take]; have := lcpLen_le_right u v; omega⟩

theorem Spec.LexPhrases.split {t v : List UInt8} {m : Nat} (h : LexPhrases t v m) : LexSplit t v m := by
  induction h with
  | nil => exact .nil
  | @cons v l m hv hl _ ih =>
    obtain ⟨c, v, rfl⟩ := List.exists_cons_of_ne_nil hv
    rcases hl.2 with rfl | ⟨u, hu, e⟩
    · exact .letter (by simpa using ih)
    · rcases Nat.eq_zero_or_pos l with rfl | h0
      · exact .letter (by simpa using ih)
      · obtain ⟨p, u', r, e1, e2, e3⟩ := @split_lcp u (c :: v)
        rw [e] at e3
        have hr : (c :: v).drop (max 1 l) = r := by
          rw [e2, show max 1 l = p.length by omega, List.drop_left]
        rw [hr] at ih
        rw [e2] at hu ⊢
        exact .copy (by rintro rfl; simp at e3; omega) hu ⟨u', e1.symm⟩ ih

/-- A source of a phrase, moved on by some letters. -/
theorem Spec.SmallerSuffix.shift {t p1 p2 r u : List UInt8} (h : SmallerSuffix t u ((p1 ++ p2) ++ r)) (hp : p1 ++ p2 <+: u) (h2 : p2 ≠ []) :
    ∃ u', u = p1 ++ (p2 ++ u') ∧ SmallerSuffix t (p2 ++ u') (p2 ++ r) := by
  obtain ⟨u', rfl⟩ := hp
  obtain ⟨g1, g2, g3⟩ := h
  refine ⟨u', by simp, List.IsSuffix.trans ⟨p1, by simp⟩ g1, by simp [h2], ?_⟩
  rw [append_lt_left] at g3 ⊢
  exact g3

theorem suffix_append_cases {v p r : List UInt8} (h : v <:+ p ++ r) : v <:+ r ∨ ∃ p1 p2, p = p1 ++ p2 ∧ p2 ≠ [] ∧ v = p2 ++ r := by
  rcases Nat.lt_or_ge r.length v.length with hl | hl
  · right
    obtain ⟨p2, rfl⟩ := List.suffix_of_suffix_length_le (List.suffix_append p r) h hl.le
    rw [List.suffix_append_inj_of_length_eq rfl] at h
    obtain ⟨p1, rfl⟩ := h.1
    exact ⟨p1, p2, rfl, by rintro rfl; simp at hl, rfl⟩
  · exact .inl (List.suffix_of_suffix_length_le h (List.suffix_append p r) hl)

theorem Spec.LexSplit.le {t v : List UInt8} {m' : Nat} (h : LexSplit t v m') :
    ∀ v2 m, v2 <:+ v → LexPhrases t v2 m → m ≤ m' := by
  induction h with
  | nil =>
    intro v2 m h1 h2
    rw [List.suffix_nil] at h1
    subst h1
    cases h2 with
    | nil => exact le_refl _
    | cons h => exact absurd rfl h
  | @letter c r m' _ ih =>
    intro v2 m h1 h2
    rw [List.suffix_cons_iff] at h1
    rcases h1 with rfl | h1
    · cases h2 with
      | @cons _ l m _ _ h3 =>
        have : (c :: r).drop (max 1 l) <:+ r := by
          rw [show max 1 l = max 1 l - 1 + 1 by omega, List.drop_succ_cons]
          exact List.drop_suffix _ _
        have := ih _ _ this h3
        omega
    · have := ih _ _ h1 h2
      omega
  | @copy p r u m' hp hu hpu _ ih =>
    intro v2 m h1 h2
    rcases suffix_append_cases h1 with h1 | ⟨p1, p2, rfl, hp2, rfl⟩
    · have := ih _ _ h1 h2
      omega
    · obtain ⟨u', -, h5⟩ := SmallerSuffix.shift hu hpu hp2
      generalize hw : p2 ++ r = w at h2
      cases h2 with
      | nil => omega
      | @cons _ l m _ hl h3 =>
        subst hw
        have h6 := hl.1 _ h5
        rw [lcpLen_append_left] at h6
        have : (p2 ++ r).drop (max 1 l) <:+ r := by
          rw [show max 1 l = p2.length + (max 1 l - p2.length) by omega, ← List.drop_drop, List.drop_left]
          exact List.drop_suffix _ _
        have := ih _ _ this h3
        omega

/-- The greedy parse is a smallest one. -/
theorem lex_optimal {t : List UInt8} {m : Nat} (h : LexFactors t m) : LexSplit t t m ∧ ∀ m', LexSplit t t m' → m ≤ m' :=
  ⟨h.split, fun _ h' => h'.le _ _ (List.suffix_refl _) h⟩

/-! ### Bounds -/

theorem lexSplit_letters (t : List UInt8) : ∀ v, LexSplit t v v.length
  | [] => .nil
  | _ :: v => .letter (lexSplit_letters t v)

/-- `w` is the least of the suffixes of `t` with its first letter. -/
def LeastOf (t w : List UInt8) : Prop := w <:+ t ∧ w ≠ [] ∧ ∀ u, u <:+ t → u.head? = w.head? → ¬ u < w

theorem Spec.LexSplit.card_le {t v : List UInt8} {m : Nat} (h : LexSplit t v m) :
    ∀ S : Finset (List UInt8), (∀ w ∈ S, LeastOf t w ∧ w <:+ v) → S.card ≤ m := by
  induction h with
  | nil =>
    intro S hS
    have : S = ∅ := Finset.eq_empty_of_forall_notMem fun w hw => (hS w hw).1.2.1 (List.suffix_nil.1 (hS w hw).2)
    simp [this]
  | @letter c r m _ ih =>
    intro S hS
    have := ih (S.erase (c :: r)) (fun w hw => by
      rw [Finset.mem_erase] at hw
      refine ⟨(hS w hw.2).1, ?_⟩
      have := (hS w hw.2).2
      rw [List.suffix_cons_iff] at this
      exact this.resolve_left hw.1)
    have h2 := Finset.pred_card_le_card_erase (s := S) (a := c :: r)
    omega
  | @copy p r u m hp hu hpu _ ih =>
    intro S hS
    have := ih S (fun w hw => by
      refine ⟨(hS w hw).1, ?_⟩
      rcases suffix_append_cases (hS w hw).2 with h1 | ⟨p1, p2, rfl, hp2, rfl⟩
      · exact h1
      · exfalso
        obtain ⟨u', -, h5⟩ := SmallerSuffix.shift hu hpu hp2
        refine (hS _ hw).1.2.2 _ h5.1 ?_ h5.2.2
        obtain ⟨c, p2, rfl⟩ := List.exists_cons_of_ne_nil hp2
        rfl)
    omega

theorem exists_leastOf {t : List UInt8} {c : UInt8} (h : c ∈ t) : ∃ w, LeastOf t w ∧ w.head? = some c := by
  obtain ⟨s, r, rfl⟩ := List.append_of_mem h
  obtain ⟨w, h1, h2⟩ := Finset.exists_min_image (((s ++ c :: r).tails.toFinset).filter fun u => u.head? = some c) id
    ⟨c :: r, by simp⟩
  rw [Finset.mem_filter, List.mem_toFinset, List.mem_tails] at h1
  refine ⟨w, ⟨h1.1, by rintro rfl; simp at h1, fun u hu e => ?_⟩, h1.2⟩
  exact not_lt.2 (h2 u (by rw [Finset.mem_filter, List.mem_toFinset, List.mem_tails]; exact ⟨hu, e.trans h1.2⟩))

theorem lex_bounds {t : List UInt8} {m : Nat} (h : LexFactors t m) : t.toFinset.card ≤ m ∧ m ≤ t.length := by
  refine ⟨?_, (lex_optimal h).2 _ (lexSplit_letters t t)⟩
  classical
  have hex : ∀ c ∈ t.toFinset, ∃ w, LeastOf t w ∧ w.head? = some c := fun c hc => exists_leastOf (List.mem_toFinset.1 hc)
  choose! f hf using hex
  have h1 := h.split.card_le (t.toFinset.image f) (fun w hw => by
    obtain ⟨c, hc, rfl⟩ := Finset.mem_image.1 hw
    exact ⟨(hf c hc).1, (hf c hc).1.1⟩)
  rwa [Finset.card_image_of_injOn] at h1
  intro a ha b hb e
  have := (hf a ha).2
  rw [e, (hf b hb).2] at this
  exact (Option.some.inj this).symm

/-! ### Text in front -/

theorem Spec.LexSplit.prepend {t v : List UInt8} {m : Nat} (u : List UInt8) (h : LexSplit t v m) : LexSplit (u ++ t) v m := by
  induction h with
  | nil => exact .nil
  | letter _ ih => exact .letter ih
  | copy hp hu hpu _ ih => exact .copy hp ⟨hu.1.trans (List.suffix_append _ _), hu.2⟩ hpu ih

theorem Spec.LexSplit.letters {t v : List UInt8} {m : Nat} (h : LexSplit t v m) : ∀ u, LexSplit t (u ++ v) (u.length + m)
  | [] => by simpa using h
  | c :: u => by
    have := LexSplit.letter (c := c) (h.letters u)
    rw [List.length_cons, show u.length + 1 + m = u.length + m + 1 by omega]
    exact this

theorem lex_prepend {t u : List UInt8} {m m' : Nat} (h : LexFactors t m) (h' : LexFactors (u ++ t) m') : m' ≤ u.length + m :=
  (lex_optimal h').2 _ ((h.split.prepend u).letters u)

theorem Spec.LexSplit.unprepend {c : UInt8} {t v : List UInt8} {m : Nat} (h : LexSplit (c :: t) v m) :
    ∃ m', m' ≤ 2 * m ∧ LexSplit t v m' := by
  induction h with
  | nil => exact ⟨0, by omega, .nil⟩
  | letter _ ih => obtain ⟨m', h1, h2⟩ := ih; exact ⟨m' + 1, by omega, .letter h2⟩
  | @copy p r u m hp hu hpu _ ih =>
    obtain ⟨m', h1, h2⟩ := ih
    have h3 := hu.1
    rw [List.suffix_cons_iff] at h3
    rcases h3 with rfl | h3
    · obtain ⟨d, p, rfl⟩ := List.exists_cons_of_ne_nil hp
      rcases List.eq_nil_or_concat p with rfl | hq
      · exact ⟨m' + 1, by omega, .letter h2⟩
      · have hp0 : p ≠ [] := by obtain ⟨_, _, rfl⟩ := hq; simp
        obtain ⟨u', e, h5⟩ := SmallerSuffix.shift (p1 := [d]) (p2 := p) hu hpu hp0
        simp at e
        refine ⟨m' + 1 + 1, by omega, .letter (.copy (u := p ++ u') hp0 ⟨?_, h5.2⟩ (List.prefix_append _ _) h2)⟩
        rw [e.2]
    · exact ⟨m' + 1, by omega, .copy hp ⟨h3, hu.2⟩ hpu h2⟩

theorem lex_unprepend {c : UInt8} {t : List UInt8} {m m' : Nat} (h : LexFactors t m) (h' : LexFactors (c :: t) m') : m ≤ 2 * m' := by
  have : ∃ m2, m2 ≤ 2 * m' ∧ LexSplit t t m2 := by
    cases h' with
    | @cons _ l k hv hl h3 =>
      rw [show max 1 l = max 1 l - 1 + 1 by omega, List.drop_succ_cons] at h3
      by_cases h0 : max 1 l = 1
      · rw [h0] at h3
        obtain ⟨m2, g1, g2⟩ := h3.split.unprepend
        exact ⟨m2, by omega, by simpa using g2⟩
      · rcases hl.2 with rfl | ⟨u, hu, e⟩
        · simp at h0
        · obtain ⟨p, u', r, e1, e2, e3⟩ := @split_lcp u (c :: t)
          rw [e] at e3
          rcases p with _ | ⟨d, p⟩
          · simp at e3; omega
          · simp at e2 e3
            obtain ⟨rfl, rfl⟩ := e2
            have hp0 : p ≠ [] := by rintro rfl; simp at e3; omega
            rw [show max 1 l - 1 = p.length by omega, List.drop_left] at h3
            obtain ⟨m2, g1, g2⟩ := h3.split.unprepend
            obtain ⟨u2, f1, f2⟩ := SmallerSuffix.shift (p1 := [c]) (p2 := p) (r := r) hu ⟨u', by rw [e1]; rfl⟩ hp0
            have f3 : p ++ u2 <:+ p ++ r := by
              have := f2.1
              rw [List.suffix_cons_iff] at this
              rcases this with f | f
              · exfalso
                have h7 := hu.1.length_le
                rw [f1, f] at h7
                simp at h7
              · exact f
            exact ⟨m2 + 1, by omega, .copy hp0 ⟨f3, f2.2⟩ (List.prefix_append _ _) g2⟩
  obtain ⟨m2, h1, h2⟩ := this
  have := (lex_optimal h).2 _ h2
  omega

/-! ### Renaming the letters in their order -/

theorem map_lt_map {S : List UInt8} {f : UInt8 → UInt8} (hf : ∀ x ∈ S, ∀ y ∈ S, x < y → f x < f y) :
    ∀ {u v : List UInt8}, u ⊆ S → v ⊆ S → u < v → u.map f < v.map f
  | _, [], _, _, h => absurd h (List.not_lt_nil _)
  | [], c :: v, _, _, _ => by simp
  | a :: u, c :: v, hu, hv, h => by
    rw [List.map_cons, List.map_cons, List.cons_lt_cons_iff]
    rw [List.cons_lt_cons_iff] at h
    rcases h with h | ⟨rfl, h⟩
    · exact .inl (hf a (hu (by simp)) c (hv (by simp)) h)
    · exact .inr ⟨rfl, map_lt_map hf (fun x hx => hu (by simp [hx])) (fun x hx => hv (by simp [hx])) h⟩

theorem Spec.LexSplit.map {t v : List UInt8} {m : Nat} {f : UInt8 → UInt8} (hf : ∀ x ∈ t, ∀ y ∈ t, x < y → f x < f y)
    (h : LexSplit t v m) (hv : v ⊆ t) : LexSplit (t.map f) (v.map f) m := by
  induction h with
  | nil => exact .nil
  | letter _ ih => exact .letter (ih fun x hx => hv (by simp [hx]))
  | copy hp hu hpu _ ih =>
    rw [List.map_append]
    refine .copy (by simpa using hp) (u := _) ⟨hu.1.map f, by simpa using hu.2.1, ?_⟩ (hpu.map f) (ih fun x hx => hv (by simp [hx]))
    rw [← List.map_append]
    exact map_lt_map hf hu.1.subset hv hu.2.2

theorem lex_rename {t : List UInt8} {f : UInt8 → UInt8} (hf : ∀ x ∈ t, ∀ y ∈ t, x < y → f x < f y) {m m' : Nat}
    (h : LexFactors t m) (h' : LexFactors (t.map f) m') : m = m' := by
  have hinj : Set.InjOn f {x | x ∈ t} := by
    intro x hx y hy e
    rcases lt_trichotomy x y with g | g | g
    · exact absurd e (hf x hx y hy g).ne
    · exact g
    · exact absurd e (hf y hy x hx g).ne'
  have h1 := (lex_optimal h').2 _ (h.split.map hf (List.Subset.refl _))
  have hg : ∀ x ∈ t, Function.invFunOn f {x | x ∈ t} (f x) = x := fun x hx => hinj.leftInvOn_invFunOn hx
  have h2 := Spec.LexSplit.map (f := Function.invFunOn f {x | x ∈ t}) (t := t.map f) (by
    intro x hx y hy hxy
    obtain ⟨a, ha, rfl⟩ := List.mem_map.1 hx
    obtain ⟨b, hb, rfl⟩ := List.mem_map.1 hy
    rw [hg a ha, hg b hb]
    rcases lt_trichotomy a b with g | g | g
    · exact g
    · subst g; exact absurd hxy (lt_irrefl _)
    · exact absurd hxy (hf b hb a ha g).not_gt) h'.split (List.Subset.refl _)
  have e : (t.map f).map (Function.invFunOn f {x | x ∈ t}) = t := by
    rw [List.map_map]
    exact (List.map_congr_left (fun x hx => hg x hx)).trans (List.map_id t)
  rw [e] at h2
  have := (lex_optimal h).2 _ h2
  omega

/-! ### Powers -/

theorem prefix_le_self {u v : List UInt8} (h : u <+: v) : u ≤ v := by
  obtain ⟨w, rfl⟩ := h
  have := append_le_left (p := u) (u := []) (v := w)
  rw [List.append_nil] at this
  exact this.2 (by rw [← not_lt]; exact List.not_lt_nil _)

theorem power_suffix_cases {t : List UInt8} : ∀ {k : Nat} {u : List UInt8}, u <:+ power t k → u ≠ [] →
    ∃ x j, x <:+ t ∧ x ≠ [] ∧ j < k ∧ u = x ++ power t j
  | 0, u, h, h0 => absurd (List.suffix_nil.1 h) h0
  | k + 1, u, h, h0 => by
    rw [show k + 1 = 1 + k by omega, power_add] at h
    rcases suffix_append_cases h with h | ⟨p1, p2, e, h2, rfl⟩
    · obtain ⟨x, j, h1, h2, h3, h4⟩ := power_suffix_cases h h0
      exact ⟨x, j, h1, h2, by omega, h4⟩
    · exact ⟨p2, k, ⟨p1, by rw [← e]; simp [power]⟩, h2, by omega, rfl⟩

theorem power_suffix_mono (t : List UInt8) {j k : Nat} (h : j ≤ k) : power t j <:+ power t k :=
  ⟨power t (k - j), by rw [← power_add]; congr 1; omega⟩

theorem Spec.LexSplit.of_power {t v : List UInt8} {m k : Nat} (h : LexSplit (power t k) v m) (hv : v.length ≤ t.length) :
    LexSplit (t ++ t) v m := by
  induction h with
  | nil => exact .nil
  | letter _ ih => exact .letter (ih (by simp at hv; omega))
  | @copy p r u m hp hu hpu _ ih =>
    have ih := ih (by simp at hv; omega)
    obtain ⟨x, j, h1, h2, h3, rfl⟩ := power_suffix_cases hu.1 hu.2.1
    rcases j with _ | j
    · rw [show x ++ power t 0 = x by simp [power]] at hu hpu
      exact .copy hp ⟨h1.trans (List.suffix_append t t), hu.2⟩ hpu ih
    · have e : x ++ power t (j + 1) = (x ++ t) ++ power t j := by simp [power]
      have hpre : x ++ t <+: x ++ power t (j + 1) := ⟨power t j, e.symm⟩
      have hx : (x ++ t) <:+ t ++ t := by
        obtain ⟨y, rfl⟩ := h1
        exact ⟨y, by simp⟩
      refine .copy hp ⟨hx, by simp [h2], lt_of_le_of_lt (prefix_le_self hpre) hu.2.2⟩ ?_ ih
      refine List.prefix_of_prefix_length_le hpu hpre ?_
      simp at hv ⊢
      omega

theorem Spec.LexSplit.to_power {t v : List UInt8} {m k : Nat} (hk : 2 ≤ k) (h : LexSplit (t ++ t) v m) : LexSplit (power t k) v m := by
  have := h.prepend (power t (k - 2))
  rwa [show power t (k - 2) ++ (t ++ t) = power t k by
    rw [show t ++ t = power t 2 by simp [power], ← power_add]; congr 1; omega] at this

/-- The first phrase of a power of a primitive word leaves the last repetition. -/
theorem lexLen_power {t : List UInt8} (ht : IsPrimitive t) (h0 : t ≠ []) {k : Nat} (hk : 2 ≤ k) :
    LexLen (power t k) (power t k) ((k - 1) * t.length) := by
  obtain ⟨k, rfl⟩ := Nat.exists_eq_add_of_le' hk
  have hn := List.length_pos_iff.2 h0
  have hl : ∀ j, (power t j).length = j * t.length := fun j => by
    induction j with
    | zero => simp [power]
    | succ j ih => simp [power, ih, Nat.succ_mul]; omega
  rw [show k + 2 - 1 = k + 1 by omega]
  have hpre : power t (k + 1) ++ t = power t (k + 2) := by
    rw [show k + 2 = (k + 1) + 1 by omega, power_add (j := k + 1)]; simp [power]
  constructor
  · intro u hu
    obtain ⟨x, j, h1, h2, h3, rfl⟩ := power_suffix_cases hu.1 hu.2.1
    by_contra hc
    push Not at hc
    have hle := lcpLen_le_left (x ++ power t j) (power t (k + 2))
    rw [List.length_append, hl] at hle
    have hxl := h1.length_le
    have hj : j = k + 1 := by
      by_contra hj
      have : j ≤ k := by omega
      have := Nat.mul_le_mul_right t.length this
      rw [Nat.add_mul] at hc
      omega
    subst hj
    have hx : x.length < t.length := by
      rcases Nat.lt_or_ge x.length t.length with h | h
      · exact h
      · have := h1.eq_of_length (by omega)
        subst this
        exact absurd hu.2.2 (by simp [power])
    obtain ⟨p, u', r, e1, e2, e3⟩ := @split_lcp (x ++ power t (k + 1)) (power t (k + 2))
    obtain ⟨z, rfl⟩ := h1
    have hp : (z ++ x).length ≤ p.length := by
      rw [e3]
      have : 1 * (z ++ x).length ≤ (k + 1) * (z ++ x).length := Nat.mul_le_mul_right _ (by omega)
      omega
    have e4 : x ++ z <+: p := List.prefix_of_prefix_length_le (l₃ := x ++ power (z ++ x) (k + 1)) ⟨x ++ power (z ++ x) k, by simp [power]⟩ ⟨u', e1.symm⟩ (by
      simpa [Nat.add_comm] using hp)
    have e5 : z ++ x <+: p := List.prefix_of_prefix_length_le (l₃ := power (z ++ x) (k + 2)) ⟨power (z ++ x) (k + 1), rfl⟩ ⟨r, e2.symm⟩ hp
    have e6 : x ++ z = z ++ x := List.IsPrefix.eq_of_length (List.prefix_of_prefix_length_le e4 e5 (by simp; omega)) (by simp; omega)
    simp at hx
    refine rot_ne_of_primitive ht (d := z.length) hx (by simp; exact List.length_pos_iff.2 h2) ?_
    simp [rot, e6]
  · right
    refine ⟨power t (k + 1), ⟨power_suffix_mono t (by omega), by simp [power, h0], ?_⟩, ?_⟩
    · rw [← hpre]
      have := append_lt_left (p := power t (k + 1)) (u := []) (v := t)
      rw [List.append_nil] at this
      refine this.2 ?_
      obtain ⟨c, t, rfl⟩ := List.exists_cons_of_ne_nil h0
      exact List.nil_lt_cons _ _
    · have := lcpLen_append_left (power t (k + 1)) [] t
      rw [hpre, List.append_nil] at this
      rw [this, hl]
      simp [lcpLen]

theorem lexSplit_nonempty {t v : List UInt8} {m : Nat} (h : LexSplit t v m) (hv : v ≠ []) : 0 < m := by
  cases h with
  | nil => exact absurd rfl hv
  | letter => omega
  | copy => omega

/-- The phrases of a power of a primitive word: the first one, and those of the last repetition. -/
theorem lexFactors_power {t : List UInt8} (ht : IsPrimitive t) (h0 : t ≠ []) {k m : Nat} (hk : 2 ≤ k) (h : LexFactors (power t k) m) :
    ∃ m', m = m' + 1 ∧ 0 < m' ∧ LexSplit (t ++ t) t m' ∧ ∀ m2, LexSplit (t ++ t) t m2 → m' ≤ m2 := by
  have hn := List.length_pos_iff.2 h0
  have hk1 : 1 * t.length ≤ (k - 1) * t.length := Nat.mul_le_mul_right _ (by omega)
  unfold LexFactors at h
  generalize hw : power t k = w at h
  cases h with
  | nil =>
    have := congrArg List.length hw
    rw [power_length, List.length_nil] at this
    have := Nat.mul_le_mul_right t.length hk
    omega
  | @cons _ l m' _ hl h3 =>
    rw [← hw] at hl h3
    rw [lexLen_unique hl (lexLen_power ht h0 hk), show max 1 ((k - 1) * t.length) = (power t (k - 1)).length by
      rw [power_length]; omega] at h3
    have e : (power t k).drop (power t (k - 1)).length = t := by
      have : power t k = power t (k - 1) ++ t := by
        conv_lhs => rw [show k = (k - 1) + 1 by omega, power_add]
        simp [power]
      rw [this, List.drop_left]
    rw [e] at h3
    refine ⟨m', rfl, lexSplit_nonempty h3.split h0, h3.split.of_power le_rfl, fun m2 h => ?_⟩
    exact (h.to_power hk).le _ _ (List.suffix_refl _) h3

theorem lex_power_eq {t : List UInt8} (ht : IsPrimitive t) (h0 : t ≠ []) {j k m n : Nat} (hj : 2 ≤ j) (hk : 2 ≤ k)
    (h : LexFactors (power t j) m) (h' : LexFactors (power t k) n) : m = n ∧ 2 ≤ m := by
  obtain ⟨m', rfl, g0, g1, g2⟩ := lexFactors_power ht h0 hj h
  obtain ⟨n', rfl, f0, f1, f2⟩ := lexFactors_power ht h0 hk h'
  have := g2 _ f1
  have := f2 _ g1
  omega

/-- A copy from the square of a word is at most two copies from the word. -/
theorem Spec.LexSplit.halve {t v : List UInt8} {m : Nat} (h : LexSplit (t ++ t) v m) : ∃ m', m' ≤ 2 * m ∧ LexSplit t v m' := by
  induction h with
  | nil => exact ⟨0, by omega, .nil⟩
  | letter _ ih => obtain ⟨m', h1, h2⟩ := ih; exact ⟨m' + 1, by omega, .letter h2⟩
  | @copy p r u m hp hu hpu _ ih =>
    obtain ⟨m', h1, h2⟩ := ih
    rcases suffix_append_cases hu.1 with h3 | ⟨y, x, e, hx, rfl⟩
    · exact ⟨m' + 1, by omega, .copy hp ⟨h3, hu.2⟩ hpu h2⟩
    · have hxt : x <:+ t := ⟨y, e.symm⟩
      have hxl : x < p ++ r := lt_of_le_of_lt (prefix_le_self (List.prefix_append x t)) hu.2.2
      rcases Nat.lt_or_ge x.length p.length with hl | hl
      · obtain ⟨p', rfl⟩ := List.prefix_of_prefix_length_le (List.prefix_append x t) hpu hl.le
        have hp' : p' ≠ [] := by rintro rfl; simp at hl
        have h4 := hu.2.2
        rw [List.append_assoc, append_lt_left] at h4
        have h5 : p' <+: t := by
          obtain ⟨s, hs⟩ := hpu
          exact ⟨s, by rwa [List.append_assoc, List.append_cancel_left_eq] at hs⟩
        rw [List.append_assoc] at hxl ⊢
        refine ⟨m' + 1 + 1, by omega, .copy (u := x) hx ⟨hxt, hx, hxl⟩ (List.prefix_refl _) (.copy (u := t) hp' ⟨List.suffix_refl _, ?_, h4⟩ h5 h2)⟩
        rintro rfl
        exact hp' (List.prefix_nil.1 h5)
      · exact ⟨m' + 1, by omega, .copy hp ⟨hxt, hx, hxl⟩ (List.prefix_of_prefix_length_le hpu (List.prefix_append x t) hl) h2⟩

theorem lex_power {w : List UInt8} (hw : w ≠ []) {k : Nat} (hk : 2 ≤ k) {a b c : Nat} (ha : LexFactors w a)
    (hb : LexFactors (w ++ w) b) (hc : LexFactors (power w k) c) : c = b ∧ b ≤ a + 1 ∧ a + 2 ≤ 2 * b := by
  obtain ⟨t, j, h0, ht, hj, rfl⟩ := exists_root hw
  have e : power t j ++ power t j = power t (2 * j) := by rw [← power_add]; congr 1; omega
  have hkj : 2 ≤ k * j := le_trans (by omega) (Nat.mul_le_mul hk hj)
  rw [e] at hb
  rw [power_power] at hc
  obtain ⟨h1, h2⟩ := lex_power_eq ht h0 hkj (by omega) hc hb
  rcases Nat.lt_or_ge j 2 with hj2 | hj2
  · have : j = 1 := by omega
    subst this
    rw [show power t 1 = t by simp [power]] at ha
    obtain ⟨m', rfl, -, g1, g2⟩ := lexFactors_power ht h0 (le_refl 2) hb
    have h3 := g2 _ (ha.split.prepend t)
    obtain ⟨m2, f1, f2⟩ := g1.halve
    have := (lex_optimal ha).2 _ f2
    omega
  · obtain ⟨h3, h4⟩ := lex_power_eq ht h0 hj2 (by omega) ha hb
    omega

/-! ### Runs -/

theorem cons_lt_of_head {a : UInt8} {r : List UInt8} (h : ∀ b, r.head? = some b → b < a) : r < a :: r := by
  rcases r with _ | ⟨b, r⟩
  · exact List.nil_lt_cons _ _
  · exact List.cons_lt_cons_iff.2 (.inl (h b rfl))

theorem lexSplit_run {t r : List UInt8} {a : UInt8} {m j : Nat} (hj : 0 < j) (hs : List.replicate j a ++ r <:+ t)
    (hr : r.head? ≠ some a) (h : LexSplit t r m) : ∃ m', m' ≤ m + 2 ∧ LexSplit t (List.replicate j a ++ r) m' := by
  obtain ⟨j, rfl⟩ := Nat.exists_eq_succ_of_ne_zero hj.ne'
  rcases j with _ | j
  · exact ⟨m + 1, by omega, .letter h⟩
  · have e1 : List.replicate (j + 1 + 1) a ++ r = List.replicate (j + 1) a ++ a :: r := by
      rw [List.replicate_succ' (n := j + 1)]; simp
    have e2 : List.replicate (j + 1 + 1) a ++ r = a :: (List.replicate (j + 1) a ++ r) := by
      rw [List.replicate_succ (n := j + 1)]; simp
    refine ⟨m + 1 + 1, by omega, ?_⟩
    by_cases hlt : ∀ b, r.head? = some b → b < a
    · rw [e1]
      refine .copy (u := List.replicate (j + 1) a ++ r) (by simp) ⟨?_, by simp, ?_⟩ (List.prefix_append _ _) (.letter h)
      · exact List.IsSuffix.trans ⟨[a], by rw [e2]; rfl⟩ hs
      · rw [append_lt_left]
        exact cons_lt_of_head hlt
    · push Not at hlt
      obtain ⟨b, hb, hab⟩ := hlt
      rw [e2]
      refine .letter (.copy (u := List.replicate (j + 1 + 1) a ++ r) (by simp) ⟨hs, by simp, ?_⟩ ?_ h)
      · rw [e1, append_lt_left]
        rcases r with _ | ⟨d, r⟩
        · simp at hb
        · simp at hb
          subst hb
          exact List.cons_lt_cons_iff.2 (.inl (lt_of_le_of_ne hab (by rintro rfl; exact hr rfl)))
      · rw [e1]
        exact List.prefix_append _ _

theorem lexSplit_runs {t : List UInt8} : ∀ (rs : List (UInt8 × Nat)), (∀ p ∈ rs, 0 < p.2) → rs.IsChain (fun p q => p.1 ≠ q.1) →
    (rs.flatMap fun p => List.replicate p.2 p.1) <:+ t →
    ∃ m, m ≤ 2 * rs.length ∧ LexSplit t (rs.flatMap fun p => List.replicate p.2 p.1) m
  | [], _, _, _ => ⟨0, by omega, .nil⟩
  | p :: rs, h1, h2, h3 => by
    rw [List.flatMap_cons] at h3 ⊢
    obtain ⟨m, g1, g2⟩ := lexSplit_runs (t := t) rs (fun q hq => h1 q (by simp [hq])) h2.tail ((List.suffix_append _ _).trans h3)
    obtain ⟨m', f1, f2⟩ := lexSplit_run (h1 p (by simp)) h3 (by
      rcases rs with _ | ⟨q, rs⟩
      · simp
      · have hq := h1 q (by simp)
        obtain ⟨k, hk⟩ := Nat.exists_eq_succ_of_ne_zero hq.ne'
        rw [List.flatMap_cons, hk, List.replicate_succ]
        intro e
        simp at e
        exact (List.isChain_cons_cons.1 h2).1 e.symm) g2
    exact ⟨m', by rw [List.length_cons]; omega, f2⟩

theorem lex_runs {t : List UInt8} {m : Nat} (h : LexFactors t m) {rs : List (UInt8 × Nat)}
    (h1 : rs.flatMap (fun p => List.replicate p.2 p.1) = t) (h2 : ∀ p ∈ rs, 0 < p.2) (h3 : rs.IsChain (fun p q => p.1 ≠ q.1)) :
    m ≤ 2 * rs.length := by
  obtain ⟨m', g1, g2⟩ := lexSplit_runs (t := t) rs h2 h3 (by rw [h1])
  rw [h1] at g2
  exact ((lex_optimal h).2 _ g2).trans g1

end Verif
