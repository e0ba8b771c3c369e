import Verif.Lemmas.Cli

/-! # The command-line parser accepts exactly the command lines of the grammar (continued) -/

namespace Verif

open Spec.Cli Model.Cli Model

theorem splitEq_none (body l : List Char) : splitEq body = (l, none) ↔ body = l ∧ '=' ∉ l := by
  induction body generalizing l with
  | nil =>
    rw [splitEq]; constructor
    · intro h; cases h; simp
    · rintro ⟨rfl, _⟩; rfl
  | cons c s ih =>
    rw [splitEq]
    split
    · rename_i h; subst h
      constructor
      · intro h; cases h
      · rintro ⟨rfl, h⟩; simp at h
    · rename_i hc
      have ih' := ih (splitEq s).1
      constructor
      · intro h
        simp only [Prod.mk.injEq] at h
        have := ih'.1 (by rw [← h.2])
        obtain ⟨rfl, _⟩ := h
        refine ⟨by rw [← this.1], ?_⟩
        intro hm
        rcases List.mem_cons.1 hm with h | h
        · exact hc h.symm
        · exact this.2 h
      · rintro ⟨rfl, hm⟩
        have := (ih s).2 ⟨rfl, fun h => hm (List.mem_cons_of_mem _ h)⟩
        rw [this]

theorem splitEq_some (body l v : List Char) : splitEq body = (l, some v) ↔ body = l ++ '=' :: v ∧ '=' ∉ l := by
  induction body generalizing l with
  | nil =>
    rw [splitEq]; simp
  | cons c s ih =>
    rw [splitEq]
    split
    · rename_i h; subst h
      constructor
      · intro h; cases h; simp
      · rintro ⟨h, hm⟩
        cases l with
        | nil => simp only [List.nil_append, List.cons.injEq, true_and] at h; rw [h]
        | cons d l =>
          simp only [List.cons_append, List.cons.injEq] at h
          exact absurd (h.1 ▸ List.mem_cons_self) hm
    · rename_i hc
      constructor
      · intro h
        simp only [Prod.mk.injEq] at h
        have := (ih (splitEq s).1).1 (by rw [← h.2])
        obtain ⟨rfl, _⟩ := h
        refine ⟨by rw [List.cons_append, ← this.1], ?_⟩
        intro hm
        rcases List.mem_cons.1 hm with h | h
        · exact hc h.symm
        · exact this.2 h
      · rintro ⟨h, hm⟩
        cases l with
        | nil => simp only [List.nil_append, List.cons.injEq] at h; exact absurd h.1 hc
        | cons d l =>
          simp only [List.cons_append, List.cons.injEq] at h
          have := (ih l).2 ⟨h.2, fun h => hm (List.mem_cons_of_mem _ h)⟩
          rw [this, h.1]

/-- What a word with options does to a state in which no option waits. -/
def HeadResult (t : Tool) (occ : List (Field × Val)) (w : List Char) (st' : St) : Prop :=
  ∃ fs tail, Head t w fs tail ∧ st'.trailing = false ∧ NoRepeat t st'.occ ∧
    match tail with
    | none => st'.pend = none ∧ st'.occ = occ ++ fs.map fun f => (f, .on)
    | some (o, none) => st'.pend = some (o, false) ∧ st'.occ = occ ++ fs.map fun f => (f, .on)
    | some (o, some s) => ∃ k v, o.action.kind? = some k ∧ Denotes k s v ∧ st'.pend = none ∧
        st'.occ = occ ++ (fs.map fun f => (f, .on)) ++ [(o.field, v)]

theorem shortResult_head {t : Tool} {occ : List (Field × Val)} {c : Char} {r : List Char} (hc : c ≠ '-') {st' : St}
    (h : ShortResult t occ (c :: r) st') : HeadResult t occ ('-' :: c :: r) st' := by
  obtain ⟨fs, cs, h1, h2, h3, h4, ⟨h5, h6, h7⟩ | ⟨o, e, ho, hk, hs, h5, h6, h7⟩ | ⟨o, e, v, k, val, ho, hk, hs, h5, hd, h6, h7⟩⟩ := h
  · refine ⟨fs.map Opt.field, none, ?_, h3, h4, h6, h7⟩
    rw [h5]
    refine Head.flags fs cs ?_ h1 h2 ?_
    · rintro rfl
      have : cs = [] := by simpa using h2.symm
      rw [this] at h5; cases h5
    · rw [← h5]; simpa using hc
  · refine ⟨fs.map Opt.field, some (o, none), ?_, h3, h4, h6, h7⟩
    rw [h5]
    exact Head.opened fs cs o e h1 h2 ho hk hs (by rw [← h5]; simpa using hc)
  · refine ⟨fs.map Opt.field, some (o, some v), ?_, h3, h4, k, val, hk, hd, h6, h7⟩
    have hk' : o.action.kind? ≠ none := by rw [hk]; simp
    have hh : ∀ x, c :: r = cs ++ e :: x → (cs ++ [e]).head? ≠ some '-' := by
      intro x hx
      cases cs with
      | nil => simp only [List.nil_append, List.cons.injEq] at hx; rw [← hx.1]; simpa using hc
      | cons d cs => simp only [List.cons_append, List.cons.injEq] at hx; simp [← hx.1, hc]
    rcases h5 with h5 | ⟨h5, h8, h9⟩
    · rw [h5]; exact Head.equals fs cs o e v h1 h2 ho hk' hs (hh _ h5)
    · rw [h5]; exact Head.attached fs cs o e v h1 h2 ho hk' hs (hh _ h5) h8 h9

theorem head_shortResult {t : Tool} {occ : List (Field × Val)} {c : Char} {r : List Char} (hc : c ≠ '-') {st' : St}
    (h : HeadResult t occ ('-' :: c :: r) st') : ShortResult t occ (c :: r) st' := by
  obtain ⟨fs, tail, hh, h3, h4, h5⟩ := h
  generalize hw : '-' :: c :: r = w at hh
  cases hh with
  | flags fs cs hne h1 h2 hd =>
    simp only [List.cons.injEq, true_and] at hw
    exact ⟨fs, cs, h1, h2, h3, h4, Or.inl ⟨hw, h5⟩⟩
  | opened fs cs o e h1 h2 ho hk hs hd =>
    simp only [List.cons_append, List.cons.injEq, true_and] at hw
    exact ⟨fs, cs, h1, h2, h3, h4, Or.inr (Or.inl ⟨o, e, ho, hk, hs, hw, h5⟩)⟩
  | attached fs cs o e v h1 h2 ho hk hs hd hv1 hv2 =>
    simp only [List.cons_append, List.cons.injEq, true_and] at hw
    obtain ⟨k, val, h6, h7, h8, h9⟩ := h5
    exact ⟨fs, cs, h1, h2, h3, h4, Or.inr (Or.inr ⟨o, e, v, k, val, ho, h6, hs, Or.inr ⟨hw, hv1, hv2⟩, h7, h8, h9⟩)⟩
  | equals fs cs o e v h1 h2 ho hk hs hd =>
    simp only [List.cons_append, List.cons.injEq, true_and] at hw
    obtain ⟨k, val, h6, h7, h8, h9⟩ := h5
    exact ⟨fs, cs, h1, h2, h3, h4, Or.inr (Or.inr ⟨o, e, v, k, val, ho, h6, hs, Or.inl hw, h7, h8, h9⟩)⟩
  | longFlag o l ho ha hl => simp only [List.cons.injEq, true_and] at hw; exact absurd hw.1 hc
  | longOpened o l ho ha hl => simp only [List.cons.injEq, true_and] at hw; exact absurd hw.1 hc
  | longEquals o l v ho ha hl => simp only [List.cons_append, List.cons.injEq, true_and] at hw; exact absurd hw.1 hc

theorem stepShort_resolve (t : Tool) (st st' : St) (c : Char) (r : List Char) :
    stepShort t st (c :: r) = .ok st' ↔ ∃ st1, resolve st = .ok st1 ∧ stepShort t st1 (c :: r) = .ok st' := by
  constructor
  · intro h
    cases hr : resolve st with
    | error e =>
      rw [stepShort] at h
      split at h
      · cases h
      · rw [hr] at h; cases h
    | ok st1 =>
      refine ⟨st1, rfl, ?_⟩
      have h1 : st1.pend = none := by rw [((resolve_ok _ _).1 hr).2]
      rw [stepShort] at h ⊢
      rw [hr] at h
      rw [resolve_none st1 h1]; exact h
  · rintro ⟨st1, hr, h⟩
    have h1 : st1.pend = none := by rw [((resolve_ok _ _).1 hr).2]
    rw [stepShort] at h ⊢
    rw [resolve_none st1 h1] at h
    rw [hr]; exact h

theorem stepLong_iff {t : Tool} (hwf : CliWF t) (st st' : St) (body : List Char) (ht : st.trailing = false)
    (hn : NoRepeat t st.occ) : stepLong t st body = .ok st' ↔
      ∃ st1, resolve st = .ok st1 ∧ HeadResult t st1.occ ('-' :: '-' :: body) st' := by
  have hres : ∀ st1, resolve st = .ok st1 → st1.pend = none ∧ st1.trailing = false ∧ NoRepeat t st1.occ ∧
      st1.occ = st.occ := by
    intro st1 h
    have := ((resolve_ok _ _).1 h).2
    subst this
    exact ⟨rfl, ht, hn, rfl⟩
  constructor
  · intro h
    unfold stepLong at h
    split at h
    · cases h
    · rename_i o hf
      have ho := (findLong_iff hwf _ o).1 hf
      split at h
      · rename_i k v hk hv
        have hs : splitEq body = ((splitEq body).1, some v) := by rw [← hv]
        have hb := (splitEq_some _ _ _).1 hs
        have ho' := opts_of_ne_print ho.1 (not_print_of_kind hk)
        split at h
        · cases h
        · rename_i st1 hr
          obtain ⟨r1, r2, r3, r4⟩ := hres st1 hr
          obtain ⟨k', val, hk', hd, hnr, rfl⟩ := (store_iff hwf ho' st1 st' r3 v).1 h
          refine ⟨st1, hr, [], some (o, some v), ?_, r2, hnr, k', val, hk', hd, r1, by simp⟩
          rw [hb.1]
          exact Head.longEquals o _ v ho' (by rw [hk]; simp) ho.2
      · rename_i k hk hv
        have hs : splitEq body = ((splitEq body).1, none) := by rw [← hv]
        have hb := (splitEq_none _ _).1 hs
        have ho' := opts_of_ne_print ho.1 (not_print_of_kind hk)
        split at h
        · cases h
        · rename_i st1 hr
          obtain ⟨r1, r2, r3, r4⟩ := hres st1 hr
          simp only [Except.ok.injEq] at h
          subst h
          refine ⟨st1, hr, [], some (o, none), ?_, r2, r3, rfl, by simp⟩
          rw [hb.1]
          exact Head.longOpened o _ ho' (by rw [hk]; simp) ho.2
      · cases h
      · rename_i hk hv
        have hs : splitEq body = ((splitEq body).1, none) := by rw [← hv]
        have hb := (splitEq_none _ _).1 hs
        split at h
        · cases h
        · rename_i st1 hr
          obtain ⟨r1, r2, r3, r4⟩ := hres st1 hr
          obtain ⟨ho', hs', hnr, rfl⟩ := (react_iff hwf ho.1 hk st1 st' r3).1 h
          refine ⟨st1, hr, [o.field], none, ?_, r2, hnr, r1, by simp⟩
          rw [hb.1]
          exact Head.longFlag o _ ho' hs' ho.2
  · rintro ⟨st1, hr, fs, tail, hh, h3, h4, h5⟩
    obtain ⟨r1, r2, r3, r4⟩ := hres st1 hr
    generalize hw : '-' :: '-' :: body = w at hh
    have noshort : ∀ (x y : List Char), '-' :: '-' :: body = '-' :: x ++ y → x.head? ≠ some '-' → x ≠ [] → False := by
      intro x y hx hd hne
      cases x with
      | nil => exact hne rfl
      | cons d x => simp only [List.cons_append, List.cons.injEq, true_and] at hx; exact hd (by simp [← hx.1])
    cases hh with
    | flags fs cs hne h1 h2 hd =>
      refine (noshort cs [] (by simpa using hw) hd ?_).elim
      rintro rfl; cases hw
    | opened fs cs o e h1 h2 ho hk hs hd => exact (noshort (cs ++ [e]) [] (by simpa using hw) hd (by simp)).elim
    | attached fs cs o e v h1 h2 ho hk hs hd hv1 hv2 =>
      exact (noshort (cs ++ [e]) v (by simpa using hw) hd (by simp)).elim
    | equals fs cs o e v h1 h2 ho hk hs hd =>
      exact (noshort (cs ++ [e]) ('=' :: v) (by simpa using hw) hd (by simp)).elim
    | longFlag o l ho ha hl =>
      simp only [List.cons.injEq, true_and] at hw
      have hs := (splitEq_none body l).2 ⟨hw, hwf.noEq o ho l hl⟩
      have hf := (findLong_iff hwf l o).2 ⟨List.mem_append_left _ ho, hl⟩
      have hk : o.action.kind? = none := by rw [ha]; rfl
      unfold stepLong
      simp only [hs, hf, hk, hr]
      rw [react_iff hwf (List.mem_append_left _ ho) hk st1 st' r3]
      have h6 : st'.occ = st1.occ ++ [(o.field, .on)] := h5.2
      refine ⟨ho, ha, h6 ▸ h4, st_ext h6 (by rw [h5.1, ← r1]) (by rw [h3, ← r2])⟩
    | longOpened o l ho ha hl =>
      simp only [List.cons.injEq, true_and] at hw
      have hs := (splitEq_none body l).2 ⟨hw, hwf.noEq o ho l hl⟩
      have hf := (findLong_iff hwf l o).2 ⟨List.mem_append_left _ ho, hl⟩
      obtain ⟨k, hk⟩ := Option.ne_none_iff_exists'.1 ha
      unfold stepLong
      simp only [hs, hf, hk, hr, Except.ok.injEq]
      exact st_ext (by rw [h5.2]; simp) (by rw [h5.1]) (by rw [h3, ← r2])
    | longEquals o l v ho ha hl =>
      simp only [List.cons_append, List.cons.injEq, true_and] at hw
      have hs := (splitEq_some body l v).2 ⟨hw, hwf.noEq o ho l hl⟩
      have hf := (findLong_iff hwf l o).2 ⟨List.mem_append_left _ ho, hl⟩
      obtain ⟨k, val, hk, hd, h6, h7⟩ := h5
      unfold stepLong
      simp only [hs, hf, hk, hr]
      rw [store_iff hwf ho st1 st' r3]
      have h8 : st'.occ = st1.occ ++ [(o.field, val)] := by rw [h7]; simp
      exact ⟨k, val, hk, hd, h8 ▸ h4, st_ext h8 (by rw [h6, ← r1]) (by rw [h3, ← r2])⟩

theorem step_short (t : Tool) (st : St) (c : Char) (r : List Char) (ht : st.trailing = false) (hc : c ≠ '-') :
    step t st ('-' :: c :: r) = stepShort t st (c :: r) := by
  unfold step
  rw [if_neg (by simp [ht])]
  split
  · rename_i h; simp only [List.cons.injEq, true_and] at h; exact absurd h.1 hc
  · rename_i h; simp only [List.cons.injEq, true_and] at h; exact absurd h.1 hc
  · rename_i h; cases h; rfl
  · rename_i h; exact absurd rfl (h c r)

/-- A word that looks like an option, other than `--`. -/
theorem step_option {t : Tool} (hwf : CliWF t) (st st' : St) (w : List Char) (ht : st.trailing = false)
    (hn : NoRepeat t st.occ) (hw : OptionLike w) (hw2 : w ≠ ['-', '-']) : step t st w = .ok st' ↔
      ∃ st1, resolve st = .ok st1 ∧ HeadResult t st1.occ w st' := by
  obtain ⟨c, r, rfl⟩ := hw
  by_cases hc : c = '-'
  · subst hc
    cases r with
    | nil => exact absurd rfl hw2
    | cons d r =>
      unfold step
      rw [if_neg (by simp [ht])]
      exact stepLong_iff hwf st st' (d :: r) ht hn
  · have := step_short t st c r ht hc
    rw [this, stepShort_resolve]
    constructor
    · rintro ⟨st1, hr, h⟩
      have e := ((resolve_ok _ _).1 hr).2
      refine ⟨st1, hr, shortResult_head hc ((stepShort_iff hwf _ st1 st' ?_ ?_ ?_).1 h)⟩ <;> subst e
      · rfl
      · exact ht
      · exact hn
    · rintro ⟨st1, hr, h⟩
      have e := ((resolve_ok _ _).1 hr).2
      refine ⟨st1, hr, (stepShort_iff hwf _ st1 st' ?_ ?_ ?_).2 (head_shortResult hc h)⟩ <;> subst e
      · rfl
      · exact ht
      · exact hn

theorem step_escape (t : Tool) (st : St) (ht : st.trailing = false) :
    step t st ['-', '-'] = .ok { st with trailing := true } := by
  unfold step; rw [if_neg (by simp [ht])]; rfl

theorem step_trailing (t : Tool) (st : St) (w : List Char) (ht : st.trailing = true) : step t st w = .error 2 := by
  unfold step; rw [if_pos ht]

theorem step_value (t : Tool) (st : St) (w : List Char) (ht : st.trailing = false) (hw : ¬ OptionLike w) :
    step t st w = stepValue st w := by
  unfold step
  rw [if_neg (by simp [ht])]
  split
  · exact absurd ⟨'-', [], rfl⟩ hw
  · exact absurd ⟨'-', _, rfl⟩ hw
  · exact absurd ⟨_, _, rfl⟩ hw
  · rfl

end Verif
