import Verif.Lemmas.CliVal

/-! # The command-line parser accepts exactly the command lines of the grammar -/

namespace Verif

open Spec.Cli Model.Cli Model

/-- The declarations of a tool are unambiguous. -/
structure CliWF (t : Tool) : Prop where
  shorts : (t.opts.filterMap Opt.short).Nodup
  longs : ((t.opts ++ helpOpts).filterMap Opt.long).Nodup
  fields : (t.opts.map Opt.field).Nodup
  noPrint : ∀ o ∈ t.opts, o.action ≠ .print
  noEq : ∀ o ∈ t.opts, ∀ l, o.long = some l → '=' ∉ l
  longNe : ∀ o ∈ t.opts, o.long ≠ some []

theorem find?_of_nodup {α β : Type} [DecidableEq β] (f : α → Option β) (l : List α) (h : (l.filterMap f).Nodup)
    (c : β) (o : α) : (l.find? fun o => decide (f o = some c)) = some o ↔ o ∈ l ∧ f o = some c := by
  induction l with
  | nil => simp
  | cons a l ih =>
    have hl : (l.filterMap f).Nodup := by
      rw [List.filterMap_cons] at h
      split at h
      · exact h
      · exact (List.nodup_cons.1 h).2
    by_cases ha : f a = some c
    · rw [List.find?_cons_of_pos (by simpa using ha)]
      constructor
      · intro h; cases h; exact ⟨List.mem_cons_self, ha⟩
      · rintro ⟨hm, ho⟩
        rcases List.mem_cons.1 hm with rfl | hm
        · rfl
        · rw [List.filterMap_cons_some ha] at h
          exact absurd (List.mem_filterMap.2 ⟨o, hm, ho⟩) (List.nodup_cons.1 h).1
    · rw [List.find?_cons_of_neg (by simpa using ha), ih hl]
      constructor
      · rintro ⟨h1, h2⟩; exact ⟨List.mem_cons_of_mem _ h1, h2⟩
      · rintro ⟨h1, h2⟩
        rcases List.mem_cons.1 h1 with rfl | h1
        · exact absurd h2 ha
        · exact ⟨h1, h2⟩

theorem findShort_mem {t : Tool} {c : Char} {o : Opt} (h : findShort t c = some o) :
    o ∈ t.opts ++ helpOpts ∧ o.short = some c :=
  ⟨List.mem_of_find?_eq_some h, by simpa using List.find?_some h⟩

theorem findShort_opts {t : Tool} (h : CliWF t) {c : Char} {o : Opt} (ho : o ∈ t.opts) (hs : o.short = some c) :
    findShort t c = some o := by
  unfold findShort
  rw [List.find?_append, (find?_of_nodup _ _ h.shorts c o).2 ⟨ho, hs⟩]
  rfl

theorem findLong_iff {t : Tool} (h : CliWF t) (l : List Char) (o : Opt) :
    findLong t l = some o ↔ o ∈ t.opts ++ helpOpts ∧ o.long = some l := find?_of_nodup _ _ h.longs l o

theorem helpOpts_print {o : Opt} (h : o ∈ helpOpts) : o.action = .print := by
  simp only [helpOpts, List.mem_cons, List.not_mem_nil, or_false] at h
  rcases h with rfl | rfl <;> rfl

theorem opts_of_ne_print {t : Tool} {o : Opt} (h : o ∈ t.opts ++ helpOpts) (hp : o.action ≠ .print) : o ∈ t.opts := by
  rcases List.mem_append.1 h with h | h
  · exact h
  · exact absurd (helpOpts_print h) hp

/-- Flags in the order given. -/
def onAll (fs : List Opt) : List (Field × Val) := (fs.map Opt.field).map fun f => (f, .on)

theorem onAll_cons (o : Opt) (fs : List Opt) : onAll (o :: fs) = (o.field, .on) :: onAll fs := rfl

/-- Only lists are set several times. -/
def NoRepeat (t : Tool) (occ : List (Field × Val)) : Prop :=
  occ.Pairwise fun a b => a.1 = b.1 → Repeatable t a.1

theorem noRepeat_snoc (t : Tool) (occ : List (Field × Val)) (p : Field × Val) :
    NoRepeat t (occ ++ [p]) ↔ NoRepeat t occ ∧ ∀ a ∈ occ, a.1 = p.1 → Repeatable t a.1 := by
  unfold NoRepeat; rw [List.pairwise_append]; simp

theorem present_iff (st : St) (f : Field) : present st f = true ↔ ∃ v, (f, v) ∈ st.occ := by
  unfold present
  rw [List.any_eq_true]
  constructor
  · rintro ⟨⟨g, v⟩, hm, h⟩; rw [decide_eq_true_eq] at h; cases h; exact ⟨v, hm⟩
  · rintro ⟨v, h⟩; exact ⟨_, h, by simp⟩

theorem present_false (st : St) (f : Field) : present st f = false ↔ ∀ a ∈ st.occ, a.1 ≠ f := by
  rw [← Bool.not_eq_true, present_iff]
  constructor
  · rintro h ⟨g, v⟩ hm rfl; exact h ⟨v, hm⟩
  · rintro h ⟨v, hm⟩; exact h _ hm rfl

theorem field_unique {t : Tool} (h : CliWF t) {o p : Opt} (ho : o ∈ t.opts) (hp : p ∈ t.opts)
    (e : o.field = p.field) : o = p := List.inj_on_of_nodup_map h.fields ho hp e

theorem repeatable_iff {t : Tool} (h : CliWF t) {o : Opt} (ho : o ∈ t.opts) :
    Repeatable t o.field ↔ Action.once o.action = false := by
  have hp := h.noPrint o ho
  constructor
  · rintro ⟨p, hp, e, ha⟩
    rw [← field_unique h hp ho e]
    rcases ha with ⟨k, ha⟩ | ⟨k, ha⟩ <;> rw [ha] <;> rfl
  · intro hf
    refine ⟨o, ho, rfl, ?_⟩
    cases ha : o.action <;> rw [ha] at hf hp <;> simp_all [Action.once]

/-- Whether one more setting of the option is allowed. -/
theorem allowed_iff {t : Tool} (h : CliWF t) {o : Opt} (ho : o ∈ t.opts) (st : St) (hn : NoRepeat t st.occ) (v : Val) :
    (Action.once o.action && present st o.field) = false ↔ NoRepeat t (st.occ ++ [(o.field, v)]) := by
  rw [noRepeat_snoc, Bool.and_eq_false_iff, ← repeatable_iff h ho, present_false]
  constructor
  · rintro (hr | hr)
    · exact ⟨hn, fun a _ e => e ▸ hr⟩
    · exact ⟨hn, fun a ha e => absurd e (hr a ha)⟩
  · rintro ⟨_, hr⟩
    by_cases hR : Repeatable t o.field
    · exact Or.inl hR
    · right; intro a ha e; exact hR (e ▸ hr a ha e)

theorem st_ext {a b : St} (h1 : a.occ = b.occ) (h2 : a.pend = b.pend) (h3 : a.trailing = b.trailing) : a = b := by
  cases a; cases b; cases h1; cases h2; cases h3; rfl

theorem store_iff {t : Tool} (h : CliWF t) {o : Opt} (ho : o ∈ t.opts) (st st' : St) (hn : NoRepeat t st.occ)
    (s : List Char) : store st o s = .ok st' ↔
      ∃ k v, o.action.kind? = some k ∧ Denotes k s v ∧ NoRepeat t (st.occ ++ [(o.field, v)]) ∧
        st' = { st with occ := st.occ ++ [(o.field, v)] } := by
  unfold store
  cases hk : o.action.kind? with
  | none => simp
  | some k =>
    simp only [Option.some.injEq]
    cases hv : parseVal k s with
    | none =>
      simp only
      constructor
      · intro h; cases h
      · rintro ⟨k', v, rfl, hd, _⟩
        rw [(parseVal_iff _ s v).2 hd] at hv; cases hv
    | some v =>
      have ha := allowed_iff h ho st hn v
      simp only
      constructor
      · intro h'
        split at h'
        · cases h'
        · rename_i hc
          simp only [Except.ok.injEq] at h'
          exact ⟨k, v, rfl, (parseVal_iff k s v).1 hv, ha.1 (by simpa using hc), h'.symm⟩
      · rintro ⟨k', v', rfl, hd, hr, rfl⟩
        rw [(parseVal_iff _ s v').2 hd] at hv; cases hv
        rw [ha.2 hr]; rfl

theorem react_iff {t : Tool} (h : CliWF t) {o : Opt} (ho : o ∈ t.opts ++ helpOpts) (hk : o.action.kind? = none)
    (st st' : St) (hn : NoRepeat t st.occ) : react st o = .ok st' ↔
      o ∈ t.opts ∧ o.action = .setTrue ∧ NoRepeat t (st.occ ++ [(o.field, .on)]) ∧
        st' = { st with occ := st.occ ++ [(o.field, .on)] } := by
  unfold react
  cases ha : o.action with
  | print =>
    simp
  | setTrue =>
    have ho' : o ∈ t.opts := opts_of_ne_print ho (by rw [ha]; simp)
    have hal := allowed_iff h ho' st hn .on
    rw [ha] at hal
    simp only [Action.once, Bool.true_and] at hal
    simp only [true_and]
    constructor
    · intro h'
      split at h'
      · cases h'
      · rename_i hc
        simp only [Except.ok.injEq] at h'
        exact ⟨ho', hal.1 (by simpa using hc), h'.symm⟩
    · rintro ⟨_, hr, rfl⟩
      rw [hal.2 hr]; rfl
  | _ => rw [ha] at hk; simp [Action.kind?] at hk

theorem react_print {st : St} {o : Opt} (h : o.action = .print) : react st o = .error 0 := by
  unfold react; rw [h]

theorem attachedText_some (r v : List Char) :
    attachedText r = some v ↔ r = '=' :: v ∨ (r = v ∧ v ≠ [] ∧ v.head? ≠ some '=') := by
  unfold attachedText
  split
  · constructor
    · intro h; cases h
    · rintro (h | ⟨rfl, h, _⟩)
      · cases h
      · exact absurd rfl h
  · rename_i w
    constructor
    · intro h; cases h; exact Or.inl rfl
    · rintro (h | ⟨rfl, _, h⟩)
      · cases h; rfl
      · exact absurd rfl h
  · rename_i h1 h2
    constructor
    · intro h; cases h
      refine Or.inr ⟨rfl, h1, ?_⟩
      intro h
      cases r with
      | nil => cases h
      | cons c r => cases h; exact h2 r rfl
    · rintro (h | ⟨rfl, _, _⟩)
      · exact absurd h (h2 v)
      · rfl

theorem attachedText_none (r : List Char) : attachedText r = none ↔ r = [] := by
  unfold attachedText
  split
  · simp
  · simp
  · rename_i h1 h2; simpa using h1

theorem resolve_ok (st st' : St) : resolve st = .ok st' ↔ (∀ o, st.pend ≠ some (o, false)) ∧ st' = { st with pend := none } := by
  unfold resolve
  split
  · rename_i o h; simp [h]
  · rename_i h
    simp only [Except.ok.injEq]
    constructor
    · rintro rfl; exact ⟨fun o ho => h o ho, rfl⟩
    · rintro ⟨_, rfl⟩; rfl

theorem resolve_none (st : St) (h : st.pend = none) : resolve st = .ok st := by
  rw [resolve_ok]; exact ⟨fun o ho => (by rw [h] at ho; cases ho), st_ext rfl h rfl⟩

/-- One word with short options, all possibilities. -/
def ShortResult (t : Tool) (occ : List (Field × Val)) (r : List Char) (st' : St) : Prop :=
  ∃ (fs : List Opt) (cs : List Char), (∀ o ∈ fs, o ∈ t.opts ∧ o.action = .setTrue) ∧ fs.map Opt.short = cs.map some ∧
    st'.trailing = false ∧ NoRepeat t st'.occ ∧
    ((r = cs ∧ st'.pend = none ∧ st'.occ = occ ++ onAll fs) ∨
     (∃ o c, o ∈ t.opts ∧ o.action.kind? ≠ none ∧ o.short = some c ∧ r = cs ++ [c] ∧ st'.pend = some (o, false) ∧
        st'.occ = occ ++ onAll fs) ∨
     (∃ o c v k val, o ∈ t.opts ∧ o.action.kind? = some k ∧ o.short = some c ∧
        (r = cs ++ c :: '=' :: v ∨ (r = cs ++ c :: v ∧ v ≠ [] ∧ v.head? ≠ some '=')) ∧ Denotes k v val ∧
        st'.pend = none ∧ st'.occ = occ ++ onAll fs ++ [(o.field, val)]))

theorem not_print_of_kind {a : Action} {k : Kind} (h : a.kind? = some k) : a ≠ .print := by
  rintro rfl; cases h

theorem stepShort_iff {t : Tool} (h : CliWF t) (r : List Char) : ∀ st st' : St, st.pend = none →
    st.trailing = false → NoRepeat t st.occ →
    (stepShort t st r = .ok st' ↔ ShortResult t st.occ r st') := by
  induction r with
  | nil =>
    intro st st' hp ht hn
    rw [stepShort, Except.ok.injEq]
    constructor
    · rintro rfl
      exact ⟨[], [], by simp, rfl, ht, hn, Or.inl ⟨rfl, hp, by simp [onAll]⟩⟩
    · rintro ⟨fs, cs, h1, h2, h3, h4, h5 | ⟨o, c, _, _, _, h5, _⟩ | ⟨o, c, v, k, val, _, _, _, h5, _⟩⟩
      · obtain ⟨rfl, h6, h7⟩ := h5
        have : fs = [] := by simpa using h2
        subst this
        exact st_ext (by rw [h7]; simp [onAll]) (by rw [h6, hp]) (by rw [h3, ht])
      · exact absurd h5.symm (by simp)
      · rcases h5 with h5 | ⟨h5, _⟩ <;> exact absurd h5.symm (by simp)
  | cons c r ih =>
    intro st st' hp ht hn
    rw [stepShort]
    cases hf : findShort t c with
    | none =>
      simp only
      constructor
      · intro h'; cases h'
      · rintro ⟨fs, cs, h1, h2, h3, h4, h5⟩
        exfalso
        have hno : ∀ o, o ∈ t.opts → o.short ≠ some c := by
          intro o ho hs
          rw [findShort_opts h ho hs] at hf; cases hf
        cases fs with
        | cons f fs =>
          cases cs with
          | nil => cases h2
          | cons d cs =>
            simp only [List.map_cons, List.cons.injEq] at h2
            have hd : d = c := by
              rcases h5 with ⟨h5, _⟩ | ⟨o, e, _, _, _, h5, _⟩ | ⟨o, e, v, k, val, _, _, _, h5 | ⟨h5, _⟩, _⟩ <;>
                · simp only [List.cons_append, List.cons.injEq] at h5; exact h5.1.symm
            exact hno f (h1 f List.mem_cons_self).1 (hd ▸ h2.1)
        | nil =>
          have : cs = [] := by simpa using h2.symm
          subst this
          rcases h5 with ⟨h5, _⟩ | ⟨o, e, ho, _, hs, h5, _⟩ | ⟨o, e, v, k, val, ho, _, hs, h5 | ⟨h5, _⟩, _⟩
          · cases h5
          · simp only [List.nil_append, List.cons.injEq] at h5; exact hno o ho (h5.1 ▸ hs)
          · simp only [List.nil_append, List.cons.injEq] at h5; exact hno o ho (h5.1 ▸ hs)
          · simp only [List.nil_append, List.cons.injEq] at h5; exact hno o ho (h5.1 ▸ hs)
    | some o =>
      have ho := findShort_mem hf
      have huniq : ∀ p, p ∈ t.opts → p.short = some c → p = o := by
        intro p hp hs
        have := findShort_opts h hp hs
        rw [this] at hf; exact Option.some.inj hf
      simp only [resolve_none st hp]
      cases hk : o.action.kind? with
      | some k =>
        have ho' := opts_of_ne_print ho.1 (not_print_of_kind hk)
        simp only
        have hfs : ∀ (fs : List Opt) (cs : List Char), (∀ o ∈ fs, o ∈ t.opts ∧ o.action = .setTrue) →
            fs.map Opt.short = cs.map some → (∃ x, c :: r = cs ++ x) → fs = [] ∧ cs = [] := by
          intro fs cs h1 h2 ⟨x, hx⟩
          cases fs with
          | nil => exact ⟨rfl, by simpa using h2.symm⟩
          | cons f fs =>
            cases cs with
            | nil => cases h2
            | cons d cs =>
              simp only [List.map_cons, List.cons.injEq, List.cons_append] at h2 hx
              have := huniq f (h1 f List.mem_cons_self).1 (hx.1 ▸ h2.1)
              have hb := (h1 f List.mem_cons_self).2
              rw [this] at hb; rw [hb] at hk; cases hk
        cases ha : attachedText r with
        | none =>
          rw [attachedText_none] at ha; subst ha
          simp only [Except.ok.injEq]
          constructor
          · rintro rfl
            exact ⟨[], [], by simp, rfl, ht, hn, Or.inr (Or.inl ⟨o, c, ho', by simp [hk], ho.2, rfl, rfl, by simp [onAll]⟩)⟩
          · rintro ⟨fs, cs, h1, h2, h3, h4, ⟨h5, _⟩ | ⟨p, e, hp', _, hs, h5, h6, h7⟩ | ⟨p, e, v, k', val, hp', _, hs, h5, _⟩⟩
            · obtain ⟨rfl, rfl⟩ := hfs fs cs h1 h2 ⟨[], by simpa using h5⟩
              cases h5
            · obtain ⟨rfl, rfl⟩ := hfs fs cs h1 h2 ⟨_, h5⟩
              simp only [List.nil_append, List.cons.injEq, and_true] at h5
              have := huniq p hp' (h5 ▸ hs)
              subst this
              exact st_ext (by rw [h7]; simp [onAll]) (by rw [h6]) (by rw [h3, ← ht])
            · obtain ⟨rfl, rfl⟩ := hfs fs cs h1 h2 (by rcases h5 with h5 | ⟨h5, _⟩ <;> exact ⟨_, h5⟩)
              rcases h5 with h5 | ⟨h5, h6, _⟩
              · simp at h5
              · simp only [List.nil_append, List.cons.injEq] at h5; exact absurd h5.2.symm h6
        | some v =>
          have hav := (attachedText_some r v).1 ha
          simp only
          rw [store_iff h ho' st st' hn]
          constructor
          · rintro ⟨k', val, hk', hd, hr, rfl⟩
            refine ⟨[], [], by simp, rfl, ht, hr, Or.inr (Or.inr ⟨o, c, v, k', val, ho', hk', ho.2, ?_, hd, hp, ?_⟩)⟩
            · rcases hav with rfl | ⟨rfl, h1, h2⟩
              · exact Or.inl rfl
              · exact Or.inr ⟨rfl, h1, h2⟩
            · simp [onAll]
          · rintro ⟨fs, cs, h1, h2, h3, h4, ⟨h5, _⟩ | ⟨p, e, hp', _, hs, h5, h6, h7⟩ | ⟨p, e, v', k', val, hp', hk', hs, h5, hd, h6, h7⟩⟩
            · obtain ⟨rfl, rfl⟩ := hfs fs cs h1 h2 ⟨[], by simpa using h5⟩
              cases h5
            · obtain ⟨rfl, rfl⟩ := hfs fs cs h1 h2 ⟨_, h5⟩
              simp only [List.nil_append, List.cons.injEq] at h5
              rw [(attachedText_none r).2 h5.2] at ha; cases ha
            · obtain ⟨rfl, rfl⟩ := hfs fs cs h1 h2 (by rcases h5 with h5 | ⟨h5, _⟩ <;> exact ⟨_, h5⟩)
              have hc : c = e := by
                rcases h5 with h5 | ⟨h5, _⟩ <;> simp only [List.nil_append, List.cons.injEq] at h5 <;> exact h5.1
              subst hc
              have := huniq p hp' hs
              subst this
              have hv : v' = v := by
                have : attachedText r = some v' := by
                  rw [attachedText_some]
                  rcases h5 with h5 | ⟨h5, h6⟩
                  · left; simpa using h5
                  · right; exact ⟨by simpa using h5, h6⟩
                rw [this] at ha; exact Option.some.inj ha
              subst hv
              refine ⟨k', val, hk', hd, ?_, ?_⟩
              · rw [h7] at h4; simpa [onAll] using h4
              · exact st_ext (by rw [h7]; simp [onAll]) (by rw [h6, ← hp]) (by rw [h3, ← ht])
      | none =>
        simp only
        cases hr : react st o with
        | error e =>
          simp only
          constructor
          · intro h'; cases h'
          · rintro ⟨fs, cs, h1, h2, h3, h4, h5⟩
            exfalso
            cases fs with
            | nil =>
              have : cs = [] := by simpa using h2.symm
              subst this
              rcases h5 with ⟨h5, _⟩ | ⟨p, e, hp', hkk, hs, h5, _⟩ | ⟨p, e, v, k, val, hp', hkk, hs, h5 | ⟨h5, _⟩, _⟩
              · cases h5
              · simp only [List.nil_append, List.cons.injEq] at h5
                exact hkk (huniq p hp' (h5.1 ▸ hs) ▸ hk)
              · simp only [List.nil_append, List.cons.injEq] at h5
                rw [huniq p hp' (h5.1 ▸ hs), hk] at hkk; cases hkk
              · simp only [List.nil_append, List.cons.injEq] at h5
                rw [huniq p hp' (h5.1 ▸ hs), hk] at hkk; cases hkk
            | cons f fs =>
              cases cs with
              | nil => cases h2
              | cons d cs =>
                simp only [List.map_cons, List.cons.injEq] at h2
                have hd : d = c := by
                  rcases h5 with ⟨h5, _⟩ | ⟨o, e, _, _, _, h5, _⟩ | ⟨o, e, v, k, val, _, _, _, h5 | ⟨h5, _⟩, _⟩ <;>
                    · simp only [List.cons_append, List.cons.injEq] at h5; exact h5.1.symm
                have hfo := huniq f (h1 f List.mem_cons_self).1 (hd ▸ h2.1)
                subst hfo
                have hoc : ∃ x, st'.occ = st.occ ++ (f.field, .on) :: x := by
                  rcases h5 with ⟨_, _, h5⟩ | ⟨o, e, _, _, _, _, _, h5⟩ | ⟨o, e, v, k, val, _, _, _, _, _, _, h5⟩
                  · exact ⟨_, by rw [h5, onAll_cons]⟩
                  · exact ⟨_, by rw [h5, onAll_cons]⟩
                  · exact ⟨_, by rw [h5, onAll_cons]; simp; rfl⟩
                obtain ⟨x, hx⟩ := hoc
                have hnr : NoRepeat t (st.occ ++ [(f.field, .on)]) := by
                  rw [hx] at h4
                  have : st.occ ++ (f.field, Val.on) :: x = (st.occ ++ [(f.field, .on)]) ++ x := by simp
                  rw [this] at h4
                  exact (List.pairwise_append.1 h4).1
                have := (react_iff h ho.1 hk st _ hn).2 ⟨(h1 f List.mem_cons_self).1, (h1 f List.mem_cons_self).2, hnr, rfl⟩
                rw [this] at hr; cases hr
        | ok st1 =>
          obtain ⟨ho', hs, hnr, hst⟩ := (react_iff h ho.1 hk st st1 hn).1 hr
          simp only
          rw [ih st1 st' (by rw [hst]; exact hp) (by rw [hst]; exact ht) (by rw [hst]; exact hnr)]
          have hocc : st1.occ = st.occ ++ [(o.field, .on)] := by rw [hst]
          rw [hocc]
          constructor
          · rintro ⟨fs, cs, h1, h2, h3, h4, h5⟩
            refine ⟨o :: fs, c :: cs, ?_, by simp [h2, ho.2], h3, h4, ?_⟩
            · intro p hp
              rcases List.mem_cons.1 hp with rfl | hp
              · exact ⟨ho', hs⟩
              · exact h1 p hp
            · rw [onAll_cons]
              rcases h5 with ⟨h5, h6, h7⟩ | ⟨p, e, hp', hkk, hs, h5, h6, h7⟩ | ⟨p, e, v, k, val, hp', hkk, hs, h5, hd, h6, h7⟩
              · exact Or.inl ⟨by rw [h5], h6, by rw [h7]; simp⟩
              · exact Or.inr (Or.inl ⟨p, e, hp', hkk, hs, by rw [h5]; rfl, h6, by rw [h7]; simp⟩)
              · refine Or.inr (Or.inr ⟨p, e, v, k, val, hp', hkk, hs, ?_, hd, h6, by rw [h7]; simp⟩)
                rcases h5 with h5 | ⟨h5, h8⟩
                · left; rw [h5]; rfl
                · right; exact ⟨by rw [h5]; rfl, h8⟩
          · rintro ⟨fs, cs, h1, h2, h3, h4, h5⟩
            cases fs with
            | nil =>
              have : cs = [] := by simpa using h2.symm
              subst this
              rcases h5 with ⟨h5, _⟩ | ⟨p, e, hp', hkk, hs, h5, _⟩ | ⟨p, e, v, k, val, hp', hkk, hs, h5 | ⟨h5, _⟩, _⟩
              · cases h5
              · simp only [List.nil_append, List.cons.injEq] at h5
                exact absurd (huniq p hp' (h5.1 ▸ hs) ▸ hk) hkk
              · simp only [List.nil_append, List.cons.injEq] at h5
                rw [huniq p hp' (h5.1 ▸ hs), hk] at hkk; cases hkk
              · simp only [List.nil_append, List.cons.injEq] at h5
                rw [huniq p hp' (h5.1 ▸ hs), hk] at hkk; cases hkk
            | cons f fs =>
              cases cs with
              | nil => cases h2
              | cons d cs =>
                simp only [List.map_cons, List.cons.injEq] at h2
                have hd : d = c := by
                  rcases h5 with ⟨h5, _⟩ | ⟨o, e, _, _, _, h5, _⟩ | ⟨o, e, v, k, val, _, _, _, h5 | ⟨h5, _⟩, _⟩ <;>
                    · simp only [List.cons_append, List.cons.injEq] at h5; exact h5.1.symm
                have hfo := huniq f (h1 f List.mem_cons_self).1 (hd ▸ h2.1)
                subst hfo
                subst hd
                refine ⟨fs, cs, fun p hp => h1 p (List.mem_cons_of_mem _ hp), h2.2, h3, h4, ?_⟩
                rw [onAll_cons] at h5
                rcases h5 with ⟨h5, h6, h7⟩ | ⟨p, e, hp', hkk, hs, h5, h6, h7⟩ | ⟨p, e, v, k, val, hp', hkk, hs, h5, hd, h6, h7⟩
                · exact Or.inl ⟨by simpa using h5, h6, by rw [h7]; simp⟩
                · exact Or.inr (Or.inl ⟨p, e, hp', hkk, hs, by simpa using h5, h6, by rw [h7]; simp⟩)
                · refine Or.inr (Or.inr ⟨p, e, v, k, val, hp', hkk, hs, ?_, hd, h6, by rw [h7]; simp⟩)
                  rcases h5 with h5 | ⟨h5, h8⟩
                  · left; simpa using h5
                  · right; exact ⟨by simpa using h5, h8⟩

end Verif
