import Verif.Lemmas.CliLine

/-! # `parse` accepts exactly the command lines of the grammar (conclusion) -/

namespace Verif

open Spec.Cli Model.Cli Model

theorem head_opened_mem {t : Tool} {w : List Char} {fs : List Field} {o : Opt} {x : Option (List Char)}
    (h : Head t w fs (some (o, x))) : o ∈ t.opts := by
  cases h <;> assumption

theorem head_optionLike {t : Tool} (hwf : CliWF t) {w : List Char} {fs : List Field}
    {x : Option (Opt × Option (List Char))} (h : Head t w fs x) : OptionLike w ∧ w ≠ ['-', '-'] := by
  have short : ∀ (cs : List Char) (y : List Char), cs ≠ [] → cs.head? ≠ some '-' →
      OptionLike ('-' :: cs ++ y) ∧ '-' :: cs ++ y ≠ ['-', '-'] := by
    intro cs y hne hd
    cases cs with
    | nil => exact absurd rfl hne
    | cons d cs =>
      refine ⟨⟨d, cs ++ y, rfl⟩, ?_⟩
      intro h
      simp only [List.cons_append, List.cons.injEq, true_and] at h
      exact hd (by simp [h.1])
  have long : ∀ o ∈ t.opts, ∀ l, o.long = some l → ∀ y,
      OptionLike ('-' :: '-' :: l ++ y) ∧ '-' :: '-' :: l ++ y ≠ ['-', '-'] := by
    intro o ho l hl y
    refine ⟨⟨'-', l ++ y, rfl⟩, ?_⟩
    intro h
    simp only [List.cons_append, List.cons.injEq, true_and] at h
    have : l = [] := (List.append_eq_nil_iff.1 h).1
    exact hwf.longNe o ho (this ▸ hl)
  cases h with
  | flags fs cs hne h1 h2 hd =>
    have := short cs [] (by rintro rfl; exact hne (by simpa using h2)) hd
    simpa using this
  | opened fs cs o e h1 h2 ho hk hs hd =>
    have := short (cs ++ [e]) [] (by simp) hd
    simpa using this
  | attached fs cs o e v h1 h2 ho hk hs hd hv1 hv2 =>
    have := short (cs ++ [e]) v (by simp) hd
    simpa using this
  | equals fs cs o e v h1 h2 ho hk hs hd =>
    have := short (cs ++ [e]) ('=' :: v) (by simp) hd
    simpa using this
  | longFlag o l ho ha hl => simpa using long o ho l hl []
  | longOpened o l ho ha hl => simpa using long o ho l hl []
  | longEquals o l v ho ha hl => simpa using long o ho l hl ('=' :: v)

/-- The words read so far, and the state reached. -/
def CliInv (t : Tool) (argv : List (List Char)) (st : St) : Prop :=
  NoRepeat t st.occ ∧ ∃ gs : List (List (List Char) × List (Field × Val)), (∀ g ∈ gs, Group t g.1 g.2) ∧
    ∃ tl : List (List Char), ((tl = [] ∧ st.trailing = false) ∨ (tl = [['-', '-']] ∧ st.trailing = true)) ∧
    match st.pend with
    | none => argv = gs.flatMap Prod.fst ++ tl ∧ st.occ = gs.flatMap Prod.snd
    | some (o, false) => ∃ w fs, Head t w fs (some (o, none)) ∧ argv = gs.flatMap Prod.fst ++ [w] ++ tl ∧
        st.occ = gs.flatMap Prod.snd ++ fs.map fun f => (f, .on)
    | some (o, true) => ∃ w fs ss k vs, Head t w fs (some (o, none)) ∧ o.action = .appendMany k ∧ ss ≠ [] ∧
        (∀ s ∈ ss, ¬ OptionLike s) ∧ List.Forall₂ (Denotes k) ss vs ∧
        argv = gs.flatMap Prod.fst ++ (w :: ss) ++ tl ∧
        st.occ = gs.flatMap Prod.snd ++ ((fs.map fun f => (f, .on)) ++ vs.map fun v => (o.field, v))

theorem cliInv_resolve {t : Tool} {argv : List (List Char)} {st st1 : St} (h : CliInv t argv st)
    (hr : resolve st = .ok st1) : CliInv t argv st1 := by
  obtain ⟨hp, rfl⟩ := (resolve_ok _ _).1 hr
  obtain ⟨hn, gs, hg, tl, htl, hm⟩ := h
  refine ⟨hn, ?_⟩
  rcases hpe : st.pend with _ | ⟨o, b⟩
  · rw [hpe] at hm
    exact ⟨gs, hg, tl, htl, hm⟩
  · cases b with
    | false => exact absurd hpe (hp o)
    | true =>
      rw [hpe] at hm
      obtain ⟨w, fs, ss, k, vs, h1, h2, h3, h4, h5, h6, h7⟩ := hm
      refine ⟨gs ++ [(w :: ss, (fs.map fun f => (f, .on)) ++ vs.map fun v => (o.field, v))], ?_, tl, htl, ?_, ?_⟩
      · intro g hg'
        rcases List.mem_append.1 hg' with h | h
        · exact hg g h
        · rw [List.mem_singleton] at h; subst h
          exact Group.many w fs o ss k vs h1 h2 h3 h4 h5
      · rw [h6]; simp
      · rw [h7]; simp

theorem cliInv_step {t : Tool} (hwf : CliWF t) {argv : List (List Char)} {st st' : St} (h : CliInv t argv st)
    (s : List Char) (hs : step t st s = .ok st') : CliInv t (argv ++ [s]) st' := by
  have htr : st.trailing = false := by
    cases ht : st.trailing with
    | false => rfl
    | true => rw [step_trailing t st s ht] at hs; cases hs
  by_cases ho : OptionLike s
  · by_cases he : s = ['-', '-']
    · subst he
      rw [step_escape t st htr, Except.ok.injEq] at hs
      subst hs
      obtain ⟨hn, gs, hg, tl, htl, hm⟩ := h
      have : tl = [] := by rcases htl with h | h; exact h.1; rw [htr] at h; cases h.2
      subst this
      refine ⟨hn, gs, hg, [['-', '-']], Or.inr ⟨rfl, rfl⟩, ?_⟩
      rcases hpe : st.pend with _ | ⟨o, _ | _⟩ <;> rw [hpe] at hm <;> simp only
      · exact ⟨by rw [hm.1]; simp, hm.2⟩
      · obtain ⟨w, fs, h1, h2, h3⟩ := hm
        exact ⟨w, fs, h1, by rw [h2]; simp, h3⟩
      · obtain ⟨w, fs, ss, k, vs, h1, h2, h3, h4, h5, h6, h7⟩ := hm
        exact ⟨w, fs, ss, k, vs, h1, h2, h3, h4, h5, by rw [h6]; simp, h7⟩
    · obtain ⟨st1, hr, hh⟩ := (step_option hwf st st' s htr h.1 ho he).1 hs
      have h1 := cliInv_resolve h hr
      obtain ⟨_, gs, hg, tl, htl, hm⟩ := h1
      have e := ((resolve_ok _ _).1 hr).2
      have hp1 : st1.pend = none := by rw [e]
      have ht1 : st1.trailing = false := by rw [e]; exact htr
      have : tl = [] := by rcases htl with h | h; exact h.1; rw [ht1] at h; cases h.2
      subst this
      rw [hp1] at hm
      obtain ⟨fs, tail, hd, h3, h4, h5⟩ := hh
      refine ⟨h4, ?_⟩
      match tail, hd, h5 with
      | none, hd, h5 =>
        refine ⟨gs ++ [([s], fs.map fun f => (f, .on))], ?_, [], Or.inl ⟨rfl, h3⟩, ?_⟩
        · intro g hg'
          rcases List.mem_append.1 hg' with h | h
          · exact hg g h
          · rw [List.mem_singleton] at h; subst h
            exact Group.flags s fs hd
        · rw [h5.1]
          refine ⟨?_, ?_⟩
          · rw [hm.1]; simp
          · rw [h5.2, hm.2]; simp
      | some (o, none), hd, h5 =>
        refine ⟨gs, hg, [], Or.inl ⟨rfl, h3⟩, ?_⟩
        rw [h5.1]
        exact ⟨s, fs, hd, by rw [hm.1]; simp, by rw [h5.2, hm.2]⟩
      | some (o, some x), hd, h5 =>
        obtain ⟨k, v, hk, hv, h6, h7⟩ := h5
        refine ⟨gs ++ [([s], (fs.map fun f => (f, .on)) ++ [(o.field, v)])], ?_, [], Or.inl ⟨rfl, h3⟩, ?_⟩
        · intro g hg'
          rcases List.mem_append.1 hg' with h | h
          · exact hg g h
          · rw [List.mem_singleton] at h; subst h
            exact Group.attached s fs o x k v hd hk hv
        · rw [h6]
          refine ⟨?_, ?_⟩
          · rw [hm.1]; simp
          · rw [h7, hm.2]; simp
  · rw [step_value t st s htr ho] at hs
    obtain ⟨hn, gs, hg, tl, htl, hm⟩ := h
    have : tl = [] := by rcases htl with h | h; exact h.1; rw [htr] at h; cases h.2
    subst this
    unfold stepValue at hs
    rcases hpe : st.pend with _ | ⟨o, b⟩
    · rw [hpe] at hs; cases hs
    · rw [hpe] at hs hm
      simp only at hs
      have hmem : o ∈ t.opts := by
        cases b with
        | false => obtain ⟨w, fs, h1, _⟩ := hm; exact head_opened_mem h1
        | true => obtain ⟨w, fs, ss, k, vs, h1, _⟩ := hm; exact head_opened_mem h1
      cases hst : store { st with pend := none } o s with
      | error e => rw [hst] at hs; cases hs
      | ok st1 =>
        rw [hst] at hs
        simp only at hs
        obtain ⟨k, v, hk, hv, hnr, rfl⟩ := (store_iff hwf hmem { st with pend := none } st1 hn s).1 hst
        simp only at hs hnr
        cases b with
        | true =>
          obtain ⟨w, fs, ss, k', vs, h1, h2, h3, h4, h5, h6, h7⟩ := hm
          rw [h2] at hs hk
          simp only [Except.ok.injEq] at hs
          cases hk
          subst hs
          refine ⟨hnr, gs, hg, [], Or.inl ⟨rfl, htr⟩, w, fs, ss ++ [s], k, vs ++ [v], h1, h2, by simp, ?_, ?_, ?_, ?_⟩
          · intro x hx
            rcases List.mem_append.1 hx with h | h
            · exact h4 x h
            · rw [List.mem_singleton] at h; subst h; exact ho
          · exact List.rel_append h5 (List.Forall₂.cons hv List.Forall₂.nil)
          · rw [h6]; simp
          · simp [h7]
        | false =>
          obtain ⟨w, fs, h1, h2, h3⟩ := hm
          have single : ∀ st', st'.occ = st.occ ++ [(o.field, v)] → st'.pend = none → st'.trailing = st.trailing →
              CliInv t (argv ++ [s]) st' := by
            intro st' e1 e2 e3
            refine ⟨e1 ▸ hnr, gs ++ [([w, s], (fs.map fun f => (f, .on)) ++ [(o.field, v)])], ?_, [],
              Or.inl ⟨rfl, e3 ▸ htr⟩, ?_⟩
            · intro g hg'
              rcases List.mem_append.1 hg' with h | h
              · exact hg g h
              · rw [List.mem_singleton] at h; subst h
                exact Group.one w fs o s k v h1 hk ho hv
            · rw [e2]
              refine ⟨?_, ?_⟩
              · rw [h2]; simp
              · rw [e1, h3]; simp
          cases ha : o.action with
          | appendMany k' =>
            rw [ha] at hs hk
            simp only [Except.ok.injEq] at hs
            cases hk
            subst hs
            refine ⟨hnr, gs, hg, [], Or.inl ⟨rfl, htr⟩, w, fs, [s], k, [v], h1, ha, by simp, ?_, ?_, ?_, ?_⟩
            · intro x hx; rw [List.mem_singleton] at hx; subst hx; exact ho
            · exact List.Forall₂.cons hv List.Forall₂.nil
            · rw [h2]; simp
            · simp [h3]
          | setTrue => rw [ha] at hk; cases hk
          | print => rw [ha] at hk; cases hk
          | set k' =>
            rw [ha] at hs; simp only [Except.ok.injEq] at hs; subst hs
            exact single _ rfl rfl rfl
          | append k' =>
            rw [ha] at hs; simp only [Except.ok.injEq] at hs; subst hs
            exact single _ rfl rfl rfl

theorem steps_append (t : Tool) (xs ys : List (List Char)) : ∀ st, steps t st (xs ++ ys) =
    match steps t st xs with
    | .error e => .error e
    | .ok st => steps t st ys := by
  induction xs with
  | nil => intro st; rfl
  | cons x xs ih =>
    intro st
    rw [List.cons_append, steps, steps]
    cases step t st x with
    | error e => rfl
    | ok st1 => exact ih st1

theorem cliInv_steps {t : Tool} (hwf : CliWF t) (argv : List (List Char)) : ∀ st',
    steps t ⟨[], none, false⟩ argv = .ok st' → CliInv t argv st' := by
  induction argv using List.reverseRecOn with
  | nil =>
    intro st' h
    rw [steps, Except.ok.injEq] at h
    subst h
    exact ⟨List.Pairwise.nil, [], by simp, [], Or.inl ⟨rfl, rfl⟩, rfl, rfl⟩
  | append_singleton xs x ih =>
    intro st' h
    rw [steps_append] at h
    cases hx : steps t ⟨[], none, false⟩ xs with
    | error e => rw [hx] at h; cases h
    | ok st =>
      rw [hx] at h
      simp only [steps] at h
      cases hs : step t st x with
      | error e => rw [hs] at h; cases h
      | ok st1 =>
        rw [hs, Except.ok.injEq] at h
        subst h
        exact cliInv_step hwf (ih st hx) x hs

theorem noRepeat_left {t : Tool} {a b : List (Field × Val)} (h : NoRepeat t (a ++ b)) : NoRepeat t a :=
  (List.pairwise_append.1 h).1

/-- Values for an option that takes many. -/
theorem steps_many {t : Tool} (hwf : CliWF t) {o : Opt} {k : Kind} (ho : o ∈ t.opts) (ha : o.action = .appendMany k)
    (ss : List (List Char)) : ∀ (vs : List Val) (st : St) (b : Bool), List.Forall₂ (Denotes k) ss vs →
    (∀ s ∈ ss, ¬ OptionLike s) → ss ≠ [] → st.pend = some (o, b) → st.trailing = false →
    NoRepeat t (st.occ ++ vs.map fun v => (o.field, v)) →
    steps t st ss = .ok ⟨st.occ ++ vs.map fun v => (o.field, v), some (o, true), false⟩ := by
  induction ss with
  | nil => intro vs st b _ _ h; exact absurd rfl h
  | cons s ss ih =>
    intro vs st b hf hno _ hp ht hn
    cases hf with
    | cons hv hf =>
      rename_i v vs
      have hn1 : NoRepeat t (st.occ ++ [(o.field, v)]) := by
        have : st.occ ++ List.map (fun v => (o.field, v)) (v :: vs) =
            (st.occ ++ [(o.field, v)]) ++ vs.map fun v => (o.field, v) := by simp
        rw [this] at hn; exact noRepeat_left hn
      have hstep : step t st s = .ok ⟨st.occ ++ [(o.field, v)], some (o, true), false⟩ := by
        rw [step_value t st s ht (hno s List.mem_cons_self)]
        unfold stepValue
        rw [hp]
        have := (store_iff hwf ho { st with pend := none } _ (noRepeat_left hn1) s).2
          ⟨k, v, by rw [ha]; rfl, hv, hn1, rfl⟩
        simp only [this, ha]
        rw [ht]
      rw [steps, hstep]
      simp only
      cases ss with
      | nil => cases hf; rfl
      | cons s' ss =>
        rw [ih vs _ true hf (fun x hx => hno x (List.mem_cons_of_mem _ hx)) (by simp) rfl rfl (by simpa using hn)]
        simp

theorem steps_group {t : Tool} (hwf : CliWF t) {g : List (List Char)} {occs : List (Field × Val)} (hg : Group t g occs)
    (st st1 : St) (ht : st.trailing = false) (hr : resolve st = .ok st1) (hn : NoRepeat t (st.occ ++ occs)) :
    ∃ st', steps t st g = .ok st' ∧ st'.trailing = false ∧ (∃ st2, resolve st' = .ok st2) ∧
      st'.occ = st.occ ++ occs := by
  have e := ((resolve_ok _ _).1 hr).2
  have hocc : st1.occ = st.occ := by rw [e]
  have opened : ∀ (w : List Char) (fs : List Field) (o : Opt), Head t w fs (some (o, none)) →
      NoRepeat t (st.occ ++ fs.map fun f => (f, .on)) →
      step t st w = .ok ⟨st.occ ++ fs.map fun f => (f, .on), some (o, false), false⟩ := by
    intro w fs o hh hn'
    have hw := head_optionLike hwf hh
    rw [step_option hwf st _ w ht (noRepeat_left hn') hw.1 hw.2]
    exact ⟨st1, hr, fs, some (o, none), hh, rfl, hn', rfl, by rw [hocc]⟩
  cases hg with
  | flags w fs hh =>
    have hw := head_optionLike hwf hh
    refine ⟨⟨st.occ ++ fs.map fun f => (f, .on), none, false⟩, ?_, rfl, ⟨_, resolve_none _ rfl⟩, rfl⟩
    have hst : step t st w = .ok ⟨st.occ ++ fs.map fun f => (f, .on), none, false⟩ :=
      (step_option hwf st _ w ht (noRepeat_left hn) hw.1 hw.2).2 ⟨st1, hr, fs, none, hh, rfl, hn, rfl, by rw [hocc]⟩
    rw [steps, hst]
    rfl
  | attached w fs o s k v hh hk hv =>
    have hw := head_optionLike hwf hh
    refine ⟨⟨st.occ ++ ((fs.map fun f => (f, .on)) ++ [(o.field, v)]), none, false⟩, ?_, rfl, ⟨_, resolve_none _ rfl⟩, rfl⟩
    have hst : step t st w = .ok ⟨st.occ ++ ((fs.map fun f => (f, .on)) ++ [(o.field, v)]), none, false⟩ :=
      (step_option hwf st _ w ht (noRepeat_left hn) hw.1 hw.2).2
        ⟨st1, hr, fs, some (o, some s), hh, rfl, hn, k, v, hk, hv, rfl, by rw [hocc]; simp⟩
    rw [steps, hst]
    rfl
  | one w fs o s k v hh hk hs hv =>
    have hn' : NoRepeat t ((st.occ ++ fs.map fun f => (f, .on)) ++ [(o.field, v)]) := by simpa using hn
    have ho := head_opened_mem hh
    rw [steps, opened w fs o hh (noRepeat_left hn')]
    simp only [steps]
    rw [step_value t _ s rfl hs]
    unfold stepValue
    have hst := (store_iff hwf ho ⟨st.occ ++ fs.map fun f => (f, .on), none, false⟩ _ (noRepeat_left hn') s).2
      ⟨k, v, hk, hv, hn', rfl⟩
    simp only [hst]
    cases ha : o.action with
    | appendMany k' => exact ⟨_, rfl, rfl, ⟨_, (resolve_ok _ _).2 ⟨by simp, rfl⟩⟩, by simp⟩
    | setTrue => rw [ha] at hk; cases hk
    | print => rw [ha] at hk; cases hk
    | set k' => exact ⟨_, rfl, rfl, ⟨_, resolve_none _ rfl⟩, by simp⟩
    | append k' => exact ⟨_, rfl, rfl, ⟨_, resolve_none _ rfl⟩, by simp⟩
  | many w fs o ss k vs hh ha hne hno hf =>
    have hn' : NoRepeat t ((st.occ ++ fs.map fun f => (f, .on)) ++ vs.map fun v => (o.field, v)) := by simpa using hn
    rw [steps, opened w fs o hh (noRepeat_left hn')]
    simp only
    rw [steps_many hwf (head_opened_mem hh) ha ss vs _ false hf hno hne rfl rfl hn']
    exact ⟨_, rfl, rfl, ⟨_, (resolve_ok _ _).2 ⟨by simp, rfl⟩⟩, by simp⟩

theorem steps_groups {t : Tool} (hwf : CliWF t) (gs : List (List (List Char) × List (Field × Val))) :
    ∀ st st1 : St, (∀ g ∈ gs, Group t g.1 g.2) → st.trailing = false → resolve st = .ok st1 →
    NoRepeat t (st.occ ++ gs.flatMap Prod.snd) →
    ∃ st', steps t st (gs.flatMap Prod.fst) = .ok st' ∧ st'.trailing = false ∧ (∃ st2, resolve st' = .ok st2) ∧
      st'.occ = st.occ ++ gs.flatMap Prod.snd := by
  induction gs with
  | nil => intro st st1 _ ht hr _; exact ⟨st, rfl, ht, ⟨st1, hr⟩, by simp⟩
  | cons g gs ih =>
    intro st st1 hg ht hr hn
    have hn' : NoRepeat t ((st.occ ++ g.2) ++ gs.flatMap Prod.snd) := by simpa using hn
    obtain ⟨st', h1, h2, ⟨st2, h3⟩, h4⟩ := steps_group hwf (hg g List.mem_cons_self) st st1 ht hr (noRepeat_left hn')
    obtain ⟨st'', h5, h6, h7, h8⟩ := ih st' st2 (fun x hx => hg x (List.mem_cons_of_mem _ hx)) h2 h3 (by rw [h4]; exact hn')
    refine ⟨st'', ?_, h6, h7, by rw [h8, h4]; simp⟩
    rw [List.flatMap_cons, steps_append, h1]
    exact h5

theorem noRepeat_iff (t : Tool) (occ : List (Field × Val)) : NoRepeat t occ ↔
    ∀ i j, i < j → (hj : j < occ.length) → (hi : i < occ.length) → occ[i].1 = occ[j].1 → Repeatable t occ[i].1 := by
  unfold NoRepeat
  rw [List.pairwise_iff_getElem]
  exact ⟨fun h i j hij hj hi => h i j hi hj hij, fun h i j hi hj hij => h i j hij hj hi⟩

/-- `parse` accepts a command line with some settings iff the grammar does. -/
theorem parse_iff {t : Tool} (hwf : CliWF t) (argv : List (List Char)) (occ : List (Field × Val)) :
    parse t argv = .ok occ ↔ Line t argv occ := by
  unfold parse Line
  constructor
  · intro h
    cases hs : steps t ⟨[], none, false⟩ argv with
    | error e => rw [hs] at h; cases h
    | ok st =>
      rw [hs] at h
      simp only at h
      cases hr : resolve st with
      | error e => rw [hr] at h; cases h
      | ok st1 =>
        rw [hr] at h
        simp only at h
        split at h
        · rename_i hreq
          simp only [Except.ok.injEq] at h
          subst h
          obtain ⟨hn, gs, hg, tl, htl, hm⟩ := cliInv_resolve (cliInv_steps hwf argv st hs) hr
          have hp1 : st1.pend = none := by rw [((resolve_ok _ _).1 hr).2]
          rw [hp1] at hm
          refine ⟨gs, hg, ?_, hm.2, (noRepeat_iff t _).1 hn, ?_⟩
          · rcases htl with ⟨rfl, _⟩ | ⟨rfl, _⟩
            · left; rw [hm.1]; simp
            · right; exact hm.1
          · intro f hf
            exact (present_iff st1 f).1 (List.all_eq_true.1 hreq f hf)
        · cases h
  · rintro ⟨gs, hg, hargv, rfl, hn, hreq⟩
    obtain ⟨st', h1, h2, ⟨st2, h3⟩, h4⟩ := steps_groups hwf gs ⟨[], none, false⟩ _ hg rfl (resolve_none _ rfl)
      (by simpa using (noRepeat_iff t _).2 hn)
    simp only [List.nil_append] at h4
    obtain ⟨h5, rfl⟩ := (resolve_ok _ _).1 h3
    have hfin : ∀ st : St, st.occ = gs.flatMap Prod.snd → (∀ o, st.pend ≠ some (o, false)) →
        (match resolve st with
          | .error e => Except.error e
          | .ok st => if (t.required.all fun f => present st f) = true then .ok st.occ else .error 2) =
          .ok (gs.flatMap Prod.snd) := by
      intro st e1 e2
      rw [(resolve_ok st _).2 ⟨e2, rfl⟩]
      simp only
      rw [if_pos, e1]
      rw [List.all_eq_true]
      intro f hf
      rw [present_iff]
      obtain ⟨v, hv⟩ := hreq f hf
      exact ⟨v, by rw [← e1] at hv; exact hv⟩
    rcases hargv with rfl | rfl
    · rw [h1]; exact hfin st' h4 h5
    · rw [steps_append, h1]
      simp only [steps, step_escape t st' h2]
      exact hfin { st' with trailing := true } h4 h5

end Verif
