import Verif.Lemmas.Prog

/-! # Overflow checks in thread programs -/

namespace Verif.Par

open Verif Model

variable {S L : Type} [DecidableEq L] {T : Nat} {body : Prog S L} {fits : S → Bool}

/-- A step with checks, from data that fits. -/
theorem guard_step {s : S} {lk : L → Holds} (hf : fits s = true) (p : Prog S L) :
    Prog.step (body.guard fits) (s, lk, p.guard fits) =
      match Prog.step body (s, lk, p) with
      | none => none
      | some (s', lk', p') => if fits s' then some (s', lk', p'.guard fits) else some (s, lk, .panic) := by
  match p with
  | .acq l true k =>
    simp only [Prog.guard, Prog.step]
    by_cases h : lk l = (0, false)
    · simp [h, hf]
    · simp [h]
  | .acq l false k =>
    simp only [Prog.guard, Prog.step]
    by_cases h : (lk l).2 = false
    · simp [h, hf]
    · simp [h]
  | .rel l true k => simp [Prog.guard, Prog.step, hf]
  | .rel l false k => simp [Prog.guard, Prog.step, hf]
  | .act g k =>
    simp only [Prog.guard, Prog.step]
    cases hg : g s with
    | error e => simp [hf, Prog.guard]
    | ok s' =>
      simp only [ok_bind]
      by_cases h : fits s' = true
      · simp [h, pure_ok]
      · simp [h]
  | .again => simp [Prog.guard, Prog.step, hf]
  | .stop => simp [Prog.guard, Prog.step]
  | .panic => simp [Prog.guard, Prog.step]

/-- The state with checked programs. -/
def checked (fits : S → Bool) (st : TState S L T) : TState S L T :=
  ⟨st.sh, st.locks, fun t => (st.prog t).guard fits⟩

theorem checked_step {st st' : TState S L T} (hf : fits st.sh = true) (hf' : fits st'.sh = true)
    (h : TState.Step body st st') : TState.Step (body.guard fits) (checked fits st) (checked fits st') := by
  obtain ⟨t, ht⟩ := h
  refine ⟨t, ?_⟩
  simp only [TState.stepOf] at ht ⊢
  simp only [checked, guard_step (body := body) hf]
  cases hs : Prog.step body (st.sh, st.locks, st.prog t) with
  | none => rw [hs] at ht; cases ht
  | some c =>
    obtain ⟨s', lk', p'⟩ := c
    rw [hs] at ht
    simp only at ht
    injection ht with ht; subst ht
    have hf' : fits s' = true := hf'
    simp only [hf', if_true]
    congr 2
    funext u
    by_cases hu : u = t
    · subst hu; simp
    · simp [hu]

/-- A run without checks is a run with checks, as long as the data fits. -/
theorem checked_steps {st st' : TState S L T} (P : TState S L T → Prop)
    (hP : ∀ a b, P a → TState.Step body a b → P b)
    (hm : ∀ a b, P a → TState.Step body a b → fits b.sh = true → fits a.sh = true)
    (h0 : P st) (h : Relation.ReflTransGen (TState.Step body) st st') (hf : fits st'.sh = true) :
    Relation.ReflTransGen (TState.Step (body.guard fits)) (checked fits st) (checked fits st') := by
  have hPall : ∀ x, Relation.ReflTransGen (TState.Step body) st x → P x := by
    intro x hx
    induction hx with
    | refl => exact h0
    | tail _ hs ih => exact hP _ _ ih hs
  induction h with
  | refl => exact Relation.ReflTransGen.refl
  | tail hr hs ih =>
    have hf1 := hm _ _ (hPall _ hr) hs hf
    exact (ih hf1).tail (checked_step hf1 hf hs)

/-- What a state with checks comes from. -/
structure Down (fits : S → Bool) (bad : S → Prop) (st st0 : TState S L T) : Prop where
  sh : st.sh = st0.sh
  locks : st.locks = st0.locks
  fit : fits st.sh = true
  prog : ∀ t, st.prog t = (st0.prog t).guard fits ∨ (st.prog t = .panic ∧ bad st.sh)

theorem checked_down {bad : S → Prop} {s0 : S} (h0 : fits s0 = true)
    (h1 : ∀ a b : TState S L T, TState.Reachable body s0 a → TState.Step body a b → fits a.sh = true →
      fits b.sh = false → bad a.sh)
    (h2 : ∀ a b : TState S L T, TState.Reachable body s0 a → TState.Step body a b → fits b.sh = true →
      bad a.sh → bad b.sh)
    {st : TState S L T} (h : TState.Reachable (body.guard fits) s0 st) :
    ∃ st0, TState.Reachable body s0 st0 ∧ Down fits bad st st0 := by
  induction h with
  | refl =>
    exact ⟨TState.init body s0, Relation.ReflTransGen.refl, rfl, rfl, h0, fun t => Or.inl rfl⟩
  | tail _ hs ih =>
    rename_i a b _
    obtain ⟨a0, hr, hd⟩ := ih
    obtain ⟨t, ht⟩ := hs
    simp only [TState.stepOf] at ht
    rcases hd.prog t with hp | ⟨hp, _⟩
    · rw [hp, guard_step hd.fit] at ht
      cases hs : Prog.step body (a.sh, a.locks, a0.prog t) with
      | none => rw [hs] at ht; cases ht
      | some c =>
        obtain ⟨s', lk', p'⟩ := c
        rw [hs] at ht
        simp only at ht
        have hst : TState.Step body a0 ⟨s', lk', Function.update a0.prog t p'⟩ :=
          ⟨t, by simp only [TState.stepOf]; rw [← hd.sh, ← hd.locks, hs]⟩
        by_cases hf : fits s' = true
        · simp only [hf, if_true] at ht
          injection ht with ht; subst ht
          refine ⟨_, hr.tail hst, rfl, rfl, hf, fun u => ?_⟩
          by_cases hu : u = t
          · subst hu; left; simp
          · simp only [Function.update_of_ne hu]
            rcases hd.prog u with h | ⟨h, hb⟩
            · exact Or.inl h
            · exact Or.inr ⟨h, h2 _ _ hr hst hf (hd.sh ▸ hb)⟩
        · simp only [hf] at ht
          have hbad : bad a.sh := by
            rw [hd.sh]
            exact h1 _ _ hr hst (hd.sh ▸ hd.fit) (by simpa using hf)
          injection ht with ht; subst ht
          refine ⟨a0, hr, hd.sh, hd.locks, hd.fit, fun u => ?_⟩
          by_cases hu : u = t
          · subst hu; right; exact ⟨by simp, hbad⟩
          · simpa [hu] using hd.prog u
    · rw [hp] at ht
      simp [Prog.step] at ht

omit [DecidableEq L] in
theorem guard_stop {p : Prog S L} (h : p.guard fits = .stop) : p = .stop := by
  cases p <;> simp [Prog.guard] at h ⊢

omit [DecidableEq L] in
theorem guard_again {p : Prog S L} (h : p.guard fits = .again) : p = .again := by
  cases p <;> simp [Prog.guard] at h ⊢

omit [DecidableEq L] in
theorem guard_panic {p : Prog S L} (h : p.guard fits = .panic) : p = .panic := by
  cases p <;> simp [Prog.guard] at h ⊢

omit [DecidableEq L] in
theorem guard_acq {p : Prog S L} {l : L} {w : Bool} {k : Prog S L} (h : p.guard fits = .acq l w k) :
    ∃ k', p = .acq l w k' ∧ k = k'.guard fits := by
  cases p <;> simp [Prog.guard] at h ⊢
  exact ⟨⟨h.1, h.2.1⟩, h.2.2.symm⟩

/-- Waiting does not depend on the checks. -/
theorem checked_blocked {st : TState S L T} {t : Fin T} (h : st.Blocked body t) :
    (checked fits st).Blocked (body.guard fits) t := by
  obtain ⟨h1, l, w, k, hp⟩ := h
  refine ⟨?_, l, w, k.guard fits, by simp [checked, hp, Prog.guard]⟩
  simp only [TState.stepOf, hp] at h1
  cases w <;> simp only [TState.stepOf, checked, hp, Prog.guard, Prog.step] at h1 ⊢ <;> split at h1
  all_goals first | (rename_i hq; split at hq <;> simp_all)

theorem Down.queued {bad : S → Prop} {st st0 : TState S L T} (hd : Down fits bad st st0) {t : Fin T}
    (h : st.Queued t) : st0.Queued t := by
  obtain ⟨l, w, k, hp, hl⟩ := h
  rcases hd.prog t with hg | ⟨hg, _⟩
  · rw [hp] at hg
    obtain ⟨k', hk, rfl⟩ := guard_acq hg.symm
    exact ⟨l, w, k', hk, by rw [← hd.locks]; exact hl⟩
  · rw [hp] at hg; cases hg

theorem Down.blocked {bad : S → Prop} {st st0 : TState S L T} (hd : Down fits bad st st0) {t : Fin T}
    (h : st.Blocked (body.guard fits) t) : st0.Blocked body t := by
  obtain ⟨h1, l, w, k, hp⟩ := h
  rcases hd.prog t with hg | ⟨hg, _⟩
  · rw [hp] at hg
    obtain ⟨k', hk, rfl⟩ := guard_acq hg.symm
    refine ⟨?_, l, w, k', hk⟩
    simp only [TState.stepOf, hp] at h1
    have : Prog.acq l w (k'.guard fits) = (Prog.acq l w k').guard fits := rfl
    rw [this, guard_step hd.fit] at h1
    simp only [TState.stepOf, hk, ← hd.sh, ← hd.locks]
    cases hs : Prog.step body (st.sh, st.locks, Prog.acq l w k') with
    | none => rfl
    | some c =>
      obtain ⟨s', lk', p'⟩ := c
      rw [hs] at h1
      simp only at h1
      by_cases hf : fits s' = true <;> simp [hf] at h1
  · rw [hp] at hg; cases hg

end Verif.Par
