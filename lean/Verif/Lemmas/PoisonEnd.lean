import Verif.Lemmas.Poison

/-! # Every run of `max_lyndon_word` ends -/

namespace Verif.Max

open Verif Spec Model Par

/-- At most `n` steps to the end of the round, whatever the data; the last step and the beginning of the next round
count for four. -/
def Cost : MProg → Nat → Prop
  | .acq _ _ k, n => 1 ≤ n ∧ Cost k (n - 1)
  | .rel _ _ k, n => 1 ≤ n ∧ Cost k (n - 1)
  | .act _ k, n => 1 ≤ n ∧ ∀ s, Cost (k s) (n - 1)
  | .again, n => 4 ≤ n
  | .stop, _ => True
  | .panic, _ => True

theorem Cost.mono {p : MProg} {n m : Nat} (h : Cost p n) (hm : n ≤ m) : Cost p m := by
  induction p generalizing n m with
  | acq l w k ih => exact ⟨by have := h.1; omega, ih h.2 (by omega)⟩
  | rel l w k ih => exact ⟨by have := h.1; omega, ih h.2 (by omega)⟩
  | act g k ih => exact ⟨by have := h.1; omega, fun s => ih s (h.2 s) (by omega)⟩
  | again => exact le_trans h hm
  | stop => trivial
  | panic => trivial

section cost

variable {k : MProg} {n : Nat}

theorem Cost.acq (l : MLock) (w : Bool) (h : Cost k n) : Cost (.acq l w k) (n + 1) := ⟨by omega, h⟩
theorem Cost.rel (l : MLock) (w : Bool) (h : Cost k n) : Cost (.rel l w k) (n + 1) := ⟨by omega, h⟩
theorem Cost.act (g : MShared → Res MShared) {k : MShared → MProg} (h : ∀ s, Cost (k s) n) : Cost (.act g k) (n + 1) :=
  ⟨by omega, h⟩

theorem cost_storeBest (b c i : Nat) (t : List UInt8) (h : Cost k n) : Cost (storeBest b c i t k) (n + 11) := by
  unfold storeBest
  exact .acq _ _ <| .acq _ _ <| .acq _ _ <| .acq _ _ <| .act _ fun _ => .act _ fun _ => .act _ fun _ => .rel _ _ <| .rel _ _ <|
    .rel _ _ <| .rel _ _ h

theorem cost_considerBest (b c i : Nat) (t : List UInt8) (h : Cost k n) : Cost (considerBest b c i t k) (n + 20) := by
  unfold considerBest
  split
  · refine .acq _ _ <| .acq _ _ <| .acq _ _ <| .acq _ _ <| .act _ fun s => .rel _ _ <| .rel _ _ <| .rel _ _ <| .rel _ _ ?_
    split
    · exact cost_storeBest b c i t h
    · exact h.mono (by omega)
  · exact h.mono (by omega)

theorem cost_conjugateBlock (b i : Nat) (t : List UInt8) (h : Cost k n) : Cost (conjugateBlock b i t k) (n + 27) := by
  unfold conjugateBlock
  split
  · trivial
  · exact .acq _ _ <| .acq _ _ <| .acq _ _ <| .act _ fun _ => .rel _ _ <| .rel _ _ <| .rel _ _ <| cost_considerBest _ _ _ _ h

theorem cost_conjugateLoop (b i : Nat) (h : Cost k n) (fuel : Nat) : ∀ it, Cost (conjugateLoop b i fuel it k) (n + 27 * fuel) := by
  induction fuel with
  | zero => intro it; trivial
  | succ fuel ih =>
    intro it
    unfold conjugateLoop
    split
    · trivial
    · exact h.mono (by omega)
    · exact (cost_conjugateBlock _ _ _ (ih _)).mono (by omega)

theorem cost_reportTexts (h : Cost k n) (ls : List Nat) : Cost (reportTexts k ls) (n + 4 * ls.length) := by
  induction ls with
  | nil => exact h
  | cons l ls ih =>
    refine Cost.mono (n := (n + 4 * ls.length) + 4) ?_ (by simp only [List.length_cons]; omega)
    exact .acq _ _ <| .act _ fun _ => .act _ fun _ => .rel _ _ ih

theorem cost_checkReport : Cost checkReport 102 := by
  unfold checkReport
  refine .acq _ _ (.act _ fun s => ?_)
  split
  · unfold Model.report
    refine .acq _ _ <| .acq _ _ <| .acq _ _ <| .acq _ _ <| .acq _ _ <| .acq _ _ <| .acq _ _ <| .act _ fun _ => ?_
    refine (cost_reportTexts (n := 12) ?_ _).mono (by rw [List.length_range']; decide)
    exact .rel _ _ <| .rel _ _ <| .rel _ _ <| .rel _ _ <| .rel _ _ <| .rel _ _ <| .rel _ _ <| .rel _ _ (le_refl 4)
  · exact Cost.mono (n := 5) (.rel _ _ (le_refl 4)) (by omega)

theorem cost_countWord (i : Nat) (h : Cost k n) : Cost (countWord i k) (n + 6) := by
  unfold countWord
  exact .acq _ _ <| .act _ fun _ => .acq _ _ <| .act _ fun _ => .rel _ _ <| .rel _ _ h

theorem cost_processWord (w : List Nat) : Cost (processWord w) 1215 := by
  unfold processWord
  dsimp only
  split
  · trivial
  · split
    · rename_i h
      refine (cost_conjugateLoop _ _ (cost_countWord _ cost_checkReport) _ _).mono ?_
      have : MAXW = 40 := rfl
      omega
    · trivial

/-- What a thread still has to do before it takes another word. -/
def LCost (p : MProg) (n : Nat) : Prop := (p = mworker ∧ 3 ≤ n) ∨ (p = takeNext ∧ 2 ≤ n) ∨ Cost p n

theorem lcost_pos {p : MProg} (hb : (∃ l m k, p = .acq l m k) ∨ ∃ g k, p = .act g k) (h : LCost p n) : 0 < n := by
  rcases h with ⟨-, h⟩ | ⟨-, h⟩ | h
  · omega
  · omega
  · rcases hb with ⟨l, m, k, rfl⟩ | ⟨g, k, rfl⟩
    · exact h.1
    · exact h.1

end cost

variable {T : Nat} {ws : List (List Nat)}

/-- One step of the run without overflow checks. -/
theorem free_decreases {st st' : MState T} (hc : CInv ws st) {rest : List (List Nat)}
    (hy : Yields LyndonWordGenerator.next st.sh.iter rest) {t : Fin T} {n : Nat}
    (hn : LCost (st.prog t) n) (ht : TState.stepOf mworker st t = some st') :
    (∀ u, u ≠ t → st'.prog u = st.prog u) ∧
    ∃ rest' n', Yields LyndonWordGenerator.next st'.sh.iter rest' ∧ LCost (st'.prog t) n' ∧
      1215 * rest'.length + n' + 1 ≤ 1215 * rest.length + n := by
  obtain ⟨done, rest0, -, hy0, d, hd, -⟩ := hc
  obtain rfl := yields_unique hy hy0
  have hloc := hd t
  simp only [TState.stepOf] at ht
  have quiet : ∀ (lk : MLock → Holds) (p : MProg) (m : Nat), st' = ⟨st.sh, lk, Function.update st.prog t p⟩ → LCost p m → m + 1 ≤ n →
      (∀ u, u ≠ t → st'.prog u = st.prog u) ∧
      ∃ rest' n', Yields LyndonWordGenerator.next st'.sh.iter rest' ∧ LCost (st'.prog t) n' ∧
      1215 * rest'.length + n' + 1 ≤ 1215 * rest.length + n := by
    rintro lk p m rfl hl hm
    exact ⟨fun u hu => by simp [hu], rest, m, hy, by simpa using hl, by omega⟩
  match hp : st.prog t with
  | .acq l w k =>
    rw [hp] at ht hn
    have hk : st' = ⟨st.sh, st'.locks, Function.update st.prog t k⟩ := by
      cases w <;> simp only [Prog.step] at ht <;> split at ht
      all_goals
        first
        | (rename_i hq; split at hq
           · injection hq with hq; injection ht with ht; cases hq; subst ht; rfl
           · cases hq)
        | cases ht
    rcases hn with ⟨h1, h2⟩ | ⟨h1, h2⟩ | h1
    · rw [mworker_eq] at h1; injection h1 with _ _ h1; subst h1
      exact quiet _ _ 2 hk (.inr (.inl ⟨rfl, le_refl _⟩)) h2
    · cases h1
    · exact quiet _ _ (n - 1) hk (.inr (.inr h1.2)) (by have := h1.1; omega)
  | .rel l w k =>
    rw [hp] at ht hn
    have hk : st' = ⟨st.sh, st'.locks, Function.update st.prog t k⟩ := by
      cases w <;> simp only [Prog.step] at ht <;> injection ht with ht <;> subst ht <;> rfl
    rcases hn with ⟨h1, h2⟩ | ⟨h1, h2⟩ | h1
    · cases h1
    · cases h1
    · exact quiet _ _ (n - 1) hk (.inr (.inr h1.2)) (by have := h1.1; omega)
  | .act g k =>
    rw [hp] at ht hn hloc
    simp only [Prog.step] at ht
    have hn1 : 1 ≤ n := lcost_pos (.inr ⟨g, k, rfl⟩) hn
    cases hg : g st.sh with
    | error e =>
      rw [hg] at ht
      simp only at ht
      injection ht with ht
      exact quiet _ .panic 0 ht.symm (.inr (.inr trivial)) hn1
    | ok s2 =>
      rw [hg] at ht
      simp only at ht
      injection ht with ht; subst ht
      refine ⟨fun u hu => by simp [hu], ?_⟩
      by_cases htn : (Prog.act g k : MProg) = takeNext
      · have hn2 : 2 ≤ n := by
          rcases hn with ⟨h1, h2⟩ | ⟨h1, h2⟩ | h1
          · omega
          · exact h2
          · rw [htn] at h1
            have := (h1.2 st.sh).1
            omega
        injection htn with hg' hk'
        subst hg' hk'
        match rest, hy with
        | [], hy =>
          obtain ⟨it, hnx, hy'⟩ := hy.nil
          simp only [hnx, ok_bind, pure_ok] at hg
          injection hg with hg; subst hg
          refine ⟨[], 1, hy', ?_, by omega⟩
          simp only [Function.update_self, hnx]
          exact .inr (.inr ⟨by omega, trivial⟩)
        | w :: rest, hy =>
          obtain ⟨it, hnx, hy'⟩ := hy.cons
          simp only [hnx, ok_bind, pure_ok] at hg
          injection hg with hg; subst hg
          refine ⟨rest, 1216, hy', ?_, by simp only [List.length_cons]; omega⟩
          simp only [Function.update_self, hnx]
          exact .inr (.inr ⟨by omega, cost_processWord w⟩)
      · have hiter : s2.iter = st.sh.iter := by
          rcases hloc with ⟨h1 | h1, _⟩ | ⟨h1 | h1, _, _⟩ | h1
          · cases h1
          · exact absurd h1 htn
          · cases h1
          · cases h1
          · obtain ⟨_, _, _, _, _, h, _, _⟩ := h1.2 _ _ hg
            exact h
        rcases hn with ⟨h1, h2⟩ | ⟨h1, h2⟩ | h1
        · cases h1
        · exact absurd h1 htn
        · refine ⟨rest, n - 1, by rw [show (⟨s2, st.locks, _⟩ : MState T).sh = s2 from rfl, hiter]; exact hy, ?_, by omega⟩
          simp only [Function.update_self]
          exact .inr (.inr (h1.2 _))
  | .again =>
    rw [hp] at ht hn
    simp only [Prog.step] at ht
    injection ht with ht
    rcases hn with ⟨h1, h2⟩ | ⟨h1, h2⟩ | h1
    · cases h1
    · cases h1
    · exact quiet _ _ 3 ht.symm (.inl ⟨rfl, le_refl _⟩) h1
  | .stop => rw [hp] at ht; simp [Prog.step] at ht
  | .panic => rw [hp] at ht; simp [Prog.step] at ht

/-- The potential of a state. -/
def Pot (w : WState MShared MLock T) (st : MState T) (B : Nat) : Prop :=
  ∃ rest, ∃ n : Fin T → Nat, Yields LyndonWordGenerator.next st.sh.iter rest ∧
    (∀ t, w.prog t = .panic ∨ LCost (st.prog t) (n t)) ∧
    B = 2430 * rest.length + ∑ t, (2 * n t + (w.guards t).length)

theorem sum_change {f g : Fin T → Nat} (t : Fin T) (h : ∀ u, u ≠ t → f u = g u) : ∑ u, f u + g t = ∑ u, g u + f t := by
  rw [← Finset.sum_erase_add _ f (Finset.mem_univ t), ← Finset.sum_erase_add _ g (Finset.mem_univ t)]
  have : ∑ u ∈ Finset.univ.erase t, f u = ∑ u ∈ Finset.univ.erase t, g u :=
    Finset.sum_congr rfl fun u hu => h u (Finset.ne_of_mem_erase hu)
  omega

variable {w w' : WState MShared MLock T} {st : MState T} {H : Fin T → MLock → Option Bool} {K : Fin T → MShared}

theorem pot_step (hws : ∀ w ∈ ws, w ≠ [] ∧ w.length ≤ MAXW)
    (hy : Yields LyndonWordGenerator.next (LyndonWordGenerator.new MAXW 2) ws) (h : Sim ws w st H K) {B : Nat} (hB : Pot w st B)
    (hs : WState.Step maxWorker w w') : ∃ st' H' K', Sim ws w' st' H' K' ∧ ∃ B' < B, Pot w' st' B' := by
  obtain ⟨t, ht⟩ := hs
  obtain ⟨st', H', K', hsim, hother, hkind⟩ := h.stepKind hws hy ht
  refine ⟨st', H', K', hsim, ?_⟩
  obtain ⟨rest, n, hyr, hl, rfl⟩ := hB
  cases hkind with
  | run hp hst hg =>
    obtain ⟨ho, rest', n', h1, h2, h3⟩ := free_decreases (cinv_steps hws (cinv_init hy) h.reach) hyr ((hl t).resolve_left hp) hst
    refine ⟨_, ?_, rest', Function.update n t n', h1, fun u => ?_, rfl⟩
    · have := sum_change (f := fun u => 2 * n u + (w.guards u).length)
        (g := fun u => 2 * Function.update n t n' u + (w'.guards u).length) t (fun u hu => by
          simp [hu, (hother u hu).2])
      simp only [Function.update_self] at this
      omega
    · by_cases hu : u = t
      · subst hu; right; simpa using h2
      · rw [ho u hu, (hother u hu).1, Function.update_of_ne hu]; exact hl u
  | die hp hst hp' hg hb =>
    subst hst
    have hpos := lcost_pos hb ((hl t).resolve_left hp)
    refine ⟨_, ?_, rest, Function.update n t 0, hyr, fun u => ?_, rfl⟩
    · have := sum_change (f := fun u => 2 * n u + (w.guards u).length)
        (g := fun u => 2 * Function.update n t 0 u + (w'.guards u).length) t (fun u hu => by
          simp [hu, (hother u hu).2])
      simp only [Function.update_self, hg] at this
      omega
    · by_cases hu : u = t
      · subst hu; left; exact hp'
      · rw [(hother u hu).1, Function.update_of_ne hu]; exact hl u
  | drop hst hp hp' hg =>
    subst hst
    refine ⟨_, ?_, rest, n, hyr, fun u => ?_, rfl⟩
    · have := sum_change (f := fun u => 2 * n u + (w.guards u).length)
        (g := fun u => 2 * n u + (w'.guards u).length) t (fun u hu => by
          simp [(hother u hu).2])
      omega
    · by_cases hu : u = t
      · subst hu; left; exact hp'
      · rw [(hother u hu).1]; exact hl u

theorem pot_init (hy : Yields LyndonWordGenerator.next (LyndonWordGenerator.new MAXW 2) ws) :
    Pot (WState.init maxWorker MShared.init : WState MShared MLock T) (TState.init mworker MShared.init) (2430 * ws.length + 6 * T) :=
  ⟨ws, fun _ => 3, hy, fun t => .inr (.inl ⟨rfl, le_refl _⟩), by simp [WState.init]; omega⟩

/-! ### Runs with panics from runs without -/

theorem Sim.noPanic (h : Sim ws w st H K) {t : Fin T} (hp : w.prog t ≠ .panic) : Live w st H t := by
  rcases h.thr t with lv | dd
  · exact lv
  · exact absurd dd.prog hp

theorem up_step (h : Sim ws w st H K) (hnp : ∀ t, w.prog t ≠ .panic) (hpo : ∀ l, w.poisoned l = false) {t : Fin T}
    {st' : MState T} (ht : TState.stepOf mworker st t = some st') (hf : i32Fits st'.sh = true) :
    ∃ w', WState.stepOf maxWorker w t = some w' ∧ w'.prog t = (st'.prog t).guard i32Fits ∧ ∀ l, w'.poisoned l = false := by
  have lv := h.noPanic (hnp t)
  have hsafe := h.ginv.safe t
  unfold WState.stepOf
  rw [lv.prog]
  simp only [TState.stepOf] at ht
  match hp : st.prog t with
  | .acq l m k =>
    rw [hp] at ht
    have hav : w.Available l m ∧ st'.prog = Function.update st.prog t k := by
      cases m
      · simp only [Prog.step] at ht
        by_cases hl : (st.locks l).2 = false
        · rw [if_pos hl] at ht
          simp only at ht
          injection ht with ht
          subst ht
          refine ⟨fun u p hpm e => ⟨rfl, ?_⟩, rfl⟩
          have := h.guard_held hpm
          rw [e] at this
          cases h2 : p.2 with
          | false => rfl
          | true => rw [h2] at this; exact absurd this (h.ginv.noWriter hl u)
        · rw [if_neg hl] at ht; cases ht
      · simp only [Prog.step] at ht
        by_cases hl : st.locks l = (0, false)
        · rw [if_pos hl] at ht
          simp only at ht
          injection ht with ht
          subst ht
          refine ⟨fun u p hpm e => ?_, rfl⟩
          have := h.guard_held hpm
          rw [e, h.ginv.free hl u] at this
          cases this
        · rw [if_neg hl] at ht; cases ht
    simp only [Prog.guard]
    rw [if_pos hav.1, hpo l]
    exact ⟨_, rfl, by simp [hav.2], hpo⟩
  | .rel l m k =>
    rw [hp] at ht
    have hk : st'.prog = Function.update st.prog t k := by
      cases m <;> simp only [Prog.step] at ht <;> injection ht with ht <;> subst ht <;> rfl
    simp only [Prog.guard]
    exact ⟨_, rfl, by simp [hk], hpo⟩
  | .act g k =>
    rw [hp] at ht
    obtain ⟨s', hg, -⟩ := h.ginv.act hp
    simp only [Prog.step, hg] at ht
    injection ht with ht
    subst ht
    simp only [Prog.guard, h.sh, hg, ok_bind]
    rw [if_pos hf]
    exact ⟨_, rfl, by simp, hpo⟩
  | .again =>
    rw [hp] at ht
    simp only [Prog.step] at ht
    injection ht with ht
    subst ht
    exact ⟨_, rfl, by simp [maxWorker], hpo⟩
  | .stop => rw [hp] at ht; simp [Prog.step] at ht
  | .panic => rw [hp] at hsafe; exact hsafe.elim

theorem workers_up (hws : ∀ w ∈ ws, w ≠ [] ∧ w.length ≤ MAXW)
    (hy : Yields LyndonWordGenerator.next (LyndonWordGenerator.new MAXW 2) ws) (h : FreeReachable st)
    (hf : i32Fits st.sh = true) :
    ∃ w H K, WorkersReach w ∧ Sim ws w st H K ∧ (∀ t, w.prog t ≠ .panic) ∧ ∀ l, w.poisoned l = false := by
  induction h with
  | refl =>
    refine ⟨_, _, _, .refl, sim_init hws hy, fun t e => ?_, fun l => rfl⟩
    have e : maxWorker = .panic := e
    have := guard_panic e
    rw [mworker_eq] at this
    cases this
  | tail hr hs ih =>
    rename_i a b
    have hc := cinv_steps hws (cinv_init hy) hr
    obtain ⟨w, H, K, h1, h2, h3, h4⟩ := ih (fits_near (hc.step hws hs).2 hf)
    obtain ⟨t, ht⟩ := hs
    obtain ⟨w', g1, g2, g3⟩ := up_step h2 h3 h4 ht hf
    have hnp : w'.prog t ≠ .panic := fun e => by
      rw [g2] at e
      obtain ⟨H0, K0, g⟩ := max_ginv hws hy (hr.tail ⟨t, ht⟩)
      have := g.safe t
      rw [guard_panic e] at this
      exact this
    obtain ⟨st', H', K', hsim, hother, hkind⟩ := h2.stepKind hws hy g1
    refine ⟨w', H', K', h1.tail ⟨t, g1⟩, ?_, fun u => ?_, g3⟩
    · cases hkind with
      | run hp hst hg =>
        rw [ht] at hst
        injection hst with hst
        rw [hst]; exact hsim
      | die hp hst hp' hg hb => exact absurd hp' hnp
      | drop hst hp hp' hg => exact absurd hp' hnp
    · by_cases hu : u = t
      · subst hu; exact hnp
      · rw [(hother u hu).1]; exact h3 u

/-- A step of thread `t`. -/
def StepOf (t : Fin T) (a b : MState T) : Prop := TState.stepOf mworker a t = some b

theorem lift_of {s : MState T} {t : Fin T} {p0 : MProg} {c : Config MShared MLock} (hp : s.prog t = p0)
    (h : PRuns mworker (s.sh, s.locks, p0) c) :
    Relation.ReflTransGen (StepOf t) s ⟨c.1, c.2.1, Function.update s.prog t c.2.2⟩ := by
  subst hp
  induction h with
  | refl =>
    have : (⟨s.sh, s.locks, Function.update s.prog t (s.prog t)⟩ : MState T) = s := by
      rw [Function.update_eq_self]
    rw [this]
  | tail _ hs ih =>
    refine ih.tail ?_
    obtain ⟨h1, _⟩ := hs
    simp only [StepOf, TState.stepOf, Function.update_self]
    rw [h1]
    simp only [Function.update_idem]

/-- A thread processes words, and nobody else makes a step. -/
theorem solo_of {t : Fin T} {ds : List (List Nat)} (hds : ∀ w ∈ ds, w ≠ [] ∧ w.length ≤ MAXW)
    {rest : List (List Nat)} : ∀ {s : MState T}, Calm (ds ++ rest) s → s.prog t = mworker →
    ∃ s', Relation.ReflTransGen (StepOf t) s s' ∧ Calm rest s' ∧ s'.prog = s.prog := by
  induction ds with
  | nil => intro s h _; exact ⟨s, .refl, h, rfl⟩
  | cons w ds ih =>
    intro s h hp
    obtain ⟨hl, hs, hy⟩ := h
    obtain ⟨hne, hlen⟩ := hds w (by simp)
    obtain ⟨it, hy', hr⟩ := take_run hy
    obtain ⟨s1, h1, h2, h3, -⟩ := processWord_run (shape_iter hs it) hne hlen
    have e1 := hr.trans h1
    rw [← hl] at e1
    have e1 := lift_of hp e1
    simp only [hl] at e1
    let st1 : MState T := ⟨s1, free, Function.update s.prog t .again⟩
    have e2 : StepOf t st1 ⟨s1, free, Function.update st1.prog t mworker⟩ := by
      simp [StepOf, TState.stepOf, st1, Prog.step]
    have e3 : (⟨s1, free, Function.update st1.prog t mworker⟩ : MState T) = ⟨s1, free, s.prog⟩ := by
      simp only [st1, Function.update_idem]
      rw [← hp, Function.update_eq_self]
    rw [e3] at e2
    obtain ⟨s2, g1, g2, g4⟩ := ih (fun v hv => hds v (by simp [hv])) (s := ⟨s1, free, s.prog⟩)
      ⟨rfl, h2, by rw [h3]; exact hy'⟩ hp
    exact ⟨s2, (e1.tail e2).trans g1, g2, g4⟩

/-- Not everything fits. -/
theorem not_fits (hws : ∀ w ∈ ws, w ≠ [] ∧ w.length ≤ MAXW)
    (hm : ∀ w, w ∈ ws ↔ IsLyndon w ∧ w.length ≤ MAXW ∧ ∀ c ∈ w, c < 2) {s : MShared} (h : cnt s = total ws) :
    i32Fits s = false := by
  by_contra hfit
  rw [Bool.not_eq_false, fits_iff, h] at hfit
  have h1 := hfit 1 (by omega) 39
  have h2 := hfit 2 (by omega) 39
  have h3 := hfit 3 (by omega) 39
  have h4 := total_wins ws (fun w hw => (hws w hw).1)
  have h5 := many_words40 hm
  omega

/-- An update that does not fit makes the worker panic. -/
theorem die_step (h : Sim ws w st H K) {t : Fin T} (hp : w.prog t ≠ .panic) {st' : MState T} (ht : StepOf t st st')
    (hf : i32Fits st'.sh = false) : WState.stepOf maxWorker w t = some { w with prog := Function.update w.prog t .panic } := by
  have lv := h.noPanic hp
  have hfit := h.fits
  rw [h.sh] at hfit
  have hsafe := h.ginv.safe t
  unfold WState.stepOf
  rw [lv.prog]
  simp only [StepOf, TState.stepOf] at ht
  match hp : st.prog t with
  | .acq l m k =>
    rw [hp] at ht
    have : st'.sh = st.sh := by
      cases m <;> simp only [Prog.step] at ht <;> split at ht
      all_goals
        first
        | (rename_i hq; split at hq
           · injection hq with hq; injection ht with ht; cases hq; subst ht; rfl
           · cases hq)
        | cases ht
    rw [this, hfit] at hf
    cases hf
  | .rel l m k =>
    rw [hp] at ht
    have : st'.sh = st.sh := by
      cases m <;> simp only [Prog.step] at ht <;> injection ht with ht <;> subst ht <;> rfl
    rw [this, hfit] at hf
    cases hf
  | .act g k =>
    rw [hp] at ht
    obtain ⟨s', hg, -⟩ := h.ginv.act hp
    simp only [Prog.step, hg] at ht
    injection ht with ht
    subst ht
    simp only [Prog.guard, h.sh, hg, ok_bind]
    rw [if_neg (by rw [show i32Fits s' = false from hf]; simp)]
  | .again =>
    rw [hp] at ht
    simp only [Prog.step] at ht
    injection ht with ht
    subst ht
    rw [show i32Fits st.sh = false from hf] at hfit
    cases hfit
  | .stop => rw [hp] at ht; simp [Prog.step] at ht
  | .panic => rw [hp] at hsafe; exact hsafe.elim

/-- A given worker can panic. -/
theorem can_panic (t : Fin T) (hws : ∀ w ∈ ws, w ≠ [] ∧ w.length ≤ MAXW)
    (hm : ∀ w, w ∈ ws ↔ IsLyndon w ∧ w.length ≤ MAXW ∧ ∀ c ∈ w, c < 2)
    (hy : Yields LyndonWordGenerator.next (LyndonWordGenerator.new MAXW 2) ws)
    (hstart : ∀ rest d, Local rest mworker d → d = 0) :
    ∃ w : WState MShared MLock T, WorkersReach w ∧ w.prog t = .panic := by
  obtain ⟨s, hs, hcalm, hp⟩ := solo_of (T := T) (t := t) (ds := ws) hws (rest := [])
    (s := TState.init mworker MShared.init) ⟨rfl, shape_init, by rw [List.append_nil]; exact hy⟩ rfl
  have mono : ∀ {a b : MState T}, Relation.ReflTransGen (StepOf t) a b → Steps a b :=
    fun h => Relation.ReflTransGen.mono (r := StepOf t) (p := TState.Step mworker) (fun a b h => ⟨t, h⟩) _ _ h
  have hc := cinv_steps hws (cinv_init hy) (mono hs)
  have hno : i32Fits s.sh = false := by
    obtain ⟨done, rest, hsp, hyr, d, hl, hsum⟩ := hc
    obtain rfl := yields_unique hcalm.yields hyr
    rw [List.append_nil] at hsp
    subst hsp
    have hd0 : ∑ t, d t = 0 := by
      refine Finset.sum_eq_zero fun t _ => ?_
      have := hl t
      rw [hp] at this
      exact hstart _ _ this
    rw [hd0, add_zero] at hsum
    exact not_fits hws hm hsum
  have first : ∀ b : MState T, Relation.ReflTransGen (StepOf t) (TState.init mworker MShared.init) b → i32Fits b.sh = false →
      ∃ a c : MState T, FreeReachable a ∧ i32Fits a.sh = true ∧ StepOf t a c ∧ i32Fits c.sh = false := by
    intro b hb
    induction hb with
    | refl => intro h; rw [show (TState.init mworker MShared.init : MState T).sh = MShared.init from rfl, fits_init] at h; cases h
    | tail hr hst ih =>
      rename_i x y
      intro h
      cases hx : i32Fits x.sh with
      | true => exact ⟨x, y, mono hr, hx, hst, h⟩
      | false => exact ih hx
  obtain ⟨a, c, h1, h2, h3, h4⟩ := first s hs hno
  obtain ⟨w, H, K, g1, g2, g3, g4⟩ := workers_up hws hy h1 h2
  exact ⟨_, g1.tail ⟨t, die_step g2 (g3 t) h3 h4⟩, by simp⟩

end Verif.Max
