import Verif.Lemmas.PoisonEnd
import Verif.Props.MaxLyndon

/-!
# C114: how a call of `max_lyndon_word` ends

With panicking workers: a panic drops the guards and poisons their locks, `unwrap()` of a poisoned lock panics, and the
main thread panics when it joins a worker that has panicked.
-/

namespace Verif.Props

open Verif Spec Model Verif.Max Par

/-- C114 (1): every run, under every schedule, ends: the number of steps is bounded. -/
theorem C114_bounded (T : Nat) : ∃ B, ∀ (n : Nat) (run : Nat → CallState T), run 0 = CallState.init →
    (∀ i < n, CallState.Step (run i) (run (i + 1))) → n ≤ B := by
  obtain ⟨ws, hm, hy⟩ := all_words
  have hws : ∀ w ∈ ws, w ≠ [] ∧ w.length ≤ MAXW := fun w hw => ⟨((hm w).1 hw).1.1, ((hm w).1 hw).2.1⟩
  refine ⟨2430 * ws.length + 6 * T + T + 1, fun n run h0 hrun => ?_⟩
  have key : ∀ j ≤ n, ∃ st H K B, Sim ws (run j).workers st H K ∧ Pot (run j).workers st B ∧
      ((∃ i ≤ T, (run j).main = .ok i ∧ j + B + (T - i) + 1 ≤ 2430 * ws.length + 6 * T + T + 1) ∨
       (∃ e, (run j).main = .error e) ∧ j ≤ 2430 * ws.length + 6 * T + T + 1) := by
    intro j
    induction j with
    | zero =>
      intro _
      rw [h0]
      exact ⟨_, _, _, _, sim_init hws hy, pot_init hy, .inl ⟨0, by omega, rfl, by omega⟩⟩
    | succ j ih =>
      intro hj
      obtain ⟨st, H, K, B, h1, h2, h3⟩ := ih (by omega)
      have hstep := hrun j (by omega)
      generalize run j = a at *
      generalize run (j + 1) = b at *
      cases hstep with
      | worker h =>
        obtain ⟨st', H', K', g1, B', g2, g3⟩ := pot_step hws hy h1 h2 h
        refine ⟨st', H', K', B', g1, g3, ?_⟩
        rcases h3 with ⟨i, hi, e, hb⟩ | ⟨⟨e, he⟩, _⟩
        · exact .inl ⟨i, hi, e, by omega⟩
        · cases he
      | returned h hs =>
        refine ⟨st, H, K, B, h1, h2, ?_⟩
        rcases h3 with ⟨i, hi, e, hb⟩ | ⟨⟨e, he⟩, _⟩
        · cases e
          exact .inl ⟨_, h, rfl, by omega⟩
        · cases he
      | failed h hs =>
        refine ⟨st, H, K, B, h1, h2, ?_⟩
        rcases h3 with ⟨i, hi, e, hb⟩ | ⟨⟨e, he⟩, _⟩
        · exact .inr ⟨⟨_, rfl⟩, by omega⟩
        · cases he
  obtain ⟨st, H, K, B, -, -, h | h⟩ := key n (le_refl n)
  · obtain ⟨i, hi, -, hb⟩ := h
    omega
  · exact h.2

example := C114_bounded 4

/-- A step of one worker leaves the others as they are. -/
theorem others {T : Nat} {s s' : WState MShared MLock T} {t : Fin T} (h : s.stepOf maxWorker t = some s') {u : Fin T} (hu : u ≠ t) :
    s'.prog u = s.prog u ∧ s'.guards u = s.guards u := by
  unfold WState.stepOf at h
  repeat' split at h
  all_goals cases h <;> simp [hu]

/-- The workers of a reachable state of the program. -/
theorem call_workers {T : Nat} {s : CallState T} (h : s.Reachable) : WorkersReach s.workers ∧
    (∀ i, s.main = .ok i → i ≤ T ∧ ∀ (j : Nat) (hj : j < T), j < i → s.workers.Returned ⟨j, hj⟩) ∧
    (∀ e, s.main = .error e → e = .unwrap ∧ ∃ t, s.workers.Failed t) := by
  induction h with
  | refl => exact ⟨.refl, fun i hi => by cases hi; exact ⟨by omega, fun j _ h => by omega⟩, fun e he => by cases he⟩
  | tail _ hs ih =>
    obtain ⟨h1, h2, h3⟩ := ih
    cases hs with
    | worker h =>
      refine ⟨h1.tail h, fun i hi => ⟨(h2 i hi).1, fun j hj hji => ?_⟩, fun e he => by cases he⟩
      have hr := (h2 i hi).2 j hj hji
      obtain ⟨t, ht⟩ := h
      have hne : (⟨j, hj⟩ : Fin T) ≠ t := fun e => by
        subst e
        unfold WState.stepOf at ht
        rw [show WState.prog _ _ = _ from hr] at ht
        cases ht
      show _ = _
      rw [(others ht hne).1]
      exact hr
    | returned h hs =>
      refine ⟨h1, fun i hi => ?_, fun e he => by cases he⟩
      cases hi
      refine ⟨h, fun j hj hji => ?_⟩
      rcases Nat.lt_succ_iff_lt_or_eq.1 hji with hlt | rfl
      · exact (h2 _ rfl).2 j hj hlt
      · exact hs
    | failed h hs => exact ⟨h1, fun i hi => (by cases hi), fun e he => by cases he; exact ⟨rfl, _, hs⟩⟩

/-- C114 (2): `max_lyndon_word` never returns: under no schedule has the main thread joined all workers (the code starts
four). -/
theorem C114_never_returns (T : Nat) (hT : 0 < T) (s : CallState T) (h : s.Reachable) : s.main ≠ .ok T := by
  intro hmain
  obtain ⟨h1, h2, -⟩ := call_workers h
  have hall : ∀ t, s.workers.Returned t := fun t => (h2 T hmain).2 t.1 t.2 t.2
  obtain ⟨ws, hm, hy⟩ := all_words
  have hws : ∀ w ∈ ws, w ≠ [] ∧ w.length ≤ MAXW := fun w hw => ⟨((hm w).1 hw).1.1, ((hm w).1 hw).2.1⟩
  obtain ⟨st, H, K, hsim⟩ := workers_sim hws hy h1
  have hstop : ∀ t, st.prog t = .stop := fun t => by
    have := (hsim.noPanic (t := t) (by rw [show s.workers.prog t = .stop from hall t]; simp)).prog
    rw [show s.workers.prog t = .stop from hall t] at this
    exact guard_stop this.symm
  obtain ⟨done, rest, hsp, _, d, hl, hsum⟩ := cinv_steps hws (cinv_init hy) hsim.reach
  have hlocal : ∀ t, d t = 0 ∧ rest = [] := fun t => by
    have := hl t
    rw [hstop t] at this
    rcases this with ⟨h1 | h1, _⟩ | ⟨_, h2, h3⟩ | h1
    · rw [mworker_eq] at h1; cases h1
    · cases h1
    · exact ⟨h2, h3⟩
    · exact h1.elim
  have hd0 : ∑ t, d t = 0 := Finset.sum_eq_zero fun t _ => (hlocal t).1
  rw [hd0, add_zero] at hsum
  rw [(hlocal ⟨0, hT⟩).2, List.append_nil] at hsp
  subst hsp
  have := not_fits hws hm hsum
  rw [← hsim.sh, hsim.fits] at this
  cases this

example := C114_never_returns 4 (by decide) CallState.init .refl

/-- C114 (3), whatever the policy of the locks: if every worker has left its loop, has panicked, or waits for a lock that
somebody has a guard of, and some worker waits, then the total counter is a multiple of 10000. -/
theorem C114_stuck_at_report {T : Nat} (s : WState MShared MLock T) (h : WorkersReach s)
    (hall : ∀ t, s.Returned t ∨ s.Failed t ∨ s.Waits t) (hex : ∃ t, s.Waits t) : s.sh.total % 10000 = 0 := by
  classical
  obtain ⟨ws, hm, hy⟩ := all_words
  have hws : ∀ w ∈ ws, w ≠ [] ∧ w.length ≤ MAXW := fun w hw => ⟨((hm w).1 hw).1.1, ((hm w).1 hw).2.1⟩
  obtain ⟨st, H, K, hsim⟩ := workers_sim hws hy h
  by_contra hno
  -- what a waiting worker wants comes after what it holds
  have want : ∀ t, s.Waits t → ∃ l w k, s.prog t = .acq l w k ∧ (∃ u, ∃ p ∈ s.guards u, p.1 = l) ∧
      ∀ p ∈ s.guards t, rank p.1 < rank l := by
    rintro t ⟨l, w, k, hp, hu⟩
    refine ⟨l, w, k, hp, hu, fun p hpm => ?_⟩
    have lv := hsim.noPanic (t := t) (by rw [hp]; simp)
    obtain ⟨k', hk', -⟩ := guard_eq_acq (lv.prog.symm.trans hp)
    have hs := hsim.ginv.safe t
    rw [hk'] at hs
    rcases hs.2.1 with ho | ⟨_, h2, h3⟩
    · exact ho p.1 (by rw [hsim.guard_held hpm]; simp)
    · exfalso
      apply hno
      have e : (K t).total = st.sh.total := hsim.ginv.agree t .total (by simp [h2])
      rw [hsim.sh, ← e]
      exact h3
  let f : Fin T → Nat := fun t => match s.prog t with
    | .acq l _ _ => rank l
    | _ => 0
  obtain ⟨t, ht, hmax⟩ := Finset.exists_max_image (Finset.univ.filter fun t => s.Waits t) f
    (by obtain ⟨t, ht⟩ := hex; exact ⟨t, by simp [ht]⟩)
  simp only [Finset.mem_filter, Finset.mem_univ, true_and] at ht hmax
  obtain ⟨l, w, k, hp, ⟨u, p, hpu, rfl⟩, -⟩ := want t ht
  rcases hall u with hr | hf | hw
  · have lv := hsim.noPanic (t := u) (by rw [show s.prog u = .stop from hr]; simp)
    have hst : st.prog u = .stop := guard_stop (lv.prog.symm.trans hr)
    have hc := lv.careful
    rw [hst] at hc
    rw [show s.guards u = [] from hc] at hpu
    cases hpu
  · rw [hf.2] at hpu
    cases hpu
  · obtain ⟨l', w', k', hp', -, hlt⟩ := want u hw
    have h1 := hmax u hw
    have h2 := hlt p hpu
    simp only [f, hp, hp'] at h1
    omega

/-- A worker that cannot make a step has left its loop, has panicked, or waits. -/
theorem quiet_worker {T : Nat} (s : WState MShared MLock T) (t : Fin T) (h : s.stepOf maxWorker t = none) :
    s.Returned t ∨ s.Failed t ∨ s.Waits t := by
  unfold WState.stepOf at h
  match hp : s.prog t with
  | .acq l w k =>
    rw [hp] at h
    simp only at h
    by_cases ha : s.Available l w
    · rw [if_pos ha] at h
      split at h <;> cases h
    · right; right
      refine ⟨l, w, k, hp, ?_⟩
      unfold WState.Available at ha
      push Not at ha
      obtain ⟨u, p, h1, h2, -⟩ := ha
      exact ⟨u, p, h1, h2⟩
  | .rel l w k => rw [hp] at h; cases h
  | .act g k =>
    rw [hp] at h
    simp only at h
    split at h <;> cases h
  | .again => rw [hp] at h; cases h
  | .stop => exact .inl hp
  | .panic =>
    rw [hp] at h
    simp only at h
    split at h
    · rename_i hg
      exact .inr (.inl ⟨hp, hg⟩)
    · cases h

/-- C114 (4): how a call ends.  If nothing can happen any more, then either a worker has panicked and the call panics with
it, or the main thread waits for a worker that waits for a lock, and the total counter is a multiple of 10000. -/
theorem C114_outcomes (T : Nat) (hT : 0 < T) (s : CallState T) (h : s.Reachable) (hend : ∀ s', ¬ CallState.Step s s') :
    (s.main = .error .unwrap ∧ ∃ t, s.workers.Failed t) ∨
    (∃ i, ∃ hi : i < T, s.main = .ok i ∧ s.workers.Waits ⟨i, hi⟩ ∧ s.workers.sh.total % 10000 = 0) := by
  obtain ⟨h1, h2, h3⟩ := call_workers h
  have hnr := C114_never_returns T hT s h
  obtain ⟨w, m⟩ := s
  cases m with
  | error e =>
    obtain ⟨rfl, hf⟩ := h3 e rfl
    exact .inl ⟨rfl, hf⟩
  | ok i =>
    right
    have hi : i < T := lt_of_le_of_ne (h2 i rfl).1 (fun e => hnr (by rw [e]))
    have hq : ∀ t, w.Returned t ∨ w.Failed t ∨ w.Waits t := fun t => quiet_worker w t (by
      cases hs : w.stepOf maxWorker t with
      | none => rfl
      | some w' => exact absurd (CallState.Step.worker ⟨t, hs⟩) (hend _))
    have hw : w.Waits ⟨i, hi⟩ := by
      rcases hq ⟨i, hi⟩ with hr | hf | hw
      · exact absurd (CallState.Step.returned hi hr) (hend _)
      · exact absurd (CallState.Step.failed hi hf) (hend _)
      · exact hw
    exact ⟨i, hi, rfl, hw, C114_stuck_at_report w h1 hq ⟨_, hw⟩⟩

/-- What the workers do while the main thread waits. -/
theorem call_of_workers {T : Nat} {a b : WState MShared MLock T} (h : Relation.ReflTransGen (WState.Step maxWorker) a b) {i : Nat}
    (ha : CallState.Reachable ⟨a, .ok i⟩) : CallState.Reachable ⟨b, .ok i⟩ := by
  induction h with
  | refl => exact ha
  | tail _ hs ih => exact ih.tail (.worker hs)

/-- A worker that has panicked can always go on until it has dropped all its guards. -/
theorem drops {T : Nat} (t : Fin T) (n : Nat) : ∀ (w : WState MShared MLock T), w.prog t = .panic → (w.guards t).length = n →
    ∃ w', Relation.ReflTransGen (WState.Step maxWorker) w w' ∧ w'.Failed t := by
  induction n with
  | zero => intro w hp hg; exact ⟨w, .refl, hp, List.length_eq_zero_iff.1 hg⟩
  | succ n ih =>
    intro w hp hg
    obtain ⟨⟨l, m⟩, gs, e⟩ : ∃ p gs, w.guards t = p :: gs := by
      cases h : w.guards t with
      | nil => rw [h] at hg; cases hg
      | cons p gs => exact ⟨p, gs, rfl⟩
    have hs : w.stepOf maxWorker t = some { w with
        poisoned := Function.update w.poisoned l (w.poisoned l || m)
        guards := Function.update w.guards t gs } := by
      unfold WState.stepOf
      rw [hp]
      simp only [e]
    rw [e, List.length_cons] at hg
    obtain ⟨w', h1, h2⟩ := ih { w with
        poisoned := Function.update w.poisoned l (w.poisoned l || m)
        guards := Function.update w.guards t gs } hp (by simp only [Function.update_self]; omega)
    exact ⟨w', .head ⟨t, hs⟩ h1, h2⟩

/-- C114 (5): the call can panic, with any number of workers. -/
theorem C114_can_panic (T : Nat) (hT : 0 < T) : ∃ s : CallState T, s.Reachable ∧ s.main = .error .unwrap := by
  obtain ⟨ws, hm, hy⟩ := all_words
  have hws : ∀ w ∈ ws, w ≠ [] ∧ w.length ≤ MAXW := fun w hw => ⟨((hm w).1 hw).1.1, ((hm w).1 hw).2.1⟩
  obtain ⟨w, h1, h2⟩ := can_panic (T := T) ⟨0, hT⟩ hws hm hy fun _ _ => local_start
  obtain ⟨w', h3, h4⟩ := drops ⟨0, hT⟩ _ w h2 rfl
  exact ⟨⟨w', .error .unwrap⟩, (call_of_workers (h1.trans h3) .refl).tail (.failed hT h4), rfl⟩

example := C114_can_panic 4 (by decide)

/-- C114 (6): with two or more workers (the bound 6000 only keeps the proof short) the call can also hang: a state is
reachable in which every worker waits for a lock and nothing can happen any more. -/
theorem C114_can_hang (T : Nat) (hT : 2 ≤ T) (hT' : T ≤ 6000) : ∃ s : CallState T, s.Reachable ∧ s.main = .ok 0 ∧
    (∀ t, s.workers.Waits t) ∧ ∀ s', ¬ CallState.Step s s' := by
  obtain ⟨ws, hm, hy⟩ := all_words
  have hws : ∀ w ∈ ws, w ≠ [] ∧ w.length ≤ MAXW := fun w hw => ⟨((hm w).1 hw).1.1, ((hm w).1 hw).2.1⟩
  obtain ⟨st, hr, hb, rest, hyr, hlen⟩ := deadlock hT hT' hm hy
  have hf := fits_few hws (cinv_steps hws (cinv_init hy) hr) hyr hlen
  obtain ⟨w, H, K, h1, h2, h3, h4⟩ := workers_up hws hy hr hf
  have hw : ∀ t, w.stepOf maxWorker t = none ∧ ∃ l m k, w.prog t = .acq l m k := by
    intro t
    obtain ⟨hn, l, m, k, hp⟩ := hb t
    have lv := h2.noPanic (h3 t)
    have hwp : w.prog t = .acq l m (k.guard i32Fits) := by rw [lv.prog, hp]; rfl
    refine ⟨?_, l, m, _, hwp⟩
    have hna : ¬ w.Available l m := by
      intro ha
      have := h2.available ha (h4 l)
      cases m
      · simp [TState.stepOf, hp, Prog.step, this.1] at hn
      · simp [TState.stepOf, hp, Prog.step, this.1] at hn
    unfold WState.stepOf
    rw [hwp]
    simp only [if_neg hna]
  have hwait : ∀ t, w.Waits t := by
    intro t
    obtain ⟨hn, l, m, k, hp⟩ := hw t
    rcases quiet_worker w t hn with hr | hf | hq
    · rw [show w.prog t = .stop from hr] at hp; cases hp
    · rw [hf.1] at hp; cases hp
    · exact hq
  refine ⟨⟨w, .ok 0⟩, call_of_workers h1 .refl, rfl, hwait, ?_⟩
  rintro s' hs
  cases hs with
  | worker h => obtain ⟨t, ht⟩ := h; rw [(hw t).1] at ht; cases ht
  | returned h hs =>
    obtain ⟨l, m, k, hp, -⟩ := hwait ⟨0, h⟩
    rw [show w.prog _ = .stop from hs] at hp
    cases hp
  | failed h hs =>
    obtain ⟨l, m, k, hp, -⟩ := hwait ⟨0, h⟩
    rw [hs.1] at hp
    cases hp

/-- The two outcomes for the four workers of the code. -/
example : ∃ s : CallState 4, s.Reachable ∧ ∃ i, s.main = .ok i ∧ s.workers.sh.total % 10000 = 0 := by
  obtain ⟨s, h1, h2, h3, h4⟩ := C114_can_hang 4 (by decide) (by decide)
  refine ⟨s, h1, ?_⟩
  rcases C114_outcomes 4 (by decide) s h1 h4 with ⟨h5, -⟩ | ⟨i, hi, h5, -, h6⟩
  · rw [h2] at h5; cases h5
  · exact ⟨i, h5, h6⟩

example : ∃ s : CallState 4, s.Reachable ∧ s.workers.sh.total % 10000 = 0 := by
  obtain ⟨s, h1, -, h3, -⟩ := C114_can_hang 4 (by decide) (by decide)
  exact ⟨s, h1, C114_stuck_at_report s.workers (call_workers h1).1 (fun t => .inr (.inr (h3 t))) ⟨0, h3 0⟩⟩

/-- C114 (7): a single worker never waits, so with one worker every run ends with a panic. -/
theorem C114_one_worker (s : CallState 1) (h : s.Reachable) :
    ¬ s.workers.Waits 0 ∧ ((∀ s', ¬ CallState.Step s s') → s.main = .error .unwrap) := by
  obtain ⟨ws, hm, hy⟩ := all_words
  have hws : ∀ w ∈ ws, w ≠ [] ∧ w.length ≤ MAXW := fun w hw => ⟨((hm w).1 hw).1.1, ((hm w).1 hw).2.1⟩
  have hno : ¬ s.workers.Waits 0 := by
    rintro ⟨l, m, k, hp, u, p, hpu, rfl⟩
    obtain rfl : u = 0 := Subsingleton.elim _ _
    obtain ⟨st, H, K, hsim⟩ := workers_sim hws hy (call_workers h).1
    have lv := hsim.noPanic (t := 0) (by rw [hp]; simp)
    obtain ⟨k', hk', -⟩ := guard_eq_acq (lv.prog.symm.trans hp)
    have hs := hsim.ginv.safe 0
    rw [hk'] at hs
    have h1 := hs.1
    rw [hsim.guard_held hpu] at h1
    cases h1
  refine ⟨hno, fun hend => ?_⟩
  rcases C114_outcomes 1 (by decide) s h hend with ⟨h1, -⟩ | ⟨i, hi, -, h2, -⟩
  · exact h1
  · obtain rfl : i = 0 := by omega
    exact absurd h2 hno

example := C114_one_worker CallState.init .refl

/-- C114 (8): the cause.  If a worker has panicked or a lock is poisoned, some `i32` counter has reached its maximum; and
only the number of words, the total and the three outcome counters can be poisoned. -/
theorem C114_cause {T : Nat} (s : CallState T) (h : s.Reachable) :
    ((∃ t, s.workers.prog t = .panic) ∨ (∃ l, s.workers.poisoned l = true) →
      ∃ v ∈ [s.workers.sh.num, s.workers.sh.bwtWin, s.workers.sh.bbwtWin, s.workers.sh.tie], 2 ^ 31 - 1 ∈ v) ∧
    (∀ l, s.workers.poisoned l = true → l ∈ [MLock.num, .total, .bwtWin, .bbwtWin, .tie]) := by
  obtain ⟨ws, hm, hy⟩ := all_words
  have hws : ∀ w ∈ ws, w ≠ [] ∧ w.length ≤ MAXW := fun w hw => ⟨((hm w).1 hw).1.1, ((hm w).1 hw).2.1⟩
  obtain ⟨st, H, K, hsim⟩ := workers_sim hws hy (call_workers h).1
  refine ⟨fun hc => ?_, fun l hl => ?_⟩
  · have hfull : Full s.workers.sh := by
      rcases hc with ⟨t, ht⟩ | ⟨l, hl⟩
      · rcases hsim.thr t with lv | dd
        · have hs := hsim.ginv.safe t
          rw [guard_panic (lv.prog.symm.trans ht)] at hs
          exact hs.elim
        · exact dd.full
      · exact (hsim.pois l hl).2
    obtain ⟨c, hc, i, hi⟩ := hfull
    have key : ∀ v : List Nat, v.getD i 0 = 2 ^ 31 - 1 → 2 ^ 31 - 1 ∈ v := by
      intro v hv
      rw [List.getD_eq_getElem?_getD] at hv
      cases hg : v[i]? with
      | none => rw [hg] at hv; simp at hv
      | some x => rw [hg] at hv; simp only [Option.getD_some] at hv; rw [← hv]; exact List.mem_of_getElem? hg
    match c, hc with
    | 0, _ => exact ⟨_, by simp, key _ hi⟩
    | 1, _ => exact ⟨_, by simp, key _ hi⟩
    | 2, _ => exact ⟨_, by simp, key _ hi⟩
    | 3, _ => exact ⟨_, by simp, key _ hi⟩
  · have := (hsim.pois l hl).1
    simpa [PS] using this

example : ∃ s : CallState 4, s.Reachable ∧
    ∃ v ∈ [s.workers.sh.num, s.workers.sh.bwtWin, s.workers.sh.bbwtWin, s.workers.sh.tie], 2 ^ 31 - 1 ∈ v := by
  obtain ⟨s, h1, h2⟩ := C114_can_panic 4 (by decide)
  obtain ⟨t, ht, -⟩ := ((call_workers h1).2.2 _ h2).2
  exact ⟨s, h1, (C114_cause s h1).1 (.inl ⟨t, ht⟩)⟩

/-- C114 (9): even after panics, whenever no worker has a write guard of the record, each entry of the record is either
still empty or a text that has been seen, with its numbers of runs. -/
theorem C114_records_genuine {T : Nat} (s : CallState T) (h : s.Reachable)
    (hw : ∀ t, (MLock.bestBwt, true) ∉ s.workers.guards t) (n : Nat) (hn : 1 ≤ n) (hn' : n ≤ 40) :
    (s.workers.sh.bestBwt.getD (n - 1) 0 = 0 ∧ s.workers.sh.bestBbwt.getD (n - 1) 0 = 0 ∧ s.workers.sh.bestText.getD (n - 1) [] = [])
    ∨ (s.workers.sh.bestBbwt.getD (n - 1) 0 < s.workers.sh.bestBwt.getD (n - 1) 0 ∧
      ∃ w, Candidate n w (s.workers.sh.bestText.getD (n - 1) []) (s.workers.sh.bestBwt.getD (n - 1) 0)
        (s.workers.sh.bestBbwt.getD (n - 1) 0)) := by
  obtain ⟨ws, hm, hy⟩ := all_words
  have hws : ∀ w ∈ ws, w ≠ [] ∧ w.length ≤ MAXW := fun w hw => ⟨((hm w).1 hw).1.1, ((hm w).1 hw).2.1⟩
  obtain ⟨st, H, K, hsim⟩ := workers_sim hws hy (call_workers h).1
  have hrec : RecInv ws (comp .bestBwt st.sh) := by
    refine hsim.ginv.data .bestBwt fun t ht => ?_
    rcases hsim.guarded ht with hg | hg
    · exact hw t hg
    · have := (hsim.pois _ hg).1
      simp [PS] at this
  rw [← hsim.sh] at hrec
  have hwit := hrec.2.2.2 (n - 1) (by have : MAXW = 40 := rfl; omega)
  rcases hwit with hwit | ⟨w, hw, hl, ht, hb, hc, hlt⟩
  · exact Or.inl hwit
  · refine Or.inr ⟨hlt, w, ((hm w).1 hw).1, ((hm w).1 hw).2.2, by omega, ?_, ?_, ?_⟩
    · simp only [conjs, List.mem_map, List.mem_range, List.length_map] at ht
      obtain ⟨j, hj, e⟩ := ht
      exact ⟨j, by omega, e.symm⟩
    · obtain ⟨t, ht, -⟩ := bwtByMatrixNaive_ok (w.map UInt8.ofNat)
      exact ⟨t, ht, by rw [show s.workers.sh.bestBwt.getD (n - 1) 0 = _ from hb, bwtRuns, ht]; rfl⟩
    · have hne : s.workers.sh.bestText.getD (n - 1) [] ≠ [] := conjs_ne (hws w hw).1 _ ht
      obtain ⟨t, ht⟩ := bbwt_total hne
      exact ⟨t, ht, by rw [show s.workers.sh.bestBbwt.getD (n - 1) 0 = _ from hc, bbwtRuns]; erw [ht]; rfl⟩

/-- A state of four workers in which something has been recorded. -/
example : ∃ s : CallState 4, s.Reachable ∧ 0 < recorded s.workers.sh 40 ∧
    ∃ w, Candidate 40 w (s.workers.sh.bestText.getD 39 []) (s.workers.sh.bestBwt.getD 39 0) (s.workers.sh.bestBbwt.getD 39 0) := by
  obtain ⟨ws, hm, hy⟩ := all_words
  have hws : ∀ w ∈ ws, w ≠ [] ∧ w.length ≤ MAXW := fun w hw => ⟨((hm w).1 hw).1.1, ((hm w).1 hw).2.1⟩
  obtain ⟨s, s', hr, hs, hl, hl', h1, h2, rest, hyr, hlen⟩ := lost_update (T := 4) (by decide) hm hy
  have hr' := hr.trans hs
  have hf := fits_few hws (cinv_steps hws (cinv_init hy) hr') hyr hlen
  have hf0 : i32Fits s.sh = true := by
    have hc := cinv_steps hws (cinv_init hy) hr
    clear hl' h2 hyr hr'
    induction hs with
    | refl => exact hf
    | tail hab hbc ih =>
      have hcb := cinv_steps hws hc hab
      exact ih (fits_near (hcb.step hws hbc).2 hf)
  obtain ⟨w, H, K, g1, g2, g3, g4⟩ := workers_up hws hy hr hf0
  have hre := call_of_workers g1 (i := 0) .refl
  have hpos : 0 < recorded w.sh 40 := by
    show 0 < diff w.sh 39
    rw [g2.sh]; omega
  refine ⟨⟨w, .ok 0⟩, hre, hpos, ?_⟩
  rcases C114_records_genuine ⟨w, .ok 0⟩ hre (fun t ht => by
    have := g2.guard_held ht
    rw [g2.ginv.free (by rw [hl]; rfl) t] at this
    cases this) 40 (by decide) (by decide) with ⟨h3, h4, -⟩ | ⟨-, h3⟩
  · have h5 : recorded w.sh 40 = 0 := by
      show w.sh.bestBwt.getD 39 0 - w.sh.bestBbwt.getD 39 0 = 0
      rw [show w.sh.bestBwt.getD 39 0 = 0 from h3, show w.sh.bestBbwt.getD 39 0 = 0 from h4]
    omega
  · exact h3

end Verif.Props
