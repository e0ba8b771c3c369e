import Verif.Model.Poison
import Verif.Lemmas.MaxMany

/-! # Panicking workers of `max_lyndon_word` -/

namespace Verif.Max

open Verif Spec Model Par

/-- The locks that can be poisoned. -/
def PS (l : MLock) : Prop := l = .num ∨ l = .total ∨ l = .bwtWin ∨ l = .bbwtWin ∨ l = .tie

/-- Everything held is a lock that can be poisoned, in write mode. -/
def Dirty (hs : List (MLock × Bool)) : Prop := ∀ p ∈ hs, PS p.1 ∧ p.2 = true

/-- Where the program may panic, all its guards are in write mode and of the locks `PS`. -/
def Careful : MProg → List (MLock × Bool) → Prop
  | .acq l w k, hs => (PS l → Dirty hs) ∧ Careful k ((l, w) :: hs)
  | .rel l w k, hs => ∃ tl, hs = (l, w) :: tl ∧ Careful k tl
  | .act g k, hs => (Dirty hs ∨ ∀ s s', g s = .ok s' → i32Fits s = true → i32Fits s' = true) ∧ ∀ s, Careful (k s) hs
  | .again, hs => hs = []
  | .stop, hs => hs = []
  | .panic, _ => True

theorem fits_of_cnt {s s' : MShared} (h : cnt s' = cnt s) (hf : i32Fits s = true) : i32Fits s' = true := by
  rw [fits_iff] at hf ⊢
  rw [h]
  exact hf

section careful

variable {k : MProg}

theorem careful_storeBest {b c i : Nat} {t : List UInt8} (h : Careful k []) : Careful (storeBest b c i t k) [] := by
  unfold storeBest
  refine ⟨by simp [PS], by simp [PS], by simp [PS], by simp [PS], .inr fun s s' hs hf => ?_, fun _ =>
    ⟨.inr fun s s' hs hf => ?_, fun _ => ⟨.inr fun s s' hs hf => ?_, fun _ => ⟨_, rfl, _, rfl, _, rfl, _, rfl, h⟩⟩⟩⟩
  all_goals
    refine fits_of_cnt ?_ hf
    simp only [wr] at hs
    split at hs
    · rw [ok_bind, pure_ok] at hs
      injection hs with hs
      subst hs
      exact cnt_record _ _ _ _
    · cases hs

theorem careful_considerBest {b c i : Nat} {t : List UInt8} (h : Careful k []) : Careful (considerBest b c i t k) [] := by
  unfold considerBest
  split
  · refine ⟨by simp [PS], by simp [PS], by simp [PS], by simp [PS], .inr fun s s' hs hf => ?_, fun s => ⟨_, rfl, _, rfl, _, rfl, _, rfl, ?_⟩⟩
    · beta_reduce at hs
      cases hn : needsChange b c i t s with
      | error e => rw [hn] at hs; cases hs
      | ok x => rw [hn, ok_bind, pure_ok] at hs; injection hs with hs; subst hs; exact hf
    · split
      · exact careful_storeBest h
      · exact h
  · exact h

theorem careful_conjugateBlock {b i : Nat} {t : List UInt8} (h : Careful k []) : Careful (conjugateBlock b i t k) [] := by
  unfold conjugateBlock
  split
  · trivial
  · refine ⟨fun _ => by simp [Dirty], fun _ => by simp [Dirty, PS], fun _ => by simp [Dirty, PS], .inl (by simp [Dirty, PS]),
      fun _ => ⟨_, rfl, _, rfl, _, rfl, careful_considerBest h⟩⟩

theorem careful_conjugateLoop {b i : Nat} (h : Careful k []) (fuel : Nat) : ∀ it, Careful (conjugateLoop b i fuel it k) [] := by
  induction fuel with
  | zero => intro it; trivial
  | succ fuel ih =>
    intro it
    unfold conjugateLoop
    split
    · trivial
    · exact h
    · exact careful_conjugateBlock (ih _)

theorem careful_reportTexts {hs : List (MLock × Bool)} (h : Careful k hs) (ls : List Nat) : Careful (reportTexts k ls) hs := by
  induction ls with
  | nil => exact h
  | cons l ls ih =>
    refine ⟨by simp [PS], .inr fun s s' hs hf => ?_, fun _ => ⟨.inr fun s s' hs hf => ?_, fun _ => ⟨_, rfl, ih⟩⟩⟩
    · rw [printCounts_inv hs]; exact fits_of_cnt (cnt_printed _ _) hf
    · rw [printText_inv hs]; exact fits_of_cnt (cnt_printed _ _) hf

theorem careful_checkReport : Careful checkReport [] := by
  unfold checkReport
  refine ⟨fun _ => by simp [Dirty], .inl (by simp [Dirty, PS]), fun s => ?_⟩
  beta_reduce
  split
  · unfold Model.report
    refine ⟨fun _ => by simp [Dirty, PS], fun _ => by simp [Dirty, PS], fun _ => by simp [Dirty, PS], fun _ => by simp [Dirty, PS],
      by simp [PS], by simp [PS], by simp [PS], .inr fun s s' hs hf => ?_, fun _ => careful_reportTexts ?_ _⟩
    · unfold printTotal at hs
      rw [pure_ok] at hs
      injection hs with hs
      subst hs
      exact fits_of_cnt (cnt_printed _ _) hf
    · exact ⟨_, rfl, _, rfl, _, rfl, _, rfl, _, rfl, _, rfl, _, rfl, _, rfl, rfl⟩
  · exact ⟨_, rfl, rfl⟩

theorem careful_countWord {i : Nat} (h : Careful k []) : Careful (countWord i k) [] := by
  unfold countWord
  exact ⟨fun _ => by simp [Dirty], .inl (by simp [Dirty, PS]), fun _ => ⟨fun _ => by simp [Dirty, PS], .inl (by simp [Dirty, PS]), fun _ => ⟨_, rfl, _, rfl, h⟩⟩⟩

theorem careful_processWord (w : List Nat) : Careful (processWord w) [] := by
  unfold processWord
  dsimp only
  split
  · trivial
  · split
    · exact careful_conjugateLoop (careful_countWord careful_checkReport) _ _
    · trivial

theorem careful_mworker : Careful mworker [] := by
  unfold mworker
  refine ⟨by simp [PS], .inr fun s s' hs hf => ?_, fun s => ⟨_, rfl, ?_⟩⟩
  · beta_reduce at hs
    cases hn : s.iter.next with
    | error e => rw [hn] at hs; cases hs
    | ok x =>
      rw [hn, ok_bind] at hs
      obtain ⟨x, it⟩ := x
      simp only [pure_ok] at hs
      injection hs with hs
      subst hs
      exact fits_of_cnt (cnt_iter _ _) hf
  · split
    · exact careful_processWord _
    · rfl
    · trivial

end careful

/-! ### Simulation by the workers without overflow checks -/

section sim

variable {T : Nat} {ws : List (List Nat)}

/-- A worker that has not panicked. -/
structure Live (w : WState MShared MLock T) (st : MState T) (H : Fin T → MLock → Option Bool) (t : Fin T) : Prop where
  prog : w.prog t = (st.prog t).guard i32Fits
  held : H t = held (w.guards t)
  careful : Careful (st.prog t) (w.guards t)
  nodup : (locksOf (w.guards t)).Nodup

/-- A worker that has panicked: its locks stay with it in the simulating run. -/
structure Dead (w : WState MShared MLock T) (H : Fin T → MLock → Option Bool) (t : Fin T) : Prop where
  prog : w.prog t = .panic
  full : Full w.sh
  sub : ∀ p ∈ w.guards t, H t p.1 = some p.2
  gone : ∀ l m, H t l = some m → PS l ∧ m = true ∧ ((l, true) ∈ w.guards t ∨ w.poisoned l = true)

structure Sim (ws : List (List Nat)) (w : WState MShared MLock T) (st : MState T) (H : Fin T → MLock → Option Bool)
    (K : Fin T → MShared) : Prop where
  reach : FreeReachable st
  ginv : GInv comp (inv ws) ord st H K
  sh : w.sh = st.sh
  fits : i32Fits w.sh = true
  thr : ∀ t, Live w st H t ∨ Dead w H t
  pois : ∀ l, w.poisoned l = true → PS l ∧ Full w.sh

theorem held_mem {hs : List (MLock × Bool)} (hn : (locksOf hs).Nodup) {l : MLock} {m : Bool} :
    held hs l = some m ↔ (l, m) ∈ hs := by
  induction hs with
  | nil => simp [held]
  | cons p hs ih =>
    obtain ⟨a, b⟩ := p
    simp only [locksOf, List.map_cons, List.nodup_cons] at hn
    simp only [held, List.mem_cons, Prod.mk.injEq]
    by_cases h : l = a
    · subst h
      rw [if_pos rfl]
      have : (l, m) ∉ hs := fun hm => hn.1 (List.mem_map.2 ⟨_, hm, rfl⟩)
      simp [this, eq_comm]
    · rw [if_neg h, ih hn.2]
      simp [h]

theorem guard_eq_acq {p : MProg} {l : MLock} {w : Bool} {k : MProg} (h : p.guard i32Fits = .acq l w k) :
    ∃ k', p = .acq l w k' ∧ k = k'.guard i32Fits := by
  cases p <;> simp only [Prog.guard] at h <;> cases h
  exact ⟨_, rfl, rfl⟩

theorem guard_eq_rel {p : MProg} {l : MLock} {w : Bool} {k : MProg} (h : p.guard i32Fits = .rel l w k) :
    ∃ k', p = .rel l w k' ∧ k = k'.guard i32Fits := by
  cases p <;> simp only [Prog.guard] at h <;> cases h
  exact ⟨_, rfl, rfl⟩

variable {w w' : WState MShared MLock T} {st : MState T} {H : Fin T → MLock → Option Bool} {K : Fin T → MShared}

/-- Whoever holds a lock in the simulating run has a guard of it, or it is poisoned. -/
theorem Sim.guarded (h : Sim ws w st H K) {t : Fin T} {l : MLock} {m : Bool} (hl : H t l = some m) :
    (l, m) ∈ w.guards t ∨ w.poisoned l = true := by
  rcases h.thr t with lv | dd
  · rw [lv.held, held_mem lv.nodup] at hl
    exact .inl hl
  · obtain ⟨-, rfl, h3⟩ := dd.gone l m hl
    exact h3

theorem Sim.guard_held (h : Sim ws w st H K) {t : Fin T} {p : MLock × Bool} (hp : p ∈ w.guards t) : H t p.1 = some p.2 := by
  rcases h.thr t with lv | dd
  · rw [lv.held, held_mem lv.nodup]
    exact hp
  · exact dd.sub p hp

theorem Sim.available (h : Sim ws w st H K) {l : MLock} {m : Bool} (ha : w.Available l m) (hp : w.poisoned l = false) :
    if m then st.locks l = (0, false) ∧ ((0, true) : Holds) = (0, true)
      else (st.locks l).2 = false ∧ (((st.locks l).1 + 1, false) : Holds) = ((st.locks l).1 + 1, false) := by
  have key : ∀ u x, H u l = some x → m = false ∧ x = false := by
    intro u x hx
    rcases h.guarded hx with h1 | h1
    · exact ha u _ h1 rfl
    · rw [hp] at h1; cases h1
  have h2 : (st.locks l).2 = false := by
    rw [Bool.eq_false_iff]
    intro hw
    obtain ⟨u, hu⟩ := (h.ginv.writer l).1 hw
    have := (key u _ hu).2
    cases this
  cases m
  · simp [h2]
  · have h1 : (st.locks l).1 = 0 := by
      rw [h.ginv.readers, Finset.card_eq_zero, Finset.filter_eq_empty_iff]
      intro u _ hu
      have := (key u _ hu).1
      cases this
    simp only [if_true, and_true]
    exact Prod.ext h1 h2

/-- Only the thread that makes the step changes. -/
theorem thr_other {t : Fin T} {st' : MState T} {H' : Fin T → MLock → Option Bool} (h : ∀ t, Live w st H t ∨ Dead w H t)
    (hp : ∀ u, u ≠ t → w'.prog u = w.prog u) (hg : ∀ u, u ≠ t → w'.guards u = w.guards u)
    (hsp : ∀ u, u ≠ t → st'.prog u = st.prog u) (hH : ∀ u, u ≠ t → H' u = H u)
    (hpo : ∀ l, w.poisoned l = true → w'.poisoned l = true) (hfull : Full w.sh → Full w'.sh)
    (ht : Live w' st' H' t ∨ Dead w' H' t) : ∀ u, Live w' st' H' u ∨ Dead w' H' u := by
  intro u
  by_cases hu : u = t
  · subst hu; exact ht
  · rcases h u with lv | dd
    · left
      exact ⟨by rw [hp u hu, hsp u hu, lv.prog], by rw [hH u hu, hg u hu, lv.held], by rw [hsp u hu, hg u hu]; exact lv.careful,
        by rw [hg u hu]; exact lv.nodup⟩
    · right
      refine ⟨by rw [hp u hu, dd.prog], hfull dd.full, fun p hpm => ?_, fun l m hl => ?_⟩
      · rw [hH u hu]; rw [hg u hu] at hpm; exact dd.sub p hpm
      · rw [hH u hu] at hl
        obtain ⟨h1, h2, h3⟩ := dd.gone l m hl
        exact ⟨h1, h2, by rw [hg u hu]; exact h3.imp id (hpo l)⟩

/-- A worker dies: nothing changes in the simulating run. -/
theorem Sim.die (h : Sim ws w st H K) {t : Fin T} (lv : Live w st H t) (hd : Dirty (w.guards t)) (hf : Full w.sh) :
    Sim ws { w with prog := Function.update w.prog t .panic } st H K := by
  refine ⟨h.reach, h.ginv, h.sh, h.fits, thr_other (t := t) h.thr ?_ ?_ ?_ ?_ ?_ ?_ ?_, h.pois⟩
  · intro u hu; simp [hu]
  · intro u hu; rfl
  · intro u hu; rfl
  · intro u hu; rfl
  · intro l hl; exact hl
  · intro hl; exact hl
  · right
    refine ⟨by simp, hf, fun p hp => h.guard_held hp, fun l m hl => ?_⟩
    rw [lv.held, held_mem lv.nodup] at hl
    have := hd _ hl
    obtain ⟨h1, h2⟩ := this
    simp only at h1 h2
    subst h2
    exact ⟨h1, rfl, .inl hl⟩

/-- What a step of the workers is in the simulating run: the same step of the same thread, or nothing if the thread panics
or drops a guard. -/
inductive Kind (w w' : WState MShared MLock T) (st st' : MState T) (t : Fin T) : Prop where
  | run (hp : w.prog t ≠ .panic) (hs : TState.stepOf mworker st t = some st')
      (hg : (w'.guards t).length ≤ (w.guards t).length + 1)
  | die (hp : w.prog t ≠ .panic) (hst : st' = st) (hp' : w'.prog t = .panic) (hg : w'.guards t = w.guards t)
      (hb : (∃ l m k, st.prog t = .acq l m k) ∨ ∃ g k, st.prog t = .act g k)
  | drop (hst : st' = st) (hp : w.prog t = .panic) (hp' : w'.prog t = .panic)
      (hg : (w'.guards t).length < (w.guards t).length)

theorem Sim.stepKind (hws : ∀ w ∈ ws, w ≠ [] ∧ w.length ≤ MAXW)
    (hy : Yields LyndonWordGenerator.next (LyndonWordGenerator.new MAXW 2) ws) (h : Sim ws w st H K)
    {t : Fin T} (ht : WState.stepOf maxWorker w t = some w') :
    ∃ st' H' K', Sim ws w' st' H' K' ∧ (∀ u, u ≠ t → w'.prog u = w.prog u ∧ w'.guards u = w.guards u) ∧ Kind w w' st st' t := by
  have hnear : ∀ st', TState.Step mworker st st' → Near st.sh st'.sh := fun st' hst =>
    ((cinv_steps hws (cinv_init hy) h.reach).step hws hst).2
  rcases h.thr t with lv | dd
  · have hsafe := h.ginv.safe t
    have hnp : w.prog t ≠ .panic := fun e => by
      rw [lv.prog] at e
      rw [guard_panic e] at hsafe
      exact hsafe
    unfold WState.stepOf at ht
    rw [lv.prog] at ht
    have hcare := lv.careful
    match hp : st.prog t with
    | .acq l m k =>
      rw [hp] at ht hcare hsafe
      simp only [Prog.guard] at ht
      split at ht
      · rename_i ha
        split at ht
        · rename_i hpo
          cases ht
          exact ⟨st, H, K, h.die lv (hcare.1 (h.pois l hpo).1) (h.pois l hpo).2, fun u hu => by simp [hu],
            .die hnp rfl (by simp) rfl (.inl ⟨l, m, k, hp⟩)⟩
        · rename_i hpo
          rw [Bool.not_eq_true] at hpo
          cases ht
          have hav := h.available ha hpo
          have hnl : l ∉ locksOf (w.guards t) := by
            have := hsafe.1
            rw [lv.held] at this
            exact held_none.1 this
          refine ⟨⟨st.sh, Function.update st.locks l (if m then (0, true) else ((st.locks l).1 + 1, false)), Function.update st.prog t k⟩,
            Function.update H t (Function.update (H t) l (some m)), Function.update K t st.sh, ⟨h.reach.tail ⟨t, ?hst⟩,
            h.ginv.acq hp ?_, h.sh, h.fits, thr_other (t := t) h.thr ?_ ?_ ?_ ?_ ?_ ?_ (.inl ⟨?_, ?_, ?_, ?_⟩), h.pois⟩,
            fun u hu => by simp [hu], .run hnp ?hst (by simp)⟩
          case hst =>
            cases m
            · simp [TState.stepOf, hp, Prog.step, hav.1]
            · simp [TState.stepOf, hp, Prog.step, hav.1]
          · cases m
            · simpa using hav.1
            · simpa using hav.1
          · intro u hu; simp [hu]
          · intro u hu; simp [hu]
          · intro u hu; simp [hu]
          · intro u hu; simp [hu]
          · intro l hl; exact hl
          · intro hl; exact hl
          · simp
          · simp only [Function.update_self]
            rw [lv.held, held_push]
          · simpa using hcare.2
          · simp only [Function.update_self, locksOf, List.map_cons, List.nodup_cons]
            exact ⟨hnl, lv.nodup⟩
      · cases ht
    | .rel l m k =>
      rw [hp] at ht hcare hsafe
      simp only [Prog.guard] at ht
      cases ht
      obtain ⟨tl, hg, hc⟩ := hcare
      have hnd := lv.nodup
      rw [hg] at hnd
      simp only [locksOf, List.map_cons, List.nodup_cons] at hnd
      have he : (w.guards t).erase (l, m) = tl := by rw [hg]; simp
      refine ⟨⟨st.sh, Function.update st.locks l (if m then ((st.locks l).1, false) else ((st.locks l).1 - 1, (st.locks l).2)),
          Function.update st.prog t k⟩,
          Function.update H t (Function.update (H t) l none), K, ⟨h.reach.tail ⟨t, ?hst⟩,
          h.ginv.rel hp ?_, h.sh, h.fits, thr_other (t := t) h.thr ?_ ?_ ?_ ?_ ?_ ?_ (.inl ⟨?_, ?_, ?_, ?_⟩), h.pois⟩,
          fun u hu => by simp [hu], .run hnp ?hst (by
            simp only [Function.update_self]
            exact (List.length_erase_le).trans (by omega))⟩
      case hst => cases m <;> simp [TState.stepOf, hp, Prog.step]
      · cases m <;> simp
      · intro u hu; simp [hu]
      · intro u hu; simp [hu]
      · intro u hu; simp [hu]
      · intro u hu; simp [hu]
      · intro l hl; exact hl
      · intro hl; exact hl
      · simp
      · simp only [Function.update_self, he]
        rw [lv.held, hg, held_pop hnd.1]
      · simpa [he] using hc
      · simp only [Function.update_self, he]
        exact hnd.2
    | .act g k =>
      rw [hp] at ht hcare hsafe
      simp only [Prog.guard] at ht
      obtain ⟨s', hg, hginv⟩ := h.ginv.act hp
      have hst : TState.stepOf mworker st t = some ⟨s', st.locks, Function.update st.prog t (k st.sh)⟩ := by
        simp [TState.stepOf, hp, Prog.step, hg]
      have hn := hnear _ ⟨t, hst⟩
      rw [h.sh, hg] at ht
      simp only [ok_bind] at ht
      by_cases hfit : i32Fits s' = true
      · rw [if_pos hfit] at ht
        simp only [pure_ok] at ht
        cases ht
        have hfull : Full w.sh → Full s' := fun hf => full_near hn hfit (h.sh ▸ hf)
        refine ⟨_, H, _, ⟨h.reach.tail ⟨t, hst⟩, hginv, rfl, hfit, thr_other (t := t) h.thr ?_ ?_ ?_ ?_ ?_ hfull (.inl ⟨?_, ?_, ?_, ?_⟩),
          fun l hl => ⟨(h.pois l hl).1, hfull (h.pois l hl).2⟩⟩, fun u hu => by simp [hu], .run hnp hst (by simp)⟩
        · intro u hu; simp [hu]
        · intro u hu; rfl
        · intro u hu; simp [hu]
        · intro u hu; rfl
        · intro l hl; exact hl
        · simp
        · exact lv.held
        · simpa using hcare.2 st.sh
        · exact lv.nodup
      · rw [if_neg hfit] at ht
        simp only at ht
        cases ht
        rw [Bool.not_eq_true] at hfit
        have hdirty : Dirty (w.guards t) := by
          rcases hcare.1 with hd | hd
          · exact hd
          · have := hd _ _ hg (h.sh ▸ h.fits)
            rw [hfit] at this
            cases this
        have hdie := h.die lv hdirty (h.sh ▸ full_of hn (h.sh ▸ h.fits) hfit)
        rw [h.sh] at hdie
        exact ⟨st, H, K, hdie, fun u hu => by simp [hu], .die hnp rfl (by simp) rfl (.inr ⟨g, k, hp⟩)⟩
    | .again =>
      rw [hp] at ht hcare hsafe
      simp only [Prog.guard] at ht
      cases ht
      have hst : TState.stepOf mworker st t = some ⟨st.sh, st.locks, Function.update st.prog t mworker⟩ := by
        simp only [TState.stepOf, hp, Prog.step]
      refine ⟨_, H, K, ⟨h.reach.tail ⟨t, hst⟩,
        h.ginv.again (fun s => sf_mworker hws s) hp, h.sh, h.fits, thr_other (t := t) h.thr ?_ ?_ ?_ ?_ ?_ ?_ (.inl ⟨?_, ?_, ?_, ?_⟩), h.pois⟩,
        fun u hu => by simp [hu], .run hnp hst (by simp)⟩
      · intro u hu; simp [hu]
      · intro u hu; rfl
      · intro u hu; simp [hu]
      · intro u hu; rfl
      · intro l hl; exact hl
      · intro hl; exact hl
      · simp [maxWorker]
      · exact lv.held
      · have hc : w.guards t = [] := hcare
        simp only [Function.update_self, hc]
        exact careful_mworker
      · exact lv.nodup
    | .stop => rw [hp] at ht; cases ht
    | .panic => rw [hp] at hsafe; exact hsafe.elim
  · unfold WState.stepOf at ht
    rw [dd.prog] at ht
    simp only at ht
    split at ht
    · cases ht
    · rename_i l m gs hg
      cases ht
      have hlm : H t l = some m := dd.sub (l, m) (by rw [hg]; simp)
      obtain ⟨hps, rfl, -⟩ := dd.gone l m hlm
      have hmono : ∀ x, w.poisoned x = true → Function.update w.poisoned l (w.poisoned l || true) x = true := by
        intro x hx
        by_cases e : x = l
        · subst e; simp
        · simp [e, hx]
      refine ⟨st, H, K, ⟨h.reach, h.ginv, h.sh, h.fits, thr_other (t := t) h.thr ?_ ?_ ?_ ?_ hmono ?_ (.inr ⟨?_, ?_, ?_, ?_⟩), ?_⟩,
        fun u hu => by simp [hu], .drop rfl dd.prog dd.prog (by simp [hg])⟩
      · intro u hu; rfl
      · intro u hu; simp [hu]
      · intro u hu; rfl
      · intro u hu; rfl
      · intro hl; exact hl
      · exact dd.prog
      · exact dd.full
      · intro p hp
        simp only [Function.update_self] at hp
        exact dd.sub p (by rw [hg]; simp [hp])
      · intro x m hx
        obtain ⟨h1, h2, h3⟩ := dd.gone x m hx
        refine ⟨h1, h2, ?_⟩
        simp only [Function.update_self]
        rcases h3 with h3 | h3
        · rw [hg, List.mem_cons] at h3
          rcases h3 with h3 | h3
          · cases h3; right; simp
          · exact .inl h3
        · exact .inr (hmono x h3)
      · intro x hx
        by_cases e : x = l
        · subst e; exact ⟨hps, dd.full⟩
        · simp only [Function.update_of_ne e] at hx
          exact h.pois x hx

theorem Sim.step (hws : ∀ w ∈ ws, w ≠ [] ∧ w.length ≤ MAXW)
    (hy : Yields LyndonWordGenerator.next (LyndonWordGenerator.new MAXW 2) ws) (h : Sim ws w st H K)
    (hs : WState.Step maxWorker w w') :
    ∃ st' H' K', Sim ws w' st' H' K' := by
  obtain ⟨t, ht⟩ := hs
  obtain ⟨st', H', K', hsim, -⟩ := h.stepKind hws hy ht
  exact ⟨st', H', K', hsim⟩

theorem sim_init (hws : ∀ w ∈ ws, w ≠ [] ∧ w.length ≤ MAXW)
    (hy : Yields LyndonWordGenerator.next (LyndonWordGenerator.new MAXW 2) ws) :
    Sim ws (WState.init maxWorker MShared.init : WState MShared MLock T) (TState.init mworker MShared.init) (fun _ _ => none)
      (fun _ => MShared.init) :=
  ⟨.refl, GInv.init (fun s => sf_mworker hws s) (inv_init hy), rfl, fits_init,
    fun _ => .inl ⟨rfl, rfl, careful_mworker, by simp [WState.init, locksOf]⟩, fun l hl => by simp [WState.init] at hl⟩

theorem workers_sim (hws : ∀ w ∈ ws, w ≠ [] ∧ w.length ≤ MAXW)
    (hy : Yields LyndonWordGenerator.next (LyndonWordGenerator.new MAXW 2) ws) (h : WorkersReach w) :
    ∃ st H K, Sim ws w st H K := by
  induction h with
  | refl => exact ⟨_, _, _, sim_init hws hy⟩
  | tail _ hs ih =>
    obtain ⟨st, H, K, h⟩ := ih
    exact h.step hws hy hs

end sim

end Verif.Max
