import Verif.Lemmas.MaxRelease2
import Verif.Props.MaxReport
import Verif.Props.LyndonCount

/-!
# C125: `max_lyndon_word` without overflow checks

The same program compiled with `--release`: no worker panics, and the call can come to its end, but the `i32` counters have
wrapped around by then, and a report with a negative number of words can be printed.
-/

namespace Verif.Props

open Verif Spec Model Verif.Max Par

/-- The number of binary Lyndon words of length `n`. -/
noncomputable def lyndonWords (n : Nat) : Nat := Set.ncard {w : List Nat | IsLyndon w ∧ w.length = n ∧ ∀ c ∈ w, c < 2}

/-- The number of pairs of a binary Lyndon word of length `n` and a rotation of it (given by the position `j < n` it starts at)
where `R b c` holds for the number `b` of runs of the BWT of the word and `c` of the bijective BWT of the rotation. -/
noncomputable def outcomes (n : Nat) (R : Nat → Nat → Prop) : Nat :=
  Set.ncard {p : List Nat × Nat | p.2 < n ∧ ∃ b c, Candidate n p.1 (rot p.2 (p.1.map UInt8.ofNat)) b c ∧ R b c}

theorem words_list : ∃ ws : List (List Nat), ws.Pairwise (· < ·) ∧
    (∀ w, w ∈ ws ↔ IsLyndon w ∧ w.length ≤ MAXW ∧ ∀ c ∈ w, c < 2) ∧
    Yields LyndonWordGenerator.next (LyndonWordGenerator.new MAXW 2) ws ∧ ∀ w ∈ ws, w ≠ [] ∧ w.length ≤ MAXW := by
  obtain ⟨ws, hsort, hm, hy⟩ := lwg_all (n := MAXW) (s := 2) (by omega) (by omega)
  exact ⟨ws, hsort, hm, hy, fun w hw => ⟨((hm w).1 hw).1.1, ((hm w).1 hw).2.1⟩⟩

/-- C125 (1): no worker ever panics, whatever the number of workers and the schedule. -/
theorem C125_no_panic (T : Nat) (s : TState MShared MLock T) (h : RelReachable s) (t : Fin T) : s.prog t ≠ .panic := by
  obtain ⟨ws, -, hm, hy, hws⟩ := words_list
  obtain ⟨a, ha, hrel⟩ := rel_down hws hy h
  intro e
  have hp := hrel.prog t
  rw [e] at hp
  have hnp := free_noPanic hws hy ha t
  match hq : a.prog t, hp with
  | .acq _ _ _, hp => obtain ⟨k, h1, -⟩ := hp; cases h1
  | .rel _ _ _, hp => obtain ⟨k, h1, -⟩ := hp; cases h1
  | .act _ _, hp => obtain ⟨g, k, h1, -⟩ := hp; cases h1
  | .again, hp => cases hp
  | .stop, hp => cases hp
  | .panic, _ => exact hnp hq

/-- C125 (2): every run ends: the number of steps is bounded. -/
theorem C125_bounded (T : Nat) : ∃ B, ∀ (n : Nat) (run : Nat → TState MShared MLock T), run 0 = TState.init relWorker MShared.init →
    (∀ i < n, TState.Step relWorker (run i) (run (i + 1))) → n ≤ B := by
  obtain ⟨ws, -, hm, hy, hws⟩ := words_list
  refine ⟨1215 * ws.length + 3 * T, fun n run h0 hrun => ?_⟩
  obtain ⟨r0, a1, a2, -⟩ := rel_run hws hy n run h0 hrun
  exact free_bounded hws hy n r0 a1 a2

theorem rel_stop {p q : MProg} (h : PRel p q) (hp : p ≠ .panic) : q = .stop ↔ p = .stop := by
  match p, h with
  | .acq _ _ _, h => obtain ⟨k, rfl, -⟩ := h; simp
  | .rel _ _ _, h => obtain ⟨k, rfl, -⟩ := h; simp
  | .act _ _, h => obtain ⟨g, k, rfl, -⟩ := h; simp
  | .again, h => obtain rfl := h; simp
  | .stop, h => exact ⟨fun _ => rfl, fun _ => h⟩
  | .panic, _ => exact absurd rfl hp

theorem rel_queued {T : Nat} {a b : MState T} (h : TRel a b) {t : Fin T} (hp : a.prog t ≠ .panic) (hq : b.Queued t) :
    a.Queued t := by
  obtain ⟨l, w, k, e, hl⟩ := hq
  have hrel := h.prog t
  rw [h.locks] at hl
  match hc : a.prog t, hrel with
  | .acq _ _ _, hr =>
    obtain ⟨k', h1, -⟩ := hr
    rw [e] at h1
    injection h1 with h1 h2 h3
    subst h1 h2
    exact ⟨_, _, _, hc, hl⟩
  | .rel _ _ _, hr => obtain ⟨k', h1, -⟩ := hr; rw [e] at h1; cases h1
  | .act _ _, hr => obtain ⟨g, k', h1, -⟩ := hr; rw [e] at h1; cases h1
  | .again, hr => rw [e] at hr; cases hr
  | .stop, hr => rw [e] at hr; cases hr
  | .panic, _ => exact absurd hc hp

/-- C125 (3): the workers that have not left their loops can all be waiting for locks only while the total counter is a multiple
of 10000. -/
theorem C125_deadlock_only_at_report (T : Nat) (s : TState MShared MLock T) (h : RelReachable s)
    (hall : ∀ t, s.Queued t ∨ s.prog t = .stop) (hex : ∃ t, s.prog t ≠ .stop) : s.sh.total % 10000 = 0 := by
  obtain ⟨ws, -, hm, hy, hws⟩ := words_list
  obtain ⟨a, ha, hrel⟩ := rel_down hws hy h
  have hnp := free_noPanic hws hy ha
  obtain ⟨H, K, g⟩ := max_ginv hws hy ha
  have hall0 : ∀ t, a.Queued t ∨ a.prog t = .stop := fun t =>
    (hall t).imp (rel_queued hrel (hnp t)) (rel_stop (hrel.prog t) (hnp t)).1
  obtain ⟨t, ht⟩ := hex
  have hb : a.Queued t := rel_queued hrel (hnp t) ((hall t).resolve_right ht)
  obtain ⟨u, l, w, k, _, _, ho, hag, m, hm', hr'⟩ := g.deadlock rank hall0 ⟨t, hb⟩
  rcases ho with ho | ⟨_, h2, h3⟩
  · exact absurd (ho m hm') (by omega)
  · have : (K u).total = a.sh.total := hag .total (by simp [h2])
    rw [hrel.sh.total, ← this]; exact h3

/-- C125 (4): a run that cannot go on has ended in one of two ways: all workers have left their loops, or those that have not
wait for each other at a multiple of 10000 words. -/
theorem C125_outcomes (T : Nat) (s : TState MShared MLock T) (h : RelReachable s)
    (hend : ∀ s', ¬ TState.Step relWorker s s') : (∀ t, s.prog t = .stop) ∨
      ((∃ t, s.prog t ≠ .stop) ∧ (∀ t, s.Queued t ∨ s.prog t = .stop) ∧ s.sh.total % 10000 = 0) := by
  by_cases hst : ∀ t, s.prog t = .stop
  · exact .inl hst
  push Not at hst
  have hq : ∀ t, s.Queued t ∨ s.prog t = .stop := by
    intro t
    have hn : s.stepOf relWorker t = none := by
      cases hc : s.stepOf relWorker t with
      | none => rfl
      | some s' => exact absurd ⟨t, hc⟩ (hend s')
    have hnp := C125_no_panic T s h t
    simp only [TState.stepOf] at hn
    match hp : s.prog t with
    | .acq l true k =>
      refine .inl ⟨l, true, k, hp, fun e => ?_⟩
      rw [hp] at hn
      simp [Prog.step, e] at hn
    | .acq l false k =>
      refine .inl ⟨l, false, k, hp, fun e => ?_⟩
      rw [hp] at hn
      simp [Prog.step, e] at hn
    | .rel l true k => rw [hp] at hn; simp [Prog.step] at hn
    | .rel l false k => rw [hp] at hn; simp [Prog.step] at hn
    | .act g k =>
      rw [hp] at hn
      simp only [Prog.step] at hn
      cases hg : g s.sh with
      | ok s' => rw [hg] at hn; simp at hn
      | error e => rw [hg] at hn; simp at hn
    | .again => rw [hp] at hn; simp [Prog.step] at hn
    | .stop => exact .inr rfl
    | .panic => exact absurd hp hnp
  exact .inr ⟨hst, hq, C125_deadlock_only_at_report T s h hq hst⟩

/-- C125 (5): both endings occur. -/
theorem C125_can_finish (T : Nat) (hT : 0 < T) : ∃ s : TState MShared MLock T, RelReachable s ∧ ∀ t, s.prog t = .stop := by
  obtain ⟨ws, -, hm, hy, hws⟩ := words_list
  obtain ⟨a, ha, hstop⟩ := complete hws hy hT
  obtain ⟨b, hb, hrel⟩ := rel_up hws hy ha
  exact ⟨b, hb, fun t => (rel_stop (hrel.prog t) (free_noPanic hws hy ha t)).2 (hstop t)⟩

theorem C125_can_hang (T : Nat) (hT : 2 ≤ T) (hT' : T ≤ 6000) : ∃ s : TState MShared MLock T,
    RelReachable s ∧ ∀ t, s.Blocked relWorker t := by
  obtain ⟨ws, -, hm, hy, hws⟩ := words_list
  obtain ⟨a, ha, hbl, -⟩ := deadlock hT hT' hm hy
  obtain ⟨b, hb, hrel⟩ := rel_up hws hy ha
  refine ⟨b, hb, fun t => ?_⟩
  obtain ⟨h1, l, w, k, e⟩ := hbl t
  have hp := hrel.prog t
  rw [e] at hp
  obtain ⟨k', h2, -⟩ := hp
  exact ⟨(rel_stepOf hws hy ha hrel t).2 h1, l, w, k', h2⟩

example : ∃ s : TState MShared MLock 4, RelReachable s ∧ (∀ t, s.Queued t) ∧ s.sh.total % 10000 = 0 := by
  obtain ⟨s, h, hb⟩ := C125_can_hang 4 (by decide) (by decide)
  refine ⟨s, h, fun t => blocked_queued (hb t),
    C125_deadlock_only_at_report 4 s h (fun t => .inl (blocked_queued (hb t))) ⟨0, fun h0 => ?_⟩⟩
  obtain ⟨-, l, w, k, e⟩ := hb 0
  rw [h0] at e
  cases e

example : ∃ s : TState MShared MLock 4, RelReachable s ∧ (∀ s', ¬ TState.Step relWorker s s') ∧ ∃ t, s.prog t ≠ .stop := by
  obtain ⟨s, h, hb⟩ := C125_can_hang 4 (by decide) (by decide)
  refine ⟨s, h, fun s' ⟨t, ht⟩ => ?_, 0, fun h0 => ?_⟩
  · rw [(hb t).1] at ht; cases ht
  · obtain ⟨-, l, w, k, e⟩ := hb 0
    rw [h0] at e
    cases e

/-! ### The counters at the end -/

theorem lyndonWords_eq {ws : List (List Nat)} (hsort : ws.Pairwise (· < ·))
    (hm : ∀ w, w ∈ ws ↔ IsLyndon w ∧ w.length ≤ MAXW ∧ ∀ c ∈ w, c < 2) {n : Nat} (hn : 1 ≤ n) (hn' : n ≤ 40) :
    (ws.filter fun w => decide (w.length - 1 = n - 1)).length = lyndonWords n := by
  rw [lyndonWords, lyn_ncard, ← lyn_of_list hsort hm hn']
  congr 1
  refine List.filter_congr fun w hw => ?_
  have := List.length_pos_iff.2 ((hm w).1 hw).1.1
  rw [decide_eq_decide]
  omega

theorem sum_map_congr {α : Type} (l : List α) (f g : α → Nat) (h : ∀ x ∈ l, f x = g x) : (l.map f).sum = (l.map g).sum := by
  rw [List.map_congr_left h]

theorem candidate_iff {ws : List (List Nat)} (hm : ∀ w, w ∈ ws ↔ IsLyndon w ∧ w.length ≤ MAXW ∧ ∀ c ∈ w, c < 2) {n : Nat}
    (hn' : n ≤ 40) {w : List Nat} {j b c : Nat} (hj : j < n) :
    Candidate n w (rot j (w.map UInt8.ofNat)) b c ↔
      (w ∈ ws ∧ w.length = n) ∧ b = bwtRuns (w.map UInt8.ofNat) ∧ c = bbwtRuns (rot j (w.map UInt8.ofNat)) := by
  constructor
  · rintro ⟨h1, h2, h3, -, ⟨t, ht, rfl⟩, ⟨t', ht', rfl⟩⟩
    refine ⟨⟨(hm w).2 ⟨h1, ?_, h2⟩, h3⟩, ?_, ?_⟩
    · show w.length ≤ 40; omega
    · rw [bwtRuns, ht]; rfl
    · rw [bbwtRuns, ht']; rfl
  · rintro ⟨⟨h1, h2⟩, rfl, rfl⟩
    obtain ⟨g1, -, g3⟩ := (hm w).1 h1
    refine ⟨g1, g3, h2, ⟨j, hj, rfl⟩, ?_, ?_⟩
    · obtain ⟨t, ht, -⟩ := bwtByMatrixNaive_ok (w.map UInt8.ofNat)
      exact ⟨t, ht, by rw [bwtRuns, ht]; rfl⟩
    · obtain ⟨t', ht'⟩ := bbwt_total (conjs_ne g1.1 _ (mem_conjs (w := w) (i := j) (by omega)))
      exact ⟨t', ht', by rw [bbwtRuns, ht']; rfl⟩

theorem outcomes_eq {ws : List (List Nat)} (hsort : ws.Pairwise (· < ·))
    (hm : ∀ w, w ∈ ws ↔ IsLyndon w ∧ w.length ≤ MAXW ∧ ∀ c ∈ w, c < 2) {n : Nat} (hn : 1 ≤ n) (hn' : n ≤ 40)
    (R : Nat → Nat → Prop) [DecidableRel R] :
    outcomes n R = ((ws.filter fun w => decide (w.length - 1 = n - 1)).map fun w =>
      (conjs w).countP fun u => decide (R (bwtRuns (w.map UInt8.ofNat)) (bbwtRuns u))).sum := by
  classical
  set L := ws.filter fun w => decide (w.length - 1 = n - 1) with hL
  have hmem : ∀ w, w ∈ L ↔ w ∈ ws ∧ w.length = n := by
    intro w
    rw [hL, List.mem_filter, decide_eq_true_eq]
    constructor
    · rintro ⟨h1, h2⟩
      have := List.length_pos_iff.2 ((hm w).1 h1).1.1
      exact ⟨h1, by omega⟩
    · rintro ⟨h1, h2⟩; exact ⟨h1, by omega⟩
  have hnd : L.Nodup := (hsort.imp (fun h => ne_of_lt h)).filter _
  let F : List (List Nat × Nat) := L.flatMap fun w =>
    ((List.range n).filter fun j => decide (R (bwtRuns (w.map UInt8.ofNat)) (bbwtRuns (rot j (w.map UInt8.ofNat))))).map (w, ·)
  have hFm : ∀ p, p ∈ F ↔ p.2 < n ∧ ∃ b c, Candidate n p.1 (rot p.2 (p.1.map UInt8.ofNat)) b c ∧ R b c := by
    rintro ⟨w, j⟩
    simp only [F, List.mem_flatMap, List.mem_map, List.mem_filter, List.mem_range, decide_eq_true_eq]
    constructor
    · rintro ⟨v, hv, i, ⟨hi, hR⟩, e⟩
      injection e with e1 e2
      subst e1 e2
      exact ⟨hi, _, _, (candidate_iff hm hn' hi).2 ⟨(hmem _).1 hv, rfl, rfl⟩, hR⟩
    · rintro ⟨hj, b, c, hc, hR⟩
      obtain ⟨h1, rfl, rfl⟩ := (candidate_iff hm hn' hj).1 hc
      exact ⟨w, (hmem w).2 h1, j, ⟨hj, hR⟩, rfl⟩
  have hFn : F.Nodup := by
    simp only [F]
    rw [List.nodup_flatMap]
    refine ⟨fun w _ => (List.nodup_range.filter _).map (fun a b e => by injection e), ?_⟩
    refine hnd.imp fun {v w} hvw => ?_
    simp only [Function.onFun, List.disjoint_left]
    rintro ⟨x, j⟩ h1 h2
    simp only [List.mem_map] at h1 h2
    obtain ⟨_, _, e1⟩ := h1
    obtain ⟨_, _, e2⟩ := h2
    injection e1 with e1 _
    injection e2 with e2 _
    exact hvw (e1.trans e2.symm)
  have hset : {p : List Nat × Nat | p.2 < n ∧ ∃ b c, Candidate n p.1 (rot p.2 (p.1.map UInt8.ofNat)) b c ∧ R b c} =
      ↑F.toFinset := by
    ext p
    simp only [Set.mem_ofPred_eq, List.coe_toFinset]
    exact (hFm p).symm
  rw [outcomes, hset, Set.ncard_coe_finset, List.toFinset_card_of_nodup hFn]
  simp only [F, List.length_flatMap, List.length_map]
  refine sum_map_congr _ _ _ fun w hw => ?_
  have hl := ((hmem w).1 hw).2
  rw [conjs, List.countP_map, List.length_map, hl, ← List.countP_eq_length_filter]
  rfl

theorem getD_wrapL (v : List Nat) (i : Nat) : (wrapL v).getD i 0 = v.getD i 0 % 4294967296 := by
  simp only [wrapL, List.getD_eq_getElem?_getD, List.getElem?_map]
  cases v[i]? <;> simp

/-- C125 (6): what the counters hold when all workers have left their loops: all words have been counted, and for every length the
numbers of words and of outcomes, reduced to an `i32`. -/
theorem C125_finished (T : Nat) (hT : 0 < T) (s : TState MShared MLock T) (h : RelReachable s)
    (hstop : ∀ t, s.prog t = .stop) :
    s.sh.total = ∑ n ∈ Finset.Icc 1 40, lyndonWords n ∧
    ∀ n, 1 ≤ n → n ≤ 40 →
      i32Value (s.sh.num.getD (n - 1) 0) = asI32 (lyndonWords n) ∧
      i32Value (s.sh.bwtWin.getD (n - 1) 0) = asI32 (outcomes n (· < ·)) ∧
      i32Value (s.sh.bbwtWin.getD (n - 1) 0) = asI32 (outcomes n (· > ·)) ∧
      i32Value (s.sh.tie.getD (n - 1) 0) = asI32 (outcomes n (· = ·)) := by
  obtain ⟨ws, hsort, hm, hy, hws⟩ := words_list
  obtain ⟨a, ha, hrel⟩ := rel_down hws hy h
  have hst : ∀ t, a.prog t = .stop := fun t => (rel_stop (hrel.prog t) (free_noPanic hws hy ha t)).1 (hstop t)
  obtain ⟨done, rest, hsp, _, d, hl, hsum⟩ := cinv_steps hws (cinv_init hy) ha
  have hlocal : ∀ t, d t = 0 ∧ rest = [] := fun t => by
    have := hl t
    rw [hst t] at this
    rcases this with ⟨h1 | h1, _⟩ | ⟨_, h2, h3⟩ | h1
    · rw [mworker_eq] at h1; cases h1
    · cases h1
    · exact ⟨h2, h3⟩
    · exact h1.elim
  have hrest := (hlocal ⟨0, hT⟩).2
  rw [Finset.sum_eq_zero fun t _ => (hlocal t).1, add_zero] at hsum
  rw [hrest, List.append_nil] at hsp
  subst hsp
  constructor
  · rw [hrel.sh.total]
    have h1 : a.sh.total = done.length := by
      rw [← total_total done 0, ← hsum]; rfl
    rw [h1]
    have h2 : ∀ n ∈ Finset.Icc 1 40, lyndonWords n = (done.filter fun w => decide (w.length = n)).length := by
      intro n hn
      obtain ⟨hn, hn'⟩ := Finset.mem_Icc.1 hn
      rw [lyndonWords, lyn_ncard, ← lyn_of_list hsort hm hn']
    rw [Finset.sum_congr rfl h2]
    have h3 : ∀ (l : List (List Nat)), (∀ w ∈ l, 1 ≤ w.length ∧ w.length ≤ 40) →
        l.length = ∑ n ∈ Finset.Icc 1 40, (l.filter fun w => decide (w.length = n)).length := by
      intro l
      induction l with
      | nil => intro _; simp
      | cons w l ih =>
        intro hw
        have e : ∀ n, ((w :: l).filter fun w => decide (w.length = n)).length =
            (l.filter fun w => decide (w.length = n)).length + if w.length = n then 1 else 0 := by
          intro n
          rw [List.filter_cons]
          by_cases hn : w.length = n <;> simp [hn]
        rw [Finset.sum_congr rfl (fun n _ => e n), Finset.sum_add_distrib, ← ih (fun v hv => hw v (by simp [hv])),
          Finset.sum_ite_eq, if_pos (Finset.mem_Icc.2 (hw w (by simp))), List.length_cons]
    exact h3 done fun w hw => ⟨List.length_pos_iff.2 (hws w hw).1, (hws w hw).2⟩
  · intro n hn hn'
    have hk : ∀ {c : Nat} (R : Nat → Nat → Prop) [DecidableRel R], (c = 1 ∨ c = 2 ∨ c = 3) → (∀ b e, kind b e = c ↔ R b e) →
        cnt a.sh c (n - 1) = outcomes n R := by
      intro c R _ hc hR
      rw [hsum, total_kind done c (n - 1) hc, outcomes_eq hsort hm hn hn' R]
      refine sum_map_congr _ _ _ fun w _ => ?_
      congr 1
      funext u
      rw [decide_eq_decide]
      exact hR _ _
    refine ⟨?_, ?_, ?_, ?_⟩
    · rw [hrel.sh.num, getD_wrapL, i32Value_mod, ← lyndonWords_eq hsort hm hn hn', ← total_num, ← hsum]; rfl
    · rw [hrel.sh.bwtWin, getD_wrapL, i32Value_mod, ← hk (c := 1) (· < ·) (by simp) (fun b e => by unfold kind; split <;> [simp_all; (split <;> simp_all)])]
      rfl
    · rw [hrel.sh.bbwtWin, getD_wrapL, i32Value_mod, ← hk (c := 2) (· > ·) (by simp) (fun b e => by unfold kind; split <;> [simp_all; (split <;> simp_all)] <;> omega)]
      rfl
    · rw [hrel.sh.tie, getD_wrapL, i32Value_mod, ← hk (c := 3) (· = ·) (by simp) (fun b e => by unfold kind; split <;> [simp_all; (split <;> simp_all)] <;> omega)]
      rfl

/-- `40 * 27487764474 = 2 ^ 40 - 2 ^ 20 - 2 ^ 8 + 2 ^ 4`. -/
theorem lyndonWords_40 : lyndonWords 40 = 27487764474 := by
  have h : LyndonNumbers 2 40 lyndonWords := lyndonNumbers_of fun d _ => by rw [lyndonWords, lyn_ncard]
  have e1 := (h 1 (by omega) (by omega)).1
  have e2 := (h 2 (by omega) (by omega)).1
  have e4 := (h 4 (by omega) (by omega)).1
  have e5 := (h 5 (by omega) (by omega)).1
  have e8 := (h 8 (by omega) (by omega)).1
  have e10 := (h 10 (by omega) (by omega)).1
  have e20 := (h 20 (by omega) (by omega)).1
  have e40 := (h 40 (by omega) (by omega)).1
  rw [show (1 : Nat).divisors = {1} by decide] at e1
  rw [show (2 : Nat).divisors = {1, 2} by decide] at e2
  rw [show (4 : Nat).divisors = {1, 2, 4} by decide] at e4
  rw [show (5 : Nat).divisors = {1, 5} by decide] at e5
  rw [show (8 : Nat).divisors = {1, 2, 4, 8} by decide] at e8
  rw [show (10 : Nat).divisors = {1, 2, 5, 10} by decide] at e10
  rw [show (20 : Nat).divisors = {1, 2, 4, 5, 10, 20} by decide] at e20
  rw [show (40 : Nat).divisors = {1, 2, 4, 5, 8, 10, 20, 40} by decide +kernel] at e40
  simp at e1 e2 e4 e5 e8 e10 e20 e40
  omega

/-- Every rotation of every word has one of the three outcomes. -/
theorem outcomes_sum {n : Nat} (hn : 1 ≤ n) (hn' : n ≤ 40) :
    outcomes n (· < ·) + outcomes n (· > ·) + outcomes n (· = ·) = n * lyndonWords n := by
  obtain ⟨ws, hsort, hm, -, -⟩ := words_list
  rw [outcomes_eq hsort hm hn hn' (· < ·), outcomes_eq hsort hm hn hn' (· > ·), outcomes_eq hsort hm hn hn' (· = ·),
    ← lyndonWords_eq hsort hm hn hn']
  have hl : ∀ w ∈ ws.filter (fun w => decide (w.length - 1 = n - 1)), w.length = n := by
    intro w hw
    obtain ⟨h1, h2⟩ := List.mem_filter.1 hw
    have := List.length_pos_iff.2 ((hm w).1 h1).1.1
    have := of_decide_eq_true h2
    omega
  generalize ws.filter (fun w => decide (w.length - 1 = n - 1)) = L at hl
  induction L with
  | nil => rfl
  | cons w L ih =>
    have h1 := ih (fun v hv => hl v (List.mem_cons_of_mem _ hv))
    have h2 : (conjs w).length = n := by rw [conjs, List.length_map, List.length_range, List.length_map, hl w (by simp)]
    have h3 : ∀ (b : Nat) (us : List (List UInt8)), us.countP (fun u => decide (b < bbwtRuns u)) +
        us.countP (fun u => decide (b > bbwtRuns u)) + us.countP (fun u => decide (b = bbwtRuns u)) = us.length := by
      intro b us
      induction us with
      | nil => rfl
      | cons u us ih =>
        simp only [List.countP_cons, List.length_cons, decide_eq_true_eq]
        split_ifs <;> omega
    have h4 := h3 (bwtRuns (w.map UInt8.ofNat)) (conjs w)
    rw [List.map_cons, List.map_cons, List.map_cons, List.sum_cons, List.sum_cons, List.sum_cons, List.length_cons, Nat.mul_succ]
    omega

/-- C125 (7): so the counters are wrong: after every complete run the counter of the words of length 40 holds 1717960698 instead of
27487764474, and the numbers of the outcomes of their rotations, which should add up to 40 times this, are not all right. -/
theorem C125_wrong_counters (T : Nat) (hT : 0 < T) (s : TState MShared MLock T) (h : RelReachable s)
    (hstop : ∀ t, s.prog t = .stop) : lyndonWords 40 = 27487764474 ∧ i32Value (s.sh.num.getD 39 0) = 1717960698 ∧
      outcomes 40 (· < ·) + outcomes 40 (· > ·) + outcomes 40 (· = ·) = 40 * 27487764474 ∧
      i32Value (s.sh.bwtWin.getD 39 0) + i32Value (s.sh.bbwtWin.getD 39 0) + i32Value (s.sh.tie.getD 39 0) < 40 * 27487764474 := by
  obtain ⟨h1, -⟩ := (C125_finished T hT s h hstop).2 40 (by omega) (by omega)
  obtain ⟨-, h2⟩ := (C125_finished T hT s h hstop).2 40 (by omega) (by omega)
  refine ⟨lyndonWords_40, ?_, ?_, ?_⟩
  · rw [show (39 : Nat) = 40 - 1 from rfl, h1, lyndonWords_40]; decide
  · rw [outcomes_sum (by omega) (by omega), lyndonWords_40]
  · have hb : ∀ n, asI32 n < 2 ^ 31 := fun n => by
      have := @Int.bmod_lt n (2 ^ 32) (by norm_num)
      unfold asI32
      omega
    have a1 := hb (outcomes 40 (· < ·))
    have a2 := hb (outcomes 40 (· > ·))
    have a3 := hb (outcomes 40 (· = ·))
    rw [show (39 : Nat) = 40 - 1 from rfl, h2.1, h2.2.1, h2.2.2]
    omega

example : ∃ s : TState MShared MLock 4, RelReachable s ∧ (∀ t, s.prog t = .stop) ∧ i32Value (s.sh.num.getD 39 0) = 1717960698 := by
  obtain ⟨s, h, hs⟩ := C125_can_finish 4 (by decide)
  exact ⟨s, h, hs, (C125_wrong_counters 4 (by decide) s h hs).2.1⟩

/-- C125 (8): the output: whenever nobody holds the lock of the numbers of words, it consists of complete reports, whose numbers are
reduced to an `i32` and otherwise right, and whose totals do not decrease. -/
theorem C125_reports (T : Nat) (s : TState MShared MLock T) (h : RelReachable s) (hw : (s.locks .num).2 = false) :
    ∃ rs : List Snapshot, s.sh.out = rs.flatMap Snapshot.linesI32 ∧
      rs.Pairwise (fun r r' => r.total ≤ r'.total) ∧ ∀ r ∈ rs, RightReport T r ∧ r.total ≤ s.sh.total := by
  obtain ⟨ws, -, hm, hy, hws⟩ := words_list
  obtain ⟨a, hr, hrel⟩ := rel_down hws hy h
  obtain ⟨H, K, g⟩ := max_ginv hws hy hr
  obtain ⟨_, _, rs, ho, hp, hrs⟩ : inv ws .num (comp .num a.sh) :=
    g.data .num (g.noWriter (by rw [← hrel.locks]; exact hw))
  replace ho : a.sh.out = rs.flatMap reportLines := ho
  have hbal := lines_balanced hws hy hr
  refine ⟨rs.map snap, ?_, List.pairwise_map.2 hp, ?_⟩
  · have e : a.sh.out = (rs.map snap).flatMap Snapshot.lines := by
      rw [ho, List.flatMap_map]
      exact List.flatMap_congr fun r _ => snap_lines r
    have := hrel.sh.out
    rw [e] at this
    exact lines_unique this (lines_reports _)
  · intro r' hr'
    obtain ⟨r, hrm, rfl⟩ := List.mem_map.1 hr'
    obtain ⟨⟨g1, g2, g3, g4⟩, hle⟩ := hrs r hrm
    refine ⟨⟨g1, ?_, fun n hn hn' => ?_, fun n hn hn' => ?_⟩, by rw [hrel.sh.total]; exact hle⟩
    · rw [show (snap r).total = r.total from rfl, ← g3]
      exact sum_getD r.num 40 g2
    · have := report_balanced (T := T) (r := r) (fun x hx => hbal x (by
        rw [ho]; exact List.mem_flatMap.2 ⟨r, hrm, hx⟩)) (l := n - 1) (by omega) (by omega)
      rw [Max.Balanced, show n - 1 + 1 = n by omega] at this
      exact this
    · have := candidate_of hm (g4.2.2.2 (n - 1) (by have : MAXW = 40 := rfl; omega))
      rw [show n - 1 + 1 = n by omega] at this
      exact this

/-- C125 (9): a report can show a negative number of words. -/
theorem C125_negative_report (T : Nat) (hT : 0 < T) : ∃ s : TState MShared MLock T, RelReachable s ∧ NoLocks s ∧
    ∃ n a b c, asI32 n < 0 ∧ countsLineI32 39 n a b c ∈ s.sh.out := by
  obtain ⟨ws, hsort, hm, hy, hws⟩ := words_list
  have h40 := lyndonWords_eq hsort hm (n := 40) (by omega) (by omega)
  rw [lyndonWords_40] at h40
  obtain ⟨M, m1, m2, m3, m4, m5⟩ := crossing (ws := ws) (by rw [h40]; norm_num)
  obtain ⟨a, r, ha, hl, hlk, hc, -⟩ := report_at (T := T) hws hy hT m1 m2 m3
  obtain ⟨b, hb, hrel⟩ := rel_up hws hy ha
  refine ⟨b, hb, ?_, r.num.getD 39 0, r.bwtWin.getD 39 0, r.bbwtWin.getD 39 0, r.tie.getD 39 0, ?_, ?_⟩
  · intro l
    rw [hrel.locks, hlk]; rfl
  · have e : r.num.getD 39 0 = ((ws.take M).filter fun w => decide (w.length - 1 = 39)).length := by
      rw [← total_num, ← hc]; rfl
    rw [← e] at m4 m5
    generalize r.num.getD 39 0 = n at m4 m5
    rw [← i32Value_mod, Nat.mod_eq_of_lt (by omega), i32Value, if_neg (by omega)]
    omega
  · have hmem : countsLine 39 (r.num.getD 39 0) (r.bwtWin.getD 39 0) (r.bbwtWin.getD 39 0) (r.tie.getD 39 0) ∈ a.sh.out := by
      refine hl _ ?_
      rw [snap_lines]
      refine List.mem_cons_of_mem _ (List.mem_flatMap.2 ⟨40, by decide, ?_⟩)
      exact List.mem_cons_self
    have key : ∀ {x y : List (List UInt8)}, List.Forall₂ LineRel x y → ∀ l n a b c, countsLine l n a b c ∈ x →
        countsLineI32 l n a b c ∈ y := by
      intro x y hxy l n a b c hx
      induction hxy with
      | nil => cases hx
      | cons h1 h2 ih =>
        rcases List.mem_cons.1 hx with rfl | hx
        · rw [h1.1 _ _ _ _ _ rfl]; exact List.mem_cons_self
        · exact List.mem_cons_of_mem _ (ih hx)
    exact key hrel.sh.out _ _ _ _ _ hmem

example := C125_negative_report 4 (by decide)

example : ∃ s : TState MShared MLock 4, RelReachable s ∧ (s.locks .num).2 = false ∧ s.sh.out ≠ [] := by
  obtain ⟨s, h, hl, n, a, b, c, -, hm⟩ := C125_negative_report 4 (by decide)
  exact ⟨s, h, by rw [hl], List.ne_nil_of_mem hm⟩

/-- C125 (10): the records, as in the build with overflow checks: when nobody is writing one, it is empty or genuine. -/
theorem C125_records_genuine (T : Nat) (s : TState MShared MLock T) (h : RelReachable s)
    (hw : (s.locks .bestBwt).2 = false) (n : Nat) (hn : 1 ≤ n) (hn' : n ≤ 40) :
    (s.sh.bestBwt.getD (n - 1) 0 = 0 ∧ s.sh.bestBbwt.getD (n - 1) 0 = 0 ∧ s.sh.bestText.getD (n - 1) [] = [])
    ∨ (s.sh.bestBbwt.getD (n - 1) 0 < s.sh.bestBwt.getD (n - 1) 0 ∧
      ∃ w, Candidate n w (s.sh.bestText.getD (n - 1) []) (s.sh.bestBwt.getD (n - 1) 0)
        (s.sh.bestBbwt.getD (n - 1) 0)) := by
  obtain ⟨ws, -, hm, hy, hws⟩ := words_list
  obtain ⟨a, hr, hrel⟩ := rel_down hws hy h
  obtain ⟨H, K, g⟩ := max_ginv hws hy hr
  have hrec : RecInv ws (comp .bestBwt a.sh) := g.data .bestBwt (g.noWriter (by rw [← hrel.locks]; exact hw))
  have := candidate_of hm (hrec.2.2.2 (n - 1) (by have : MAXW = 40 := rfl; omega))
  rw [show n - 1 + 1 = n by omega] at this
  rw [hrel.sh.bestBwt, hrel.sh.bestBbwt, hrel.sh.bestText]
  exact this.imp (fun ⟨h1, h2, h3⟩ => ⟨h2, h3, h1⟩) id

example : ∃ s : TState MShared MLock 4, RelReachable s ∧ ∀ t, s.prog t ≠ .panic := by
  obtain ⟨s, h, -⟩ := C125_can_finish 4 (by decide)
  exact ⟨s, h, C125_no_panic 4 s h⟩

end Verif.Props
