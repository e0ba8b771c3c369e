import Verif.Lemmas.MaxMany

/-!
# `max_lyndon_word` of `unfinished/parallel.rs` (C58)

The claim is false: the record can get worse (`C58_lost_update_refuted`) and all workers can wait for each
other (`C58_deadlock_refuted`).  The theorems with the suffix `_partial` say what does hold for every
interleaving.
-/

namespace Verif.Props

open Verif Spec Model Verif.Max Par

/-- `u` (a byte string) is a rotation of a binary Lyndon word `w` of length `n`; the naive BWT of `w` has `b`
runs and the naive bijective BWT of `u` has `c` runs. -/
def Candidate (n : Nat) (w : List Nat) (u : List UInt8) (b c : Nat) : Prop :=
  IsLyndon w ∧ (∀ x ∈ w, x < 2) ∧ w.length = n ∧
  (∃ j < n, u = rot j (w.map UInt8.ofNat)) ∧
  (∃ t, bwtByMatrixNaive (w.map UInt8.ofNat) = .ok t ∧ b = numberOfRuns (sliceReader t)) ∧
  (∃ t, bbwtNaive u = .ok t ∧ c = numberOfRuns (sliceReader t))

/-- The recorded difference for texts of length `n`. -/
def recorded (s : MShared) (n : Nat) : Nat := s.bestBwt.getD (n - 1) 0 - s.bestBbwt.getD (n - 1) 0

/-- Nobody holds any lock. -/
def NoLocks {T : Nat} (s : TState MShared MLock T) : Prop := ∀ l, s.locks l = (0, false)

/-- C58 is false, first part: with three or more workers (the code has four) the recorded difference for
length 40 can get smaller, between two states in which no lock is held. -/
theorem C58_lost_update_refuted (T : Nat) (hT : 3 ≤ T) : ∃ s s' : TState MShared MLock T,
    MaxReachable s ∧ Relation.ReflTransGen (TState.Step maxWorker) s s' ∧ NoLocks s ∧ NoLocks s' ∧
    recorded s'.sh 40 < recorded s.sh 40 := by
  obtain ⟨ws, hm, hy⟩ := all_words
  have hws : ∀ w ∈ ws, w ≠ [] ∧ w.length ≤ MAXW := fun w hw => ⟨((hm w).1 hw).1.1, ((hm w).1 hw).2.1⟩
  obtain ⟨s, s', hr, hs, hl, hl', h1, h2, rest, hyr, hlen⟩ := lost_update hT hm hy
  have hc := cinv_steps hws (cinv_init hy) hr
  have hc' := cinv_steps hws hc hs
  have hf' := fits_few hws hc' hyr hlen
  have hs' := run_checked hws hc hs hf'
  have hf : i32Fits s.sh = true := by
    clear hs' hc' hl' h2 hyr
    induction hs with
    | refl => exact hf'
    | tail hab hbc ih =>
      have hcb := cinv_steps hws hc hab
      exact ih (fits_near (hcb.step hws hbc).2 hf')
  refine ⟨_, _, up hws hy hr hf, hs', fun l => ?_, fun l => ?_, ?_⟩
  · show s.locks l = _; rw [hl]; rfl
  · show s'.locks l = _; rw [hl']; rfl
  · show diff s'.sh 39 < diff s.sh 39
    omega

example := C58_lost_update_refuted 3 (by decide)

/-- C58 is false, second part: with two or more workers (four in the code; the bound 6000 only keeps the
proof short) there is a reachable state in which every worker waits for a lock held by another. -/
theorem C58_deadlock_refuted (T : Nat) (hT : 2 ≤ T) (hT' : T ≤ 6000) : ∃ s : TState MShared MLock T,
    MaxReachable s ∧ ∀ t, s.Blocked maxWorker t := by
  obtain ⟨ws, hm, hy⟩ := all_words
  have hws : ∀ w ∈ ws, w ≠ [] ∧ w.length ≤ MAXW := fun w hw => ⟨((hm w).1 hw).1.1, ((hm w).1 hw).2.1⟩
  obtain ⟨s, hr, hb, rest, hyr, hlen⟩ := deadlock hT hT' hm hy
  exact ⟨_, up hws hy hr (fits_few hws (cinv_steps hws (cinv_init hy) hr) hyr hlen),
    fun t => checked_blocked (hb t)⟩

example := C58_deadlock_refuted 4 (by decide) (by decide)

/-- Waiting for ever: from the state of `C58_deadlock_refuted` there is no step at all. -/
theorem C58_deadlock_final {T : Nat} {s s' : TState MShared MLock T} (h : ∀ t, s.Blocked maxWorker t) :
    ¬ TState.Step maxWorker s s' := by
  rintro ⟨t, ht⟩
  rw [(h t).1] at ht
  cases ht

example : ∃ s : TState MShared MLock 4, MaxReachable s ∧ ∀ s', ¬ TState.Step maxWorker s s' := by
  obtain ⟨s, h, hb⟩ := C58_deadlock_refuted 4 (by decide) (by decide)
  exact ⟨s, h, fun _ => C58_deadlock_final hb⟩

/-- C58, what holds for every interleaving (1): whenever nobody is writing the record, each entry is either
still empty or a text that has been seen: a rotation of a binary Lyndon word of that length, with the
numbers of runs that the record claims, and fewer runs in its bijective BWT than in the BWT. -/
theorem C58_records_genuine_partial (T : Nat) (s : TState MShared MLock T) (h : MaxReachable s)
    (hw : (s.locks .bestBwt).2 = false) (n : Nat) (hn : 1 ≤ n) (hn' : n ≤ 40) :
    (s.sh.bestBwt.getD (n - 1) 0 = 0 ∧ s.sh.bestBbwt.getD (n - 1) 0 = 0 ∧ s.sh.bestText.getD (n - 1) [] = [])
    ∨ (s.sh.bestBbwt.getD (n - 1) 0 < s.sh.bestBwt.getD (n - 1) 0 ∧
      ∃ w, Candidate n w (s.sh.bestText.getD (n - 1) []) (s.sh.bestBwt.getD (n - 1) 0)
        (s.sh.bestBbwt.getD (n - 1) 0)) := by
  obtain ⟨ws, hm, hy⟩ := all_words
  have hws : ∀ w ∈ ws, w ≠ [] ∧ w.length ≤ MAXW := fun w hw => ⟨((hm w).1 hw).1.1, ((hm w).1 hw).2.1⟩
  obtain ⟨st0, hr, hd⟩ := max_down hws hy h
  obtain ⟨H, K, g⟩ := max_ginv hws hy hr
  have hrec : RecInv ws (comp .bestBwt st0.sh) :=
    g.data .bestBwt (g.noWriter (by rw [← hd.locks]; exact hw))
  rw [← hd.sh] at hrec
  have hwit := hrec.2.2.2 (n - 1) (by have : MAXW = 40 := rfl; omega)
  rcases hwit with hwit | ⟨w, hw, hl, ht, hb, hc, hlt⟩
  · exact Or.inl hwit
  · refine Or.inr ⟨hlt, w, ((hm w).1 hw).1, ((hm w).1 hw).2.2, by omega, ?_, ?_, ?_⟩
    · simp only [conjs, List.mem_map, List.mem_range, List.length_map] at ht
      obtain ⟨j, hj, e⟩ := ht
      exact ⟨j, by omega, e.symm⟩
    · obtain ⟨t, ht, -⟩ := bwtByMatrixNaive_ok (w.map UInt8.ofNat)
      exact ⟨t, ht, by rw [show s.sh.bestBwt.getD (n - 1) 0 = _ from hb, bwtRuns, ht]; rfl⟩
    · have hne : s.sh.bestText.getD (n - 1) [] ≠ [] := conjs_ne (hws w hw).1 _ ht
      obtain ⟨t, ht⟩ := bbwt_total hne
      exact ⟨t, ht, by rw [show s.sh.bestBbwt.getD (n - 1) 0 = _ from hc, bbwtRuns]; erw [ht]; rfl⟩

/-- A state in which somebody has recorded something. -/
example : ∃ s : TState MShared MLock 3, MaxReachable s ∧ 0 < recorded s.sh 40 ∧
    ∃ w, Candidate 40 w (s.sh.bestText.getD 39 []) (s.sh.bestBwt.getD 39 0) (s.sh.bestBbwt.getD 39 0) := by
  obtain ⟨s, s', h, -, hl, -, h2⟩ := C58_lost_update_refuted 3 (by decide)
  refine ⟨s, h, by omega, ?_⟩
  rcases C58_records_genuine_partial 3 s h (by rw [hl]) 40 (by decide) (by decide) with ⟨h3, h4, -⟩ | ⟨-, h3⟩
  · have h5 : recorded s.sh 40 = 0 := by rw [recorded, h3, h4]
    omega
  · exact h3

/-- C58, what holds for every interleaving (2): a worker panics only if one of the `i32` counters has
reached its maximum. -/
theorem C58_panic_only_overflow_partial (T : Nat) (s : TState MShared MLock T) (h : MaxReachable s)
    (t : Fin T) (ht : s.prog t = .panic) :
    ∃ v ∈ [s.sh.num, s.sh.bwtWin, s.sh.bbwtWin, s.sh.tie], 2 ^ 31 - 1 ∈ v := by
  obtain ⟨ws, hm, hy⟩ := all_words
  have hws : ∀ w ∈ ws, w ≠ [] ∧ w.length ≤ MAXW := fun w hw => ⟨((hm w).1 hw).1.1, ((hm w).1 hw).2.1⟩
  obtain ⟨st0, hr, hd⟩ := max_down hws hy h
  obtain ⟨H, K, g⟩ := max_ginv hws hy hr
  rcases hd.prog t with hp | ⟨_, c, hc, i, hi⟩
  · rw [ht] at hp
    have hs := g.safe t
    rw [guard_panic hp.symm] at hs
    exact hs.elim
  · have key : ∀ v : List Nat, v.getD i 0 = 2 ^ 31 - 1 → 2 ^ 31 - 1 ∈ v := by
      intro v hv
      rw [List.getD_eq_getElem?_getD] at hv
      cases hg : v[i]? with
      | none => rw [hg] at hv; simp at hv
      | some x => rw [hg] at hv; simp only [Option.getD_some] at hv; rw [← hv]; exact List.mem_of_getElem? hg
    match c, hc with
    | 0, _ => exact ⟨_, by simp, key _ hi⟩
    | 1, _ => exact ⟨_, by simp, key _ hi⟩
    | 2, _ => exact ⟨_, by simp, key _ hi⟩
    | 3, _ => exact ⟨_, by simp, key _ hi⟩

/-- The first update that does not fit ends a thread with overflow checks. -/
theorem overflow_panics {T : Nat} {a b : TState MShared MLock T} (hs : TState.Step mworker a b) (hf : i32Fits a.sh = true)
    (hf' : i32Fits b.sh = false) : ∃ t s', TState.Step maxWorker (checked i32Fits a) s' ∧ s'.prog t = .panic := by
  obtain ⟨t, ht⟩ := hs
  simp only [TState.stepOf] at ht
  cases hc : Prog.step mworker (a.sh, a.locks, a.prog t) with
  | none => rw [hc] at ht; cases ht
  | some c =>
    obtain ⟨s', lk', p'⟩ := c
    rw [hc] at ht
    simp only at ht
    injection ht with ht
    subst ht
    have hf' : i32Fits s' = false := hf'
    refine ⟨t, ⟨a.sh, a.locks, Function.update (checked i32Fits a).prog t .panic⟩, ⟨t, ?_⟩, by simp⟩
    have hg := guard_step (body := mworker) (lk := a.locks) hf (a.prog t)
    rw [hc] at hg
    simp only [hf'] at hg
    simp only [TState.stepOf, checked, maxWorker]
    rw [hg]
    rfl

/-- A worker at the start of a round has nothing to add. -/
theorem local_start {rest : List (List Nat)} {d : Cnt} (h : Local rest mworker d) : d = 0 := by
  rcases h with ⟨_, h⟩ | ⟨h | h, _⟩ | h
  · exact h
  · rw [mworker_eq] at h; cases h
  · rw [mworker_eq] at h; cases h
  · exfalso
    have h1 : (LyndonWordGenerator.next (LyndonWordGenerator.new MAXW 2)).toOption.map (fun p => (p.1, p.2.stack)) =
      some (some [0], [0]) := by decide +kernel
    cases hn : LyndonWordGenerator.next (LyndonWordGenerator.new MAXW 2) with
    | error e => rw [hn] at h1; simp [Except.toOption] at h1
    | ok p =>
      obtain ⟨x, it⟩ := p
      rw [hn] at h1
      rw [mworker_eq] at h
      obtain ⟨d1, d2, -, -, -, hit, -, -⟩ := h.2 MShared.init { MShared.init with iter := it } (by
        show (do let (_, it) ← MShared.init.iter.next; pure { MShared.init with iter := it }) = _
        rw [show MShared.init.iter = LyndonWordGenerator.new MAXW 2 from rfl, hn]
        rfl)
      simp [Except.toOption] at h1
      rw [show it = LyndonWordGenerator.new MAXW 2 from hit] at h1
      exact absurd h1.2 (by decide)

/-- The overflow does happen: for any number of workers there is a run in which a worker panics (the counters for the
length 40 are too small for the outcomes of all words). -/
theorem C58_overflow_refuted (T : Nat) (hT : 0 < T) : ∃ (s : TState MShared MLock T) (t : Fin T),
    MaxReachable s ∧ s.prog t = .panic := by
  obtain ⟨ws, hm, hy⟩ := all_words
  have hws : ∀ w ∈ ws, w ≠ [] ∧ w.length ≤ MAXW := fun w hw => ⟨((hm w).1 hw).1.1, ((hm w).1 hw).2.1⟩
  obtain ⟨s, hs, hcalm, -, hp, -⟩ := solo (T := T) (t := ⟨0, hT⟩) (ds := ws) hws (rest := [])
    (s := TState.init mworker MShared.init) ⟨rfl, shape_init, by rw [List.append_nil]; exact hy⟩ rfl
  have hc := cinv_steps hws (cinv_init hy) hs
  have hno : i32Fits s.sh = false := by
    obtain ⟨done, rest, hsp, hyr, d, hl, hsum⟩ := hc
    obtain rfl := yields_unique hcalm.yields hyr
    rw [List.append_nil] at hsp
    subst hsp
    have hd0 : ∑ t, d t = 0 := by
      refine Finset.sum_eq_zero fun t _ => ?_
      have := hl t
      rw [hp] at this
      exact local_start this
    rw [hd0, add_zero] at hsum
    by_contra hfit
    rw [Bool.not_eq_false, fits_iff, hsum] at hfit
    have h1 := hfit 1 (by omega) 39
    have h2 := hfit 2 (by omega) 39
    have h3 := hfit 3 (by omega) 39
    have h4 := total_wins done (fun w hw => (hws w hw).1)
    have h5 := many_words40 hm
    omega
  have first : ∀ b : TState MShared MLock T, Steps (TState.init mworker MShared.init) b → i32Fits b.sh = false →
      ∃ a c : TState MShared MLock T, FreeReachable a ∧ i32Fits a.sh = true ∧ TState.Step mworker a c ∧ i32Fits c.sh = false := by
    intro b hb
    induction hb with
    | refl => intro h; rw [show (TState.init mworker MShared.init : TState MShared MLock T).sh = MShared.init from rfl, fits_init] at h; cases h
    | tail hr hst ih =>
      rename_i x y
      intro h
      cases hx : i32Fits x.sh with
      | true => exact ⟨x, y, hr, hx, hst, h⟩
      | false => exact ih hx
  obtain ⟨a, c, h1, h2, h3, h4⟩ := first s hs hno
  obtain ⟨t, s', h5, h6⟩ := overflow_panics h3 h2 h4
  exact ⟨s', t, (up hws hy h1 h2).tail h5, h6⟩

example : ∃ (s : TState MShared MLock 4) (t : Fin 4), MaxReachable s ∧ s.prog t = .panic ∧
    ∃ v ∈ [s.sh.num, s.sh.bwtWin, s.sh.bbwtWin, s.sh.tie], 2 ^ 31 - 1 ∈ v := by
  obtain ⟨s, t, h, ht⟩ := C58_overflow_refuted 4 (by decide)
  exact ⟨s, t, h, ht, C58_panic_only_overflow_partial 4 s h t ht⟩

/-- C58, what holds for every interleaving (3), whatever the policy of the locks: the workers that have not left
their loops can all be waiting for locks held by somebody only while the total counter is a multiple of 10000
(that is, only around a report). -/
theorem C58_deadlock_any_policy_partial (T : Nat) (s : TState MShared MLock T) (h : MaxReachable s)
    (hall : ∀ t, s.Queued t ∨ s.prog t = .stop) (hex : ∃ t, s.prog t ≠ .stop) :
    s.sh.total % 10000 = 0 := by
  obtain ⟨ws, hm, hy⟩ := all_words
  have hws : ∀ w ∈ ws, w ≠ [] ∧ w.length ≤ MAXW := fun w hw => ⟨((hm w).1 hw).1.1, ((hm w).1 hw).2.1⟩
  obtain ⟨st0, hr, hd⟩ := max_down hws hy h
  obtain ⟨H, K, g⟩ := max_ginv hws hy hr
  have hall0 : ∀ t, st0.Queued t ∨ st0.prog t = .stop := fun t => by
    rcases hall t with hb | hs
    · exact Or.inl (hd.queued hb)
    · rcases hd.prog t with hp | ⟨hp, _⟩
      · rw [hs] at hp; exact Or.inr (guard_stop hp.symm)
      · rw [hs] at hp; cases hp
  obtain ⟨t, ht⟩ := hex
  have hb : st0.Queued t := hd.queued ((hall t).resolve_right ht)
  obtain ⟨u, l, w, k, _, _, ho, ha, m, hm', hr'⟩ := g.deadlock rank hall0 ⟨t, hb⟩
  rcases ho with ho | ⟨_, h2, h3⟩
  · exact absurd (ho m hm') (by omega)
  · have : (K u).total = st0.sh.total := ha .total (by simp [h2])
    rw [hd.sh, ← this]; exact h3

example : ∃ s : TState MShared MLock 4, MaxReachable s ∧ (∀ t, s.Queued t) ∧ s.sh.total % 10000 = 0 := by
  obtain ⟨s, h, hb⟩ := C58_deadlock_refuted 4 (by decide) (by decide)
  refine ⟨s, h, fun t => blocked_queued (hb t),
    C58_deadlock_any_policy_partial 4 s h (fun t => .inl (blocked_queued (hb t))) ⟨0, fun h0 => ?_⟩⟩
  obtain ⟨-, l, w, k, e⟩ := hb 0
  rw [h0] at e
  cases e

/-- C58, the same for locks where a reader waits only for a writer. -/
theorem C58_deadlock_only_at_report_partial (T : Nat) (s : TState MShared MLock T) (h : MaxReachable s)
    (hall : ∀ t, s.Blocked maxWorker t ∨ s.prog t = .stop) (hex : ∃ t, s.prog t ≠ .stop) :
    s.sh.total % 10000 = 0 :=
  C58_deadlock_any_policy_partial T s h (fun t => (hall t).imp blocked_queued id) hex

/-- The deadlock of `C58_deadlock_refuted` meets the hypotheses. -/
example : ∃ s : TState MShared MLock 4, MaxReachable s ∧ (∀ t, s.Blocked maxWorker t) ∧ s.sh.total % 10000 = 0 := by
  obtain ⟨s, h, hb⟩ := C58_deadlock_refuted 4 (by decide) (by decide)
  refine ⟨s, h, hb, C58_deadlock_only_at_report_partial 4 s h (fun t => .inl (hb t)) ⟨0, fun h0 => ?_⟩⟩
  obtain ⟨-, l, w, k, e⟩ := hb 0
  rw [h0] at e
  cases e

/-- C58, what holds for a single worker: it never waits, and whenever it is between two words, the words
processed so far are the first ones of the enumeration of all binary Lyndon words of length at most 40, and
the recorded difference for each length is the largest among all rotations of the processed words of that
length. -/
theorem C58_single_worker_partial (s : TState MShared MLock 1) (h : MaxReachable s) :
    ¬ s.Queued 0 ∧ ¬ s.Blocked maxWorker 0 ∧
    (s.prog 0 = .again → ∃ ws done rest : List (List Nat), done ++ rest = ws ∧
      ws.Pairwise (· < ·) ∧ (∀ w, w ∈ ws ↔ IsLyndon w ∧ w.length ≤ 40 ∧ ∀ c ∈ w, c < 2) ∧
      done.length = s.sh.total ∧
      ∀ n, 1 ≤ n → n ≤ 40 →
        (∀ w ∈ done, ∀ u b c, Candidate n w u b c → b - c ≤ recorded s.sh n) ∧
        (recorded s.sh n = 0 ∨ ∃ w ∈ done, ∃ u b c, Candidate n w u b c ∧ recorded s.sh n = b - c)) := by
  obtain ⟨ws, hsort, hm, hy⟩ := lwg_all (n := MAXW) (s := 2) (by omega) (by omega)
  have hws : ∀ w ∈ ws, w ≠ [] ∧ w.length ≤ MAXW := fun w hw => ⟨((hm w).1 hw).1.1, ((hm w).1 hw).2.1⟩
  obtain ⟨st0, hr, hd⟩ := max_down hws hy h
  have hnq : ¬ s.Queued 0 := fun hb => by
    obtain ⟨H, K, g⟩ := max_ginv hws hy hr
    have hb0 := hd.queued hb
    obtain ⟨u, l, w, k, hp, hn, _⟩ := g.deadlock (fun _ => 0)
      (fun t => by obtain rfl : t = 0 := Subsingleton.elim _ _; exact Or.inl hb0) ⟨0, hb0⟩
    obtain rfl : u = 0 := Subsingleton.elim _ _
    have hl : st0.locks l = (0, false) := by
      have h1 := g.readers l
      have h2 := g.writer l
      have hall : ∀ t, H t l = none := fun t => by
        obtain rfl : t = 0 := Subsingleton.elim _ _; exact hn
      have e1 : (st0.locks l).1 = 0 := by rw [h1]; simp [hall]
      have e2 : (st0.locks l).2 = false := by
        rw [Bool.eq_false_iff]; intro h; obtain ⟨t, ht⟩ := h2.1 h; rw [hall t] at ht; cases ht
      rw [← e1, ← e2]
    obtain ⟨l1, w1, k1, hp1, hb1⟩ := hb0
    rw [hp] at hp1
    injection hp1 with e _ _
    subst e
    exact hb1 hl
  refine ⟨hnq, fun hb => hnq (blocked_queued hb), fun hag => ?_⟩
  · have h0 : Between ws MShared.init := by
      refine ⟨shape_init, [], ws, rfl, hy, rfl, fun i => ?_⟩
      simp only [best, List.foldl_nil, diff]
      show _ - _ = 0
      exact Nat.sub_self _
    have hs := Seq.reachable (lonely hws) h0 hr
    have hp : st0.prog 0 = .again := by
      rcases hd.prog 0 with hp | ⟨hp, _⟩
      · rw [hag] at hp; exact guard_again hp.symm
      · rw [hag] at hp; cases hp
    rw [hp] at hs
    obtain ⟨_, done, rest, hsp, _, htot, hdiff⟩ := hs
    refine ⟨ws, done, rest, hsp, hsort, hm, by rw [hd.sh]; exact htot.symm, fun n hn hn' => ?_⟩
    have hrec : recorded s.sh n = best done (n - 1) := by rw [hd.sh]; exact hdiff (n - 1)
    have hpos : ∀ w ∈ done, 0 < w.length := fun w hw =>
      List.length_pos_iff.2 (hws w (by rw [← hsp]; simp [hw])).1
    rw [hrec]
    obtain ⟨b1, b2⟩ := best_spec done (n - 1)
    refine ⟨fun w hw u b c hcand => ?_, ?_⟩
    · obtain ⟨_, _, hl, ⟨j, hj, rfl⟩, ⟨t, ht, rfl⟩, ⟨t', ht', rfl⟩⟩ := hcand
      refine Nat.le_trans ?_ (b1 w hw (by have := hpos w hw; omega))
      have := le_foldl_max (fun u => bwtRuns (w.map UInt8.ofNat) - bbwtRuns u)
        (mem_conjs (w := w) (i := j) (by omega))
      refine Nat.le_trans (Nat.le_of_eq ?_) this
      rw [bwtRuns, ht, bbwtRuns, ht']; rfl
    · rcases b2 with b2 | ⟨w, hw, hl, e⟩
      · exact Or.inl b2
      · rcases foldl_max_mem (fun u => bwtRuns (w.map UInt8.ofNat) - bbwtRuns u) (conjs w) with e0 | ⟨u, hu, e1⟩
        · left; rw [e]; exact e0
        · right
          have hmem : w ∈ ws := by rw [← hsp]; simp [hw]
          have hu' := hu
          simp only [conjs, List.mem_map, List.mem_range, List.length_map] at hu
          obtain ⟨j, hj, rfl⟩ := hu
          obtain ⟨t, ht, -⟩ := bwtByMatrixNaive_ok (w.map UInt8.ofNat)
          obtain ⟨t', ht'⟩ := bbwt_total (conjs_ne (hws w hmem).1 _ hu')
          have := hpos w hw
          refine ⟨w, hw, rot j (w.map UInt8.ofNat), bwtRuns (w.map UInt8.ofNat),
            bbwtRuns (rot j (w.map UInt8.ofNat)), ⟨((hm w).1 hmem).1, ((hm w).1 hmem).2.2, by omega,
            ⟨j, by omega, rfl⟩, ⟨t, ht, by rw [bwtRuns, ht]; rfl⟩, ⟨t', ht', by rw [bbwtRuns, ht']; rfl⟩⟩, ?_⟩
          rw [e]; exact e1

/-- The program cannot finish: whatever the interleaving, no state is reachable in which all workers have
left their loops, because the outcomes for the words of length 40 do not fit into the `i32` counters. -/
theorem C58_never_finishes (T : Nat) (hT : 0 < T) (s : TState MShared MLock T) (h : MaxReachable s) :
    ∃ t, s.prog t ≠ .stop := by
  by_contra hno
  push Not at hno
  obtain ⟨ws, hm, hy⟩ := all_words
  have hws : ∀ w ∈ ws, w ≠ [] ∧ w.length ≤ MAXW := fun w hw => ⟨((hm w).1 hw).1.1, ((hm w).1 hw).2.1⟩
  obtain ⟨st0, hr, hd⟩ := max_down hws hy h
  have hstop : ∀ t, st0.prog t = .stop := fun t => by
    rcases hd.prog t with hp | ⟨hp, _⟩
    · rw [hno t] at hp; exact guard_stop hp.symm
    · rw [hno t] at hp; cases hp
  obtain ⟨done, rest, hsp, _, d, hl, hsum⟩ := cinv_steps hws (cinv_init hy) hr
  have hlocal : ∀ t, d t = 0 ∧ rest = [] := fun t => by
    have := hl t
    rw [hstop t] at this
    rcases this with ⟨h1 | h1, _⟩ | ⟨_, h2, h3⟩ | h1
    · rw [mworker_eq] at h1; cases h1
    · cases h1
    · exact ⟨h2, h3⟩
    · exact h1.elim
  have hrest := (hlocal ⟨0, hT⟩).2
  have hd0 : ∑ t, d t = 0 := Finset.sum_eq_zero fun t _ => (hlocal t).1
  rw [hd0, add_zero] at hsum
  rw [hrest, List.append_nil] at hsp
  subst hsp
  have hfit := hd.fit
  rw [hd.sh, fits_iff, hsum] at hfit
  have h1 := hfit 1 (by omega) 39
  have h2 := hfit 2 (by omega) 39
  have h3 := hfit 3 (by omega) 39
  have h4 := total_wins done (fun w hw => (hws w hw).1)
  have h5 := many_words40 hm
  omega

/-- The hypotheses of the theorems above are met by the initial state, and by many others: any number of
workers can go on for a while. -/
example : MaxReachable (TState.init maxWorker MShared.init : TState MShared MLock 4) :=
  Relation.ReflTransGen.refl

/-- A single worker does come to the end of a round. -/
theorem C58_single_worker_runs : ∃ s : TState MShared MLock 1, MaxReachable s ∧ s.prog 0 = .again ∧
    s.sh.total = 1 := by
  obtain ⟨ws, hm, hy⟩ := all_words
  have hws : ∀ w ∈ ws, w ≠ [] ∧ w.length ≤ MAXW := fun w hw => ⟨((hm w).1 hw).1.1, ((hm w).1 hw).2.1⟩
  obtain ⟨rest, hr⟩ := yields_first hy (xs := firstWords) rfl eval_first
  have hy0 := hy
  rw [hr] at hy
  obtain ⟨it, hy', q⟩ := take_run (s := MShared.init) (w := [0]) (ws := firstWords.tail ++ rest) hy
  obtain ⟨s1, h1, h2, h3, h4, _, _⟩ := processWord_run (shape_iter shape_init it) (w := [0]) (by simp)
    (by decide)
  have e1 := run_to (s := (TState.init mworker MShared.init : MState 1)) (t := 0) rfl rfl (q.trans h1)
  refine ⟨_, up hws hy0 e1 ?_, ?_, ?_⟩
  · refine fits_few hws (cinv_steps hws (cinv_init hy0) e1) (rest := firstWords.tail ++ rest) ?_ ?_
    · show Yields _ s1.iter _
      rw [h3]; exact hy'
    · rw [hr]; simp [firstWords]
  · simp [checked, Prog.guard]
  · show s1.total = 1
    rw [h4]; rfl

example := C58_single_worker_partial _ C58_single_worker_runs.choose_spec.1

example := C58_never_finishes 1 (by decide) _ C58_single_worker_runs.choose_spec.1

end Verif.Props
