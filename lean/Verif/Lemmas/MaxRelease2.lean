import Verif.Lemmas.MaxRelease
import Verif.Lemmas.MaxMany

/-! # Complete runs of `max_lyndon_word` without overflow checks -/

namespace Verif.Max

open Verif Spec Model Par

variable {T : Nat} {ws : List (List Nat)}

/-- Without words left, the workers leave their loops one after the other. -/
theorem all_stop : ∀ (k : Nat), k ≤ T → ∀ {s : MState T}, Calm [] s → (∀ t, s.prog t = mworker) →
    ∃ s', Steps s s' ∧ Calm [] s' ∧ (∀ t : Fin T, s'.prog t = if t.val < k then .stop else mworker) ∧ s'.sh.total = s.sh.total := by
  intro k
  induction k with
  | zero => intro _ s hs hp; exact ⟨s, .refl, hs, fun t => by simpa using hp t, rfl⟩
  | succ k ih =>
    intro hk s hs hp
    obtain ⟨s1, h1, h2, h3, h4⟩ := ih (by omega) hs hp
    obtain ⟨it, hy, hr⟩ := take_none h2.yields
    have e := run_to (t := ⟨k, by omega⟩) h2.locks (by rw [h3]; simp) hr
    refine ⟨_, h1.trans e, ⟨rfl, shape_iter h2.shape it, hy⟩, fun t => ?_, h4⟩
    by_cases ht : t = ⟨k, by omega⟩
    · subst ht; simp
    · have hne : t.val ≠ k := fun e => ht (Fin.ext e)
      simp only [Function.update_of_ne ht, h3]
      have : t.val < k ↔ t.val < k + 1 := by omega
      simp [this]

/-- There is a run that processes all words and ends. -/
theorem complete (hws : ∀ w ∈ ws, w ≠ [] ∧ w.length ≤ MAXW)
    (hy : Yields LyndonWordGenerator.next (LyndonWordGenerator.new MAXW 2) ws) (hT : 0 < T) :
    ∃ s : MState T, FreeReachable s ∧ ∀ t, s.prog t = .stop := by
  obtain ⟨s, hs, hcalm, -, hp, -⟩ := solo (T := T) (t := ⟨0, hT⟩) (ds := ws) hws (rest := [])
    (s := TState.init mworker MShared.init) ⟨rfl, shape_init, by rw [List.append_nil]; exact hy⟩ rfl
  obtain ⟨s', h1, -, h3, -⟩ := all_stop T (le_refl _) hcalm (fun t => by rw [hp]; rfl)
  exact ⟨s', hs.trans h1, fun t => by rw [h3]; simp⟩

/-- A worker that starts a round has nothing to add. -/
theorem local_mworker {rest : List (List Nat)} {d : Cnt} (h : Local rest mworker d) : d = 0 := by
  rcases h with ⟨_, h⟩ | ⟨h | h, _⟩ | h
  · exact h
  · rw [mworker_eq] at h; cases h
  · rw [mworker_eq] at h; cases h
  · exfalso
    have h1 : (LyndonWordGenerator.next (LyndonWordGenerator.new MAXW 2)).toOption.map (fun p => (p.1, p.2.stack)) =
      some (some [0], [0]) := by decide +kernel
    cases hn : LyndonWordGenerator.next (LyndonWordGenerator.new MAXW 2) with
    | error e => rw [hn] at h1; simp [Except.toOption] at h1
    | ok p =>
      obtain ⟨x, it⟩ := p
      rw [hn] at h1
      rw [mworker_eq] at h
      obtain ⟨d1, d2, -, -, -, hit, -, -⟩ := h.2 MShared.init { MShared.init with iter := it } (by
        show (do let (_, it) ← MShared.init.iter.next; pure { MShared.init with iter := it }) = _
        rw [show MShared.init.iter = LyndonWordGenerator.new MAXW 2 from rfl, hn]
        rfl)
      simp [Except.toOption] at h1
      rw [show it = LyndonWordGenerator.new MAXW 2 from hit] at h1
      exact absurd h1.2 (by decide)

/-- The counters when all workers are at the start of a round. -/
theorem calm_counters (hws : ∀ w ∈ ws, w ≠ [] ∧ w.length ≤ MAXW)
    (hy : Yields LyndonWordGenerator.next (LyndonWordGenerator.new MAXW 2) ws) {s : MState T} (hs : FreeReachable s)
    {ds rest : List (List Nat)} (hsp : ds ++ rest = ws) (hyr : Yields LyndonWordGenerator.next s.sh.iter rest)
    (hp : ∀ t, s.prog t = mworker) : cnt s.sh = total ds := by
  obtain ⟨done, rest', hsp', hyr', d, hl, hsum⟩ := cinv_steps hws (cinv_init hy) hs
  obtain rfl := yields_unique hyr hyr'
  obtain rfl : ds = done := List.append_cancel_right (hsp.trans hsp'.symm)
  rw [← hsum, Finset.sum_eq_zero fun t _ => local_mworker (by rw [← hp t]; exact hl t), add_zero]

theorem total_num (ds : List (List Nat)) (i : Nat) : total ds 0 i = (ds.filter fun w => decide (w.length - 1 = i)).length := by
  induction ds with
  | nil => rfl
  | cons w ds ih =>
    have e : total (w :: ds) 0 i = delta w 0 i + total ds 0 i := by simp [total]
    rw [e, ih, List.filter_cons]
    have h := (wins_sum (bwtRuns (w.map UInt8.ofNat)) (w.length - 1) i (conjs w)).1
    have : delta w 0 i = if w.length - 1 = i then 1 else 0 := by
      simp only [delta, Pi.add_apply, h]
      simp [one, oneTotal, eq_comm]
    rw [this]
    by_cases h : w.length - 1 = i
    · simp [h]; omega
    · simp [h]

theorem total_total (ds : List (List Nat)) (i : Nat) : total ds 4 i = ds.length := by
  induction ds with
  | nil => rfl
  | cons w ds ih =>
    have e : total (w :: ds) 4 i = delta w 4 i + total ds 4 i := by simp [total]
    rw [e, ih, List.length_cons]
    have : delta w 4 i = 1 := by
      simp only [delta, Pi.add_apply, wins_apply]
      have hk : ∀ u ∈ conjs w, ¬ (decide (kind (bwtRuns (w.map UInt8.ofNat)) (bbwtRuns u) = 4) = true) := by
        intro u _
        rcases kind_cases (bwtRuns (w.map UInt8.ofNat)) (bbwtRuns u) with h | h | h <;> rw [h] <;> decide
      rw [List.countP_eq_zero.2 hk]
      simp [one, oneTotal]
    omega

theorem total_kind (ds : List (List Nat)) (c i : Nat) (hc : c = 1 ∨ c = 2 ∨ c = 3) :
    total ds c i = ((ds.filter fun w => decide (w.length - 1 = i)).map fun w =>
      (conjs w).countP fun u => decide (kind (bwtRuns (w.map UInt8.ofNat)) (bbwtRuns u) = c)).sum := by
  induction ds with
  | nil => rfl
  | cons w ds ih =>
    have e : total (w :: ds) c i = delta w c i + total ds c i := by simp [total]
    rw [e, ih, List.filter_cons]
    have : delta w c i = if w.length - 1 = i then
        (conjs w).countP (fun u => decide (kind (bwtRuns (w.map UInt8.ofNat)) (bbwtRuns u) = c)) else 0 := by
      simp only [delta, Pi.add_apply, wins_apply]
      have h1 : one 0 (w.length - 1) c i = 0 := by unfold one; rw [if_neg (by omega)]
      have h2 : oneTotal c i = 0 := by unfold oneTotal; rw [if_neg (by omega)]
      rw [h1, h2]
      simp [eq_comm]
    rw [this]
    by_cases h : w.length - 1 = i
    · simp [h]
    · simp [h]

/-- The report after the first `M` words, `M` a multiple of 10000, when one worker does all the work. -/
theorem report_at (hws : ∀ w ∈ ws, w ≠ [] ∧ w.length ≤ MAXW)
    (hy : Yields LyndonWordGenerator.next (LyndonWordGenerator.new MAXW 2) ws) (hT : 0 < T) {M : Nat} (h0 : 0 < M)
    (hM : M ≤ ws.length) (hm : M % 10000 = 0) :
    ∃ (s : MState T) (r : MShared), FreeReachable s ∧ (∀ l ∈ reportLines r, l ∈ s.sh.out) ∧ s.locks = free ∧
      cnt r = total (ws.take M) ∧ r.total = M := by
  let t0 : Fin T := ⟨0, hT⟩
  have hsplit : ws.take (M - 1) ++ ws.drop (M - 1) = ws := List.take_append_drop _ _
  obtain ⟨w, tl, hcons⟩ : ∃ w tl, ws.drop (M - 1) = w :: tl := by
    cases h : ws.drop (M - 1) with
    | nil => have := List.drop_eq_nil_iff.1 h; omega
    | cons w tl => exact ⟨w, tl, rfl⟩
  have hw : w ∈ ws := List.mem_of_mem_drop (i := M - 1) (by rw [hcons]; simp)
  obtain ⟨s1, hs, hcalm, htot, hp, -⟩ := solo (T := T) (t := t0) (ds := ws.take (M - 1))
    (fun v hv => hws v (List.mem_of_mem_take hv)) (rest := ws.drop (M - 1))
    (s := TState.init mworker MShared.init) ⟨rfl, shape_init, by rw [hsplit]; exact hy⟩ rfl
  obtain ⟨hl, hsh, hyr⟩ := hcalm
  rw [hcons] at hyr
  obtain ⟨hne, hlen⟩ := hws w hw
  obtain ⟨it, hy', hr⟩ := take_run hyr
  obtain ⟨s2, h1, h2, -⟩ := processWord_out (shape_iter hsh it) hne hlen
  have hpt : s1.prog t0 = mworker := by rw [hp]; rfl
  have e1 := run_to hl hpt (hr.trans h1)
  set c := counted (w.length - 1) s2 with hc
  have hct : c.total = M := by
    show s2.total + 1 = M
    rw [h2.total]
    show s1.sh.total + 1 = M
    rw [htot, List.length_take]
    show 0 + min (M - 1) ws.length + 1 = M
    omega
  have hrep : reported c = printed (reportLines c) c := by unfold reported; rw [if_pos (by rw [hct]; exact hm)]
  rw [hrep] at e1
  let st1 : MState T := ⟨printed (reportLines c) c, free, Function.update s1.prog t0 .again⟩
  have e2 : TState.Step mworker st1 ⟨printed (reportLines c) c, free, Function.update st1.prog t0 mworker⟩ :=
    step_again (s := st1) (t := t0) (by simp [st1])
  have e3 : (⟨printed (reportLines c) c, free, Function.update st1.prog t0 mworker⟩ : MState T) =
      ⟨printed (reportLines c) c, free, s1.prog⟩ := by
    simp only [st1, Function.update_idem]
    rw [← hpt, Function.update_eq_self]
  rw [e3] at e2
  have hreach : FreeReachable (⟨printed (reportLines c) c, free, s1.prog⟩ : MState T) := (hs.trans e1).tail e2
  refine ⟨_, c, hreach, fun l hl => ?_, rfl, ?_, hct⟩
  · show l ∈ c.out ++ reportLines c
    exact List.mem_append_right _ hl
  · have hiter : Yields LyndonWordGenerator.next (printed (reportLines c) c).iter tl := by
      show Yields _ s2.iter _
      rw [h2.iter]
      exact hy'
    have htake : ws.take M ++ tl = ws := by
      have : tl = ws.drop M := by
        have := congrArg List.tail hcons
        rw [List.tail_drop, show M - 1 + 1 = M by omega] at this
        exact this.symm
      rw [this, List.take_append_drop]
    have := calm_counters hws hy hreach htake hiter (fun t => by show s1.prog t = _; rw [hp]; rfl)
    rw [← this]
    exact (cnt_printed _ _).symm

/-- The number of words of length 40 among the first ones passes `2^31` slowly. -/
theorem crossing (h40 : 2 ^ 31 + 10000 ≤ (ws.filter fun w => decide (w.length - 1 = 39)).length) :
    ∃ M, 0 < M ∧ M ≤ ws.length ∧ M % 10000 = 0 ∧
      2 ^ 31 ≤ ((ws.take M).filter fun w => decide (w.length - 1 = 39)).length ∧
      ((ws.take M).filter fun w => decide (w.length - 1 = 39)).length < 2 ^ 31 + 10000 := by
  set f : Nat → Nat := fun M => ((ws.take M).filter fun w => decide (w.length - 1 = 39)).length with hf
  have hstep : ∀ M k, f (M + k) ≤ f M + k := by
    intro M k
    simp only [hf]
    rw [List.take_add, List.filter_append, List.length_append]
    have := List.length_filter_le (fun w => decide (w.length - 1 = 39)) ((ws.drop M).take k)
    rw [List.length_take] at this
    omega
  have hlast : f ws.length = (ws.filter fun w => decide (w.length - 1 = 39)).length := by simp [hf]
  set q := ws.length / 10000
  have hq : 2 ^ 31 ≤ f (10000 * q) := by
    have h1 := hstep (10000 * q) (ws.length % 10000)
    rw [Nat.div_add_mod, hlast] at h1
    have := Nat.mod_lt ws.length (show 10000 > 0 by omega)
    omega
  have hex : ∃ j, 2 ^ 31 ≤ f (10000 * j) := ⟨q, hq⟩
  classical
  let j := Nat.find hex
  have hj : 2 ^ 31 ≤ f (10000 * j) := Nat.find_spec hex
  have hjq : j ≤ q := Nat.find_min' hex hq
  have hj0 : j ≠ 0 := fun e => by
    rw [e] at hj
    simp [hf] at hj
  have hprev : f (10000 * (j - 1)) < 2 ^ 31 := by
    by_contra hc
    have : j ≤ j - 1 := Nat.find_min' hex (by omega)
    omega
  have hle := hstep (10000 * (j - 1)) 10000
  rw [show 10000 * (j - 1) + 10000 = 10000 * j by omega] at hle
  refine ⟨10000 * j, by omega, ?_, by omega, hj, show f (10000 * j) < _ by omega⟩
  have := Nat.mul_le_mul_left 10000 hjq
  have := Nat.div_mul_le_self ws.length 10000
  omega

/-- Steps of the run without overflow are bounded. -/
theorem free_bounded (hws : ∀ w ∈ ws, w ≠ [] ∧ w.length ≤ MAXW)
    (hy : Yields LyndonWordGenerator.next (LyndonWordGenerator.new MAXW 2) ws) (n : Nat) (run : Nat → MState T)
    (h0 : run 0 = TState.init mworker MShared.init) (hrun : ∀ i < n, TState.Step mworker (run i) (run (i + 1))) :
    n ≤ 1215 * ws.length + 3 * T := by
  have key : ∀ j ≤ n, FreeReachable (run j) ∧ ∃ rest, ∃ m : Fin T → Nat, Yields LyndonWordGenerator.next (run j).sh.iter rest ∧
      (∀ t, LCost ((run j).prog t) (m t)) ∧ j + (1215 * rest.length + ∑ t, m t) ≤ 1215 * ws.length + 3 * T := by
    intro j
    induction j with
    | zero =>
      intro _
      rw [h0]
      exact ⟨.refl, ws, fun _ => 3, hy, fun t => .inl ⟨rfl, le_refl _⟩, by simp; omega⟩
    | succ j ih =>
      intro hj
      obtain ⟨hr, rest, m, h1, h2, h3⟩ := ih (by omega)
      have hst := hrun j (by omega)
      refine ⟨hr.tail hst, ?_⟩
      obtain ⟨t, ht⟩ := hst
      obtain ⟨ho, rest', n', g1, g2, g3⟩ := free_decreases (cinv_steps hws (cinv_init hy) hr) h1 (h2 t) ht
      refine ⟨rest', Function.update m t n', g1, fun u => ?_, ?_⟩
      · by_cases hu : u = t
        · subst hu; simpa using g2
        · rw [ho u hu, Function.update_of_ne hu]; exact h2 u
      · have := sum_change (f := m) (g := Function.update m t n') t (fun u hu => by simp [hu])
        simp only [Function.update_self] at this
        omega
  obtain ⟨-, rest, m, -, -, h⟩ := key n (le_refl n)
  omega

/-- A run of the release build of any length comes from a run without overflow. -/
theorem rel_run (hws : ∀ w ∈ ws, w ≠ [] ∧ w.length ≤ MAXW)
    (hy : Yields LyndonWordGenerator.next (LyndonWordGenerator.new MAXW 2) ws) (n : Nat) (run : Nat → MState T)
    (h0 : run 0 = TState.init relWorker MShared.init) (hrun : ∀ i < n, TState.Step relWorker (run i) (run (i + 1))) :
    ∃ r0 : Nat → MState T, r0 0 = TState.init mworker MShared.init ∧ (∀ i < n, TState.Step mworker (r0 i) (r0 (i + 1))) ∧
      ∀ i ≤ n, FreeReachable (r0 i) ∧ TRel (r0 i) (run i) := by
  induction n with
  | zero =>
    exact ⟨fun _ => TState.init mworker MShared.init, rfl, fun i hi => by omega, fun i hi => ⟨.refl, by
      rw [show i = 0 by omega, h0]; exact trel_init⟩⟩
  | succ n ih =>
    obtain ⟨r0, a1, a2, a3⟩ := ih (fun i hi => hrun i (by omega))
    obtain ⟨hr, hrel⟩ := a3 n (le_refl n)
    obtain ⟨t, ht⟩ := hrun n (by omega)
    obtain ⟨g1, g2⟩ := rel_stepOf hws hy hr hrel t
    cases hc : (r0 n).stepOf mworker t with
    | none => rw [g2 hc] at ht; cases ht
    | some a' =>
      obtain ⟨b', h3, h4⟩ := g1 a' hc
      rw [ht] at h3
      injection h3 with h3
      refine ⟨fun i => if i ≤ n then r0 i else a', by simp [a1], fun i hi => ?_, fun i hi => ?_⟩
      · by_cases hin : i < n
        · simp only [show i ≤ n by omega, show i + 1 ≤ n by omega, if_true]
          exact a2 i hin
        · obtain rfl : i = n := by omega
          simp only [le_refl, if_true, show ¬ i + 1 ≤ i by omega, if_false]
          exact ⟨t, hc⟩
      · by_cases hin : i ≤ n
        · simp only [hin, if_true]; exact a3 i hin
        · obtain rfl : i = n + 1 := by omega
          simp only [hin, if_false]
          rw [h3]
          exact ⟨hr.tail ⟨t, hc⟩, h4⟩

end Verif.Max
