import Verif.Lemmas.MaxEval

/-! # Interleavings of `max_lyndon_word` that go wrong -/

namespace Verif.Max

open Verif Spec Model Par

variable {T : Nat}

abbrev MState (T : Nat) := TState MShared MLock T

/-- Some steps of some threads. -/
abbrev Steps (s s' : MState T) : Prop := Relation.ReflTransGen (TState.Step mworker) s s'

/-- Reachable without overflow checks. -/
def FreeReachable (s : MState T) : Prop := TState.Reachable mworker MShared.init s

theorem shape_iter {s : MShared} (hs : Shape s) (it : LyndonWordGenerator) : Shape { s with iter := it } :=
  ⟨hs.num, hs.bwtWin, hs.bbwtWin, hs.tie, hs.bestBwt, hs.bestBbwt, hs.bestText, hs.le⟩

/-- Nobody holds a lock, and the generator still has the words `ws`. -/
structure Calm (ws : List (List Nat)) (s : MState T) : Prop where
  locks : s.locks = free
  shape : Shape s.sh
  yields : Yields LyndonWordGenerator.next s.sh.iter ws

theorem run_to {s : MState T} {t : Fin T} {p p' : MProg} {s' : MShared} (hl : s.locks = free)
    (hp : s.prog t = p) (h : PRuns mworker (s.sh, free, p) (s', free, p')) :
    Steps s ⟨s', free, Function.update s.prog t p'⟩ := by
  rw [← hl] at h
  have := PRuns.lift hp h
  simpa [hl] using this

/-- A thread processes words on its own. -/
theorem solo {t : Fin T} {ds : List (List Nat)} (hds : ∀ w ∈ ds, w ≠ [] ∧ w.length ≤ MAXW)
    {rest : List (List Nat)} : ∀ {s : MState T}, Calm (ds ++ rest) s → s.prog t = mworker →
    ∃ s', Steps s s' ∧ Calm rest s' ∧ s'.sh.total = s.sh.total + ds.length ∧ s'.prog = s.prog ∧
      ∀ i, (∀ w ∈ ds, w.length - 1 ≠ i) → diff s'.sh i = diff s.sh i := by
  induction ds with
  | nil => intro s h _; exact ⟨s, Relation.ReflTransGen.refl, h, rfl, rfl, fun _ _ => rfl⟩
  | cons w ds ih =>
    intro s h hp
    obtain ⟨hl, hs, hy⟩ := h
    obtain ⟨hne, hlen⟩ := hds w (by simp)
    obtain ⟨it, hy', hr⟩ := take_run hy
    obtain ⟨s1, h1, h2, h3, h4, h5, h6⟩ := processWord_run (shape_iter hs it) hne hlen
    have e1 := run_to hl hp (hr.trans h1)
    let st1 : MState T := ⟨s1, free, Function.update s.prog t .again⟩
    have e2 : TState.Step mworker st1 ⟨s1, free, Function.update st1.prog t mworker⟩ :=
      step_again (s := st1) (t := t) (by simp [st1])
    have e3 : (⟨s1, free, Function.update st1.prog t mworker⟩ : MState T) = ⟨s1, free, s.prog⟩ := by
      simp only [st1, Function.update_idem]
      rw [← hp, Function.update_eq_self]
    rw [e3] at e2
    obtain ⟨s2, g1, g2, g3, g4, g5⟩ := ih (fun v hv => hds v (by simp [hv])) (s := ⟨s1, free, s.prog⟩)
      ⟨rfl, h2, by rw [h3]; exact hy'⟩ hp
    refine ⟨s2, (e1.tail e2).trans g1, g2, ?_, g4, ?_⟩
    · rw [g3]; simp only [List.length_cons]; rw [h4]; show s.sh.total + 1 + _ = _; omega
    · intro i hi
      rw [g5 i (fun v hv => hi v (by simp [hv]))]
      exact h6 i (fun e => hi w (by simp) e.symm)

/-- Each of the given threads takes a word and computes until it is about to count it. -/
theorem all_wait {us : List (Fin T)} (hnd : us.Nodup) {ds : List (List Nat)} (hlen : us.length = ds.length)
    (hds : ∀ w ∈ ds, w ≠ [] ∧ w.length ≤ MAXW) {rest : List (List Nat)} : ∀ {s : MState T},
    Calm (ds ++ rest) s → (∀ u ∈ us, s.prog u = mworker) →
    ∃ s', Steps s s' ∧ Calm rest s' ∧ s'.sh.total = s.sh.total ∧ s'.sh.out = s.sh.out ∧
      (∀ u, u ∉ us → s'.prog u = s.prog u) ∧
      ∀ u ∈ us, ∃ l < MAXW, s'.prog u = countWord l checkReport := by
  induction us generalizing ds with
  | nil =>
    intro s h _
    obtain rfl : ds = [] := List.eq_nil_of_length_eq_zero hlen.symm
    exact ⟨s, Relation.ReflTransGen.refl, h, rfl, rfl, fun _ _ => rfl, fun u hu => by simp at hu⟩
  | cons u us ih =>
    intro s h hp
    obtain ⟨w, ds, rfl⟩ : ∃ w ds', ds = w :: ds' := by
      cases ds with
      | nil => simp at hlen
      | cons w ds => exact ⟨w, ds, rfl⟩
    obtain ⟨hl, hs, hy⟩ := h
    obtain ⟨hne, hwl⟩ := hds w (by simp)
    obtain ⟨it, hy', hr⟩ := take_run hy
    obtain ⟨s1, h1, h2, h3⟩ := processWord_conjs (shape_iter hs it) hne hwl
    have e1 := run_to hl (hp u (by simp)) (hr.trans h1)
    obtain ⟨hnu, hnd'⟩ := List.nodup_cons.1 hnd
    obtain ⟨s2, g1, g2, g3, g0, g4, g5⟩ := ih hnd' (by simpa using hlen) (fun v hv => hds v (by simp [hv]))
      (s := ⟨s1, free, Function.update s.prog u (countWord (w.length - 1) checkReport)⟩)
      ⟨rfl, h2.shape, by rw [h2.iter]; exact hy'⟩ (fun v hv => by
        have : v ≠ u := fun e => hnu (e ▸ hv)
        simp only [Function.update_of_ne this]
        exact hp v (by simp [hv]))
    refine ⟨s2, e1.trans g1, g2, by rw [g3]; exact h2.total, by rw [g0]; exact h2.out, fun v hv => ?_,
      fun v hv => ?_⟩
    · rw [g4 v (fun h => hv (by simp [h]))]
      have : v ≠ u := fun e => hv (by simp [e])
      simp only [Function.update_of_ne this]
    · rcases List.mem_cons.1 hv with rfl | hv
      · refine ⟨w.length - 1, ?_, ?_⟩
        · have := List.length_pos_iff.2 hne; omega
        · rw [g4 v hnu]; simp
      · exact g5 v hv

/-! ### Many words -/

theorem zeros_lt (n : Nat) : ∀ (x s : List Nat), (∀ c ∈ s, c < 2) → 1 ∈ s → ¬ List.replicate n 0 <+: s →
    List.replicate n 0 ++ x < s := by
  induction n with
  | zero => intro x s _ _ h; simp at h
  | succ n ih =>
    intro x s hb h1 hp
    match s, hb, h1, hp with
    | c :: s, hb, h1, hp =>
      rw [List.replicate_succ, List.cons_append]
      have hc := hb c (by simp)
      by_cases h0 : c = 0
      · subst h0
        rw [List.cons_lt_cons_self]
        refine ih x s (fun d hd => hb d (by simp [hd])) (by simpa using h1) (fun hpre => hp ?_)
        rw [List.replicate_succ]
        exact (List.prefix_cons_inj 0).2 hpre
      · exact List.Lex.rel (by omega)

theorem words2_spec (n : Nat) : (words2 n).Nodup ∧ ∀ v ∈ words2 n, v.length = n ∧ ∀ c ∈ v, c < 2 := by
  induction n with
  | zero => simp [words2]
  | succ n ih =>
    obtain ⟨h1, h2⟩ := ih
    refine ⟨?_, ?_⟩
    · rw [words2, List.nodup_append]
      refine ⟨h1.map (fun a b h => by simpa using h), h1.map (fun a b h => by simpa using h), ?_⟩
      intro a ha b hb
      simp only [List.mem_map] at ha hb
      obtain ⟨x, _, rfl⟩ := ha
      obtain ⟨y, _, rfl⟩ := hb
      simp
    · intro v hv
      simp only [words2, List.mem_append, List.mem_map] at hv
      rcases hv with ⟨x, hx, rfl⟩ | ⟨x, hx, rfl⟩
      · obtain ⟨h3, h4⟩ := h2 x hx
        exact ⟨by simp [h3], by simpa using h4⟩
      · obtain ⟨h3, h4⟩ := h2 x hx
        exact ⟨by simp [h3], by simpa using h4⟩

/-- `0^15 1 v 1` -/
def longWord (v : List Nat) : List Nat := List.replicate 15 0 ++ ([1] ++ v ++ [1])

theorem longWord_lyndon {v : List Nat} (hl : v.length = 14) (hb : ∀ c ∈ v, c < 2) :
    IsLyndon (longWord v) := by
  have hlen : (longWord v).length = 31 := by simp [longWord, hl]
  have h15 : (longWord v)[15]? = some 1 := by
    rw [longWord, List.getElem?_append_right (by simp)]; simp
  have h30 : (longWord v)[30]? = some 1 := by
    rw [longWord, List.getElem?_append_right (by simp), List.getElem?_append_right (by simp [hl])]
    simp [hl]
  have hbin : ∀ c ∈ longWord v, c < 2 := by
    intro c hc
    simp only [longWord, List.mem_append, List.mem_replicate, List.mem_singleton] at hc
    rcases hc with ⟨_, rfl⟩ | (rfl | h) | rfl
    · omega
    · omega
    · exact hb c h
    · omega
  refine ⟨by rw [← List.length_pos_iff]; omega, fun u s hu hs h => ?_⟩
  have hul := List.length_pos_iff.2 hu
  have hsl := List.length_pos_iff.2 hs
  have hsum : u.length + s.length = 31 := by rw [← hlen, h, List.length_append]
  have hsuf : s = (longWord v).drop u.length := by rw [h]; simp
  have hget : ∀ j, s[j]? = (longWord v)[u.length + j]? := fun j => by rw [hsuf, List.getElem?_drop]
  have hmem : 1 ∈ s := by
    have : s[30 - u.length]? = some 1 := by
      rw [hget, show u.length + (30 - u.length) = 30 by omega]; exact h30
    exact List.mem_of_getElem? this
  have hsb : ∀ c ∈ s, c < 2 := fun c hc => hbin c (by rw [h]; simp [hc])
  have : ¬ List.replicate 15 0 <+: s := by
    rintro ⟨r, hr⟩
    have hz : ∀ j, j < 15 → s[j]? = some 0 := fun j hj => by
      rw [← hr, List.getElem?_append_left (by rw [List.length_replicate]; exact hj),
        List.getElem?_replicate, if_pos hj]
    have hs15 : 15 ≤ s.length := by rw [← hr]; simp
    by_cases hu15 : u.length ≤ 15
    · have := hz (15 - u.length) (by omega)
      rw [hget, show u.length + (15 - u.length) = 15 by omega, h15] at this
      simp at this
    · have := hz 14 (by omega)
      rw [hget, show u.length + 14 = 30 by omega, h30] at this
      simp at this
  exact zeros_lt 15 _ s hsb hmem this

theorem many_words {ws : List (List Nat)} (h : ∀ w, w ∈ ws ↔ IsLyndon w ∧ w.length ≤ MAXW ∧ ∀ c ∈ w, c < 2) :
    16384 ≤ ws.length := by
  obtain ⟨hnd, hspec⟩ := words2_spec 14
  have hnd' : ((words2 14).map longWord).Nodup := hnd.map (fun a b hab => by
    simpa [longWord] using hab)
  have hsub : (words2 14).map longWord ⊆ ws := by
    intro w hw
    obtain ⟨v, hv, rfl⟩ := List.mem_map.1 hw
    obtain ⟨hl, hb⟩ := hspec v hv
    refine (h _).2 ⟨longWord_lyndon hl hb, by simp [longWord, hl, MAXW], ?_⟩
    intro c hc
    simp only [longWord, List.mem_append, List.mem_replicate, List.mem_singleton] at hc
    rcases hc with ⟨_, rfl⟩ | (rfl | h) | rfl
    · omega
    · omega
    · exact hb c h
    · omega
  have := (List.subperm_of_subset hnd' hsub).length_le
  rw [List.length_map, words2_length] at this
  exact this

theorem all_words : ∃ ws : List (List Nat),
    (∀ w, w ∈ ws ↔ IsLyndon w ∧ w.length ≤ MAXW ∧ ∀ c ∈ w, c < 2) ∧
    Yields LyndonWordGenerator.next (LyndonWordGenerator.new MAXW 2) ws := by
  obtain ⟨ws, _, h2, h3⟩ := lwg_all (n := MAXW) (s := 2) (by omega) (by omega)
  exact ⟨ws, h2, h3⟩

/-! ### Deadlock -/

theorem report_eq (k : MProg) : ∃ k', report k = .acq .num true k' := ⟨_, rfl⟩

theorem countWord_eq (l : Nat) (k : MProg) : ∃ k', countWord l k = .acq .num true k' := ⟨_, rfl⟩

theorem waits {s : MState T} {t : Fin T} {l : MLock} {w : Bool} {k : MProg} (hp : s.prog t = .acq l w k)
    (hl : s.locks l = (0, true)) : s.Blocked mworker t := by
  refine ⟨?_, l, w, k, hp⟩
  cases w <;> simp [TState.stepOf, hp, Prog.step, hl]

theorem deadlock (h2 : 2 ≤ T) (h6 : T ≤ 6000) {ws : List (List Nat)}
    (hm : ∀ w, w ∈ ws ↔ IsLyndon w ∧ w.length ≤ MAXW ∧ ∀ c ∈ w, c < 2)
    (hy : Yields LyndonWordGenerator.next (LyndonWordGenerator.new MAXW 2) ws) :
    ∃ s : MState T, FreeReachable s ∧ (∀ t, s.Blocked mworker t) ∧
      ∃ rest, Yields LyndonWordGenerator.next s.sh.iter rest ∧ ws.length ≤ rest.length + 20000 := by
  have hlen := many_words hm
  have hgood : ∀ w ∈ ws, w ≠ [] ∧ w.length ≤ MAXW := fun w hw => ⟨((hm w).1 hw).1.1, ((hm w).1 hw).2.1⟩
  let t0 : Fin T := ⟨0, by omega⟩
  let t1 : Fin T := ⟨1, by omega⟩
  have h01 : t1 ≠ t0 := by simp [t0, t1, Fin.ext_iff]
  let s0 : MState T := TState.init mworker MShared.init
  -- the words: 9999 for thread 0, then one for each thread
  have hsp : ws = ws.take 9999 ++ ((ws.drop 9999).take T ++ (ws.drop 9999).drop T) := by
    rw [List.take_append_drop, List.take_append_drop]
  have hc0 : Calm (T := T) (ws.take 9999 ++ ((ws.drop 9999).take T ++ (ws.drop 9999).drop T)) s0 :=
    ⟨rfl, shape_init, hsp ▸ hy⟩
  obtain ⟨s1, r1, c1, e1, p1, _⟩ := solo (t := t0) (fun w hw => hgood w (List.mem_of_mem_take hw)) hc0 rfl
  obtain ⟨s2, r2, c2, e2, -, p2, q2⟩ := all_wait (us := List.finRange T) (List.nodup_finRange T)
    (ds := (ws.drop 9999).take T) (by simp; omega)
    (fun w hw => hgood w (List.mem_of_mem_drop (List.mem_of_mem_take hw))) c1 (fun u _ => by rw [p1]; rfl)
  have htot : s2.sh.total = 9999 := by
    rw [e2, e1]; simp [s0, TState.init, MShared.init]; omega
  have hprog : ∀ u, ∃ l < MAXW, s2.prog u = countWord l checkReport := fun u => q2 u (List.mem_finRange u)
  -- thread 0 counts its word and asks for the number of words
  obtain ⟨l0, hl0, hp0⟩ := hprog t0
  have r3 := run_to c2.locks hp0 (countWord_run c2.shape hl0 checkReport)
  let sh3 := counted l0 s2.sh
  have htot3 : sh3.total % 10000 = 0 := by show (s2.sh.total + 1) % 10000 = 0; rw [htot]
  let lk4 : MLock → Holds := Function.update free .total (0, true)
  have q4 : PRuns mworker (sh3, free, checkReport) (sh3, lk4, report (.rel .total true .again)) := by
    refine PRuns.acqW (by simp [free]) (PRuns.act (s' := sh3) rfl ?_)
    rw [if_pos htot3]
    exact Relation.ReflTransGen.refl
  let st3 : MState T := ⟨sh3, free, Function.update s2.prog t0 checkReport⟩
  have r4 : Steps st3 ⟨sh3, lk4, Function.update s2.prog t0 (report (.rel .total true .again))⟩ := by
    have := PRuns.lift (s := st3) (t := t0) (by simp [st3]) q4
    simpa [st3] using this
  -- thread 1 locks the number of words and asks for the total
  let st4 : MState T := ⟨sh3, lk4, Function.update s2.prog t0 (report (.rel .total true .again))⟩
  obtain ⟨l1, hl1, hp1⟩ := hprog t1
  let lk5 : MLock → Holds := Function.update lk4 .num (0, true)
  obtain ⟨sh5, rest5, i5, q5⟩ : ∃ (sh5 : MShared) (k : MProg), sh5.iter = sh3.iter ∧
      PRuns mworker (sh3, lk4, countWord l1 checkReport) (sh5, lk5, .acq .total true k) := by
    refine ⟨{ sh3 with num := sh3.num.set l1 (sh3.num.getD l1 0 + 1) },
      .act (fun s => pure { s with total := s.total + 1 }) fun _ =>
        .rel .total true <| .rel .num true checkReport, rfl, ?_⟩
    have hnum := num_ok (shape_counted c2.shape : Shape sh3) hl1
    unfold countWord
    refine PRuns.acqW (by simp [lk4, free]) ?_
    refine PRuns.act (s := sh3) (s' := { sh3 with num := sh3.num.set l1 (sh3.num.getD l1 0 + 1) }) ?_ ?_
    · rw [hnum]; rfl
    · exact Relation.ReflTransGen.refl
  have hp1' : st4.prog t1 = countWord l1 checkReport := by
    simp only [st4, Function.update_of_ne h01]; exact hp1
  have r5 := PRuns.lift (s := st4) (t := t1) hp1' q5
  refine ⟨_, r1.trans (r2.trans (r3.trans (r4.trans r5))), fun t => ?_, (ws.drop 9999).drop T, ?_, ?_⟩
  rotate_left
  · show Yields _ sh5.iter _
    rw [i5]
    exact c2.yields
  · simp only [List.length_drop]; omega
  -- everybody waits
  have hnum : lk5 .num = (0, true) := by simp [lk5]
  have htl : lk5 .total = (0, true) := by simp [lk5, lk4]
  by_cases ht1 : t = t1
  · subst ht1
    exact waits (by simp only [Function.update_self]; rfl) htl
  · by_cases ht0 : t = t0
    · subst ht0
      obtain ⟨k, hk⟩ := report_eq (.rel .total true .again)
      refine waits (l := .num) (w := true) (k := k) ?_ hnum
      simp only [Function.update_of_ne ht1, st4, Function.update_self, hk]
    · obtain ⟨l, _, hp⟩ := hprog t
      obtain ⟨k, hk⟩ := countWord_eq l checkReport
      refine waits (l := .num) (w := true) (k := k) ?_ hnum
      simp only [Function.update_of_ne ht1, st4, Function.update_of_ne ht0, hp, hk]

/-! ### A lost update -/

theorem yields_first {xs ws : List (List Nat)} {k : Nat} {it : LyndonWordGenerator}
    (hy : Yields LyndonWordGenerator.next it ws) (hk : xs.length = k)
    (h : runIter LyndonWordGenerator.next k it = .ok (xs.map some)) : ∃ rest, ws = xs ++ rest := by
  have h1 := hy k
  rw [h] at h1
  injection h1 with h1
  clear h hy
  subst hk
  generalize hr : List.replicate xs.length (none : Option (List Nat)) = r at h1
  have hr' : ∀ o ∈ r, o = none := by rw [← hr]; intro o ho; exact List.eq_of_mem_replicate ho
  clear hr
  induction xs generalizing ws with
  | nil => exact ⟨ws, rfl⟩
  | cons x xs ih =>
    cases ws with
    | nil =>
      exfalso
      have : some x ∈ r := List.mem_of_mem_take (i := (x :: xs).length) (by
        have h2 : some x ∈ (x :: xs).map some := by simp
        rw [h1] at h2; simpa using h2)
      have := hr' _ this
      cases this
    | cons w ws =>
      simp only [List.map_cons, List.cons_append, List.length_cons, List.take_succ_cons, List.cons.injEq,
        Option.some.injEq] at h1
      obtain ⟨rfl, h1⟩ := h1
      obtain ⟨rest, rfl⟩ := ih h1
      exact ⟨rest, rfl⟩

theorem lost_update (h3 : 3 ≤ T) {ws : List (List Nat)}
    (hm : ∀ w, w ∈ ws ↔ IsLyndon w ∧ w.length ≤ MAXW ∧ ∀ c ∈ w, c < 2)
    (hy : Yields LyndonWordGenerator.next (LyndonWordGenerator.new MAXW 2) ws) :
    ∃ s s' : MState T, FreeReachable s ∧ Steps s s' ∧ s.locks = free ∧
      s'.locks = free ∧ 2 ≤ diff s.sh 39 ∧ diff s'.sh 39 ≤ 1 ∧
      ∃ rest, Yields LyndonWordGenerator.next s'.sh.iter rest ∧ ws.length ≤ rest.length + 20000 := by
  obtain ⟨rest, hws⟩ := yields_first hy (xs := firstWords) rfl eval_first
  have hgood : ∀ w ∈ ws, w ≠ [] ∧ w.length ≤ MAXW := fun w hw => ⟨((hm w).1 hw).1.1, ((hm w).1 hw).2.1⟩
  have hg3 := hgood word3 (by rw [hws]; simp [firstWords])
  have hg5 := hgood word5 (by rw [hws]; simp [firstWords])
  let t0 : Fin T := ⟨0, by omega⟩
  let t1 : Fin T := ⟨1, by omega⟩
  let t2 : Fin T := ⟨2, by omega⟩
  have h01 : t0 ≠ t1 := by simp [t0, t1]
  have h02 : t0 ≠ t2 := by simp [t0, t2]
  have h12 : t1 ≠ t2 := by simp [t1, t2]
  let s0 : MState T := TState.init mworker MShared.init
  let w1 : List Nat := List.replicate 39 0 ++ [1]
  let w2 : List Nat := List.replicate 38 0 ++ [1]
  let w4 : List Nat := List.replicate 37 0 ++ [1]
  have hc0 : Calm (T := T) ([[0]] ++ (w1 :: ([w2] ++ (word3 :: ([w4] ++ (word5 :: rest)))))) s0 :=
    ⟨rfl, shape_init, by rw [hws] at hy; exact hy⟩
  -- thread 0 processes `0`
  obtain ⟨s1, r1, c1, _, p1, d1⟩ := solo (t := t0) (fun w hw => by
    obtain rfl := List.mem_singleton.1 hw; simp [MAXW]) hc0 rfl
  -- thread 2 takes the next word and does nothing with it
  obtain ⟨it2, y2, q2⟩ := take_run c1.yields
  have r2 := run_to (t := t2) c1.locks (by rw [p1]; rfl) q2
  -- thread 0 processes the word after that
  obtain ⟨s3, r3, c3, _, p3, d3⟩ := solo (t := t0) (ds := [w2]) (rest := word3 :: ([w4] ++ (word5 :: rest)))
    (s := ⟨{ s1.sh with iter := it2 }, free, Function.update s1.prog t2 (processWord w1)⟩)
    (fun w hw => by obtain rfl := List.mem_singleton.1 hw; simp [w2, MAXW])
    ⟨rfl, shape_iter c1.shape _, y2⟩ (by simp only [Function.update_of_ne h02]; rw [p1]; rfl)
  -- and takes `word3`
  obtain ⟨it4, y4, q4⟩ := take_run c3.yields
  have r4 := run_to (t := t0) c3.locks
    (by rw [p3]; simp only [Function.update_of_ne h02]; rw [p1]; rfl) q4
  -- thread 1 processes a word
  obtain ⟨s5, r5, c5, _, p5, d5⟩ := solo (t := t1) (ds := [w4]) (rest := word5 :: rest)
    (s := ⟨{ s3.sh with iter := it4 }, free, Function.update s3.prog t0 (processWord word3)⟩)
    (fun w hw => by obtain rfl := List.mem_singleton.1 hw; simp [w4, MAXW])
    ⟨rfl, shape_iter c3.shape _, y4⟩
    (by simp only [Function.update_of_ne h01.symm]; rw [p3]; simp only [Function.update_of_ne h12]; rw [p1]; rfl)
  -- and takes `word5`, and decides to store it
  obtain ⟨it6, y6, q6⟩ := take_run c5.yields
  have hp6 : s5.prog t1 = mworker := by
    rw [p5]; simp only [Function.update_of_ne h01.symm]; rw [p3]; simp only [Function.update_of_ne h12]
    rw [p1]; rfl
  have hd0 : diff ({ s5.sh with iter := it6 } : MShared) 39 = 0 := by
    show diff s5.sh 39 = 0
    rw [d5 39 (fun w hw => by obtain rfl := List.mem_singleton.1 hw; simp [w4])]
    show diff s3.sh 39 = 0
    rw [d3 39 (fun w hw => by obtain rfl := List.mem_singleton.1 hw; simp [w2])]
    show diff s1.sh 39 = 0
    rw [d1 39 (fun w hw => by obtain rfl := List.mem_singleton.1 hw; simp)]
    rfl
  obtain ⟨sh7, u, us', it7, f7, hu, hus, hub, q7, k7, y7, hf7⟩ := conjugateLoop_pending (l := 39) (by decide)
    (bwtRuns (word5.map UInt8.ofNat)) (countWord 39 checkReport) (us := conjs word5)
    (it := ConjugateIterator.new (word5.map UInt8.ofNat)) (fuel := word5.length + 1)
    (shape_iter c5.shape it6) hd0 (conj_yields _) (conjs_ne hg5.1) (by simp [conjs]) pos5
  have e5 : processWord word5 = conjugateLoop (bwtRuns (word5.map UInt8.ofNat)) 39 (word5.length + 1)
      (ConjugateIterator.new (word5.map UInt8.ofNat)) (countWord 39 checkReport) := processWord_eq hg5.1 hg5.2
  rw [← e5] at q7
  let p7 := storeBest (bwtRuns (word5.map UInt8.ofNat)) (bbwtRuns u) 39 u
    (conjugateLoop (bwtRuns (word5.map UInt8.ofNat)) 39 f7 it7 (countWord 39 checkReport))
  have r7 := run_to (t := t1) c5.locks hp6 (q6.trans q7)
  -- thread 0 processes `word3`
  obtain ⟨sh8, q8, g8, i8, _, d8, _⟩ := processWord_run k7.shape hg3.1 hg3.2
  have hp8 : (⟨sh7, free, Function.update s5.prog t1 p7⟩ : MState T).prog t0 = processWord word3 := by
    simp only [Function.update_of_ne h01]; rw [p5]; simp
  have r8 := run_to (t := t0) rfl hp8 q8
  have d8' : 2 ≤ diff sh8 39 := by
    have := gain3
    have d8'' : diff sh8 39 = max (diff sh7 39) (gain word3) := d8
    omega
  let s8 : MState T := ⟨sh8, free, Function.update (Function.update s5.prog t1 p7) t0 .again⟩
  -- thread 1 stores its smaller difference and goes on
  have q9 := storeBest_run g8 (l := 39) (by decide) (bwtRuns (word5.map UInt8.ofNat)) (bbwtRuns u) u
    (conjugateLoop (bwtRuns (word5.map UInt8.ofNat)) 39 f7 it7 (countWord 39 checkReport))
  have g9 := shape_stored (t := u) g8 (l := 39) (by decide) (Nat.le_of_lt hub)
  obtain ⟨sh10, q10, k10, d10⟩ := conjugateLoop_run (l := 39) (by decide) (bwtRuns (word5.map UInt8.ofNat))
    (countWord 39 checkReport) (us := us') (it := it7) (fuel := f7) g9 y7
    (fun v hv => conjs_ne hg5.1 v (hus hv)) hf7
  have hp9 : s8.prog t1 = p7 := by simp [s8, Function.update_of_ne h01.symm]
  have r9 := run_to (t := t1) (s := s8) rfl hp9 (q9.trans q10)
  refine ⟨s8, _, r1.trans (r2.trans (r3.trans (r4.trans (r5.trans (r7.trans r8))))), r9, rfl, rfl, d8', ?_,
    rest, ?_, by rw [hws]; simp [firstWords]⟩
  rotate_left
  · show Yields _ sh10.iter rest
    rw [k10.iter]
    show Yields _ sh8.iter rest
    rw [i8, k7.iter]
    exact y6
  show diff sh10 39 ≤ 1
  rw [d10, foldl_max (fun v => bwtRuns (word5.map UInt8.ofNat) - bbwtRuns v), diff_stored g8 (by decide),
    if_pos rfl, bwt5]
  have hu3 := runs5 u hu
  rcases foldl_max_mem (fun v => 4 - bbwtRuns v) us' with e | ⟨v, hv, e⟩
  · rw [e]; omega
  · rw [e]
    have := runs5 v (hus hv)
    omega

end Verif.Max
