import Verif.Lemmas.MaxMany
import Verif.Spec.MaxReport
import Verif.Lemmas.ResultLine
import Verif.Props.FactorFiles

/-! # What `max_lyndon_word` prints -/

namespace Verif.Max

open Verif Spec Model Par

/-- What a report printed in this state shows. -/
def snap (s : MShared) : Snapshot where
  total := s.total
  words n := s.num.getD (n - 1) 0
  bwtWins n := s.bwtWin.getD (n - 1) 0
  bbwtWins n := s.bbwtWin.getD (n - 1) 0
  ties n := s.tie.getD (n - 1) 0
  text n := s.bestText.getD (n - 1) []
  bwtRuns n := s.bestBwt.getD (n - 1) 0
  bbwtRuns n := s.bestBbwt.getD (n - 1) 0

theorem snap_linesFor (s : MShared) (l : Nat) : lengthLines s l = (snap s).linesFor (l + 1) := rfl

theorem snap_lines (s : MShared) : reportLines s = (snap s).lines := by
  have e : List.range' 21 20 = (List.range' 20 20).map (· + 1) := by decide
  have e2 : (List.range' 20 (MAXW - 20)) = List.range' 20 20 := rfl
  simp only [reportLines, Snapshot.lines, e, e2, List.flatMap_map]
  rfl

/-! ### Balance -/

/-- The numbers of outcomes for the words of length `i + 1`. -/
def Balanced (T : Nat) (s : MShared) (i : Nat) : Prop :=
  (i + 1) * cnt s 0 i ≤ cnt s 1 i + cnt s 2 i + cnt s 3 i ∧
  cnt s 1 i + cnt s 2 i + cnt s 3 i ≤ (i + 1) * (cnt s 0 i + (T - 1))

theorem delta_bal {w : List Nat} (hne : w ≠ []) (i : Nat) :
    delta w 1 i + delta w 2 i + delta w 3 i = (i + 1) * delta w 0 i := by
  have hn := List.length_pos_iff.2 hne
  have h := wins_sum (bwtRuns (w.map UInt8.ofNat)) (w.length - 1) i (conjs w)
  have hlen : (conjs w).length = w.length := by simp [conjs]
  simp only [delta, Pi.add_apply, h.1]
  by_cases hi : i = w.length - 1
  · have h2 := h.2
    rw [if_pos hi] at h2
    simp [one, oneTotal, hi] at h2 ⊢
    omega
  · have h2 := h.2
    rw [if_neg hi] at h2
    simp [one, oneTotal, hi] at h2 ⊢
    omega

theorem total_bal {ws : List (List Nat)} (h : ∀ w ∈ ws, w ≠ []) (i : Nat) :
    total ws 1 i + total ws 2 i + total ws 3 i = (i + 1) * total ws 0 i := by
  induction ws with
  | nil => simp [total]
  | cons w ws ih =>
    have e : ∀ c, total (w :: ws) c i = delta w c i + total ws c i := fun c => by simp [total]
    have := ih (fun v hv => h v (by simp [hv]))
    have h1 := delta_bal (h w (by simp)) i
    rw [e, e, e, e, Nat.mul_add, ← h1, ← this]
    omega

theorem balanced_of {T : Nat} {ws : List (List Nat)} (hws : ∀ w ∈ ws, w ≠ [] ∧ w.length ≤ MAXW) {s : MShared}
    {done rest : List (List Nat)} (hsp : done ++ rest = ws) {d : Fin T → Cnt} (hd : ∀ t, Bal (d t))
    (hsum : cnt s + ∑ t, d t = total done) {t : Fin T} (ht : d t = 0) (i : Nat) : Balanced T s i := by
  have hb := total_bal (ws := done) (fun w hw => (hws w (by rw [← hsp]; simp [hw])).1) i
  have hc : ∀ c, total done c i = cnt s c i + ∑ t, d t c i := fun c => by
    rw [← hsum]; simp
  have h1 : ∑ u, (d u 1 i + d u 2 i + d u 3 i) ≤ ∑ u, (i + 1) * d u 0 i :=
    Finset.sum_le_sum fun u _ => (hd u i).2
  have h2 : ∑ u, d u 0 i ≤ T - 1 := by
    have : ∑ u, d u 0 i = ∑ u ∈ Finset.univ.erase t, d u 0 i := by
      rw [← Finset.sum_erase_add _ _ (Finset.mem_univ t), ht]; simp
    rw [this]
    calc ∑ u ∈ Finset.univ.erase t, d u 0 i ≤ ∑ u ∈ Finset.univ.erase t, 1 := Finset.sum_le_sum fun u _ => (hd u i).1
      _ = T - 1 := by simp
  rw [Finset.sum_add_distrib, Finset.sum_add_distrib, ← Finset.mul_sum] at h1
  rw [hc, hc, hc, hc] at hb
  have h3 := Nat.mul_le_mul_left (i + 1) h2
  constructor
  · have := Nat.mul_add (i + 1) (cnt s 0 i) (∑ u, d u 0 i)
    omega
  · have e1 := Nat.mul_add (i + 1) (cnt s 0 i) (∑ u, d u 0 i)
    have e2 := Nat.mul_add (i + 1) (cnt s 0 i) (T - 1)
    omega

/-- A step prints nothing, or a line of the report of that moment, when the counters are balanced. -/
theorem prints_step {T : Nat} {ws : List (List Nat)} (hws : ∀ w ∈ ws, w ≠ [] ∧ w.length ≤ MAXW)
    {st st' : MState T} (h : CInv ws st) (hs : TState.Step mworker st st') :
    st'.sh.out = st.sh.out ∨ ∃ x ∈ reportLines st.sh, st'.sh.out = st.sh.out ++ [x] ∧ ∀ i, Balanced T st.sh i := by
  obtain ⟨t, ht⟩ := hs
  obtain ⟨done, rest, hsp, hy, d, hd, hsum⟩ := h
  simp only [TState.stepOf] at ht
  match hp : st.prog t with
  | .acq l w k =>
    left
    rw [hp] at ht
    cases w <;> simp only [Prog.step] at ht <;> split at ht
    all_goals
      first
      | (rename_i hq; split at hq
         · injection hq with hq; injection ht with ht; cases hq; subst ht; rfl
         · cases hq)
      | cases ht
  | .rel l w k =>
    left
    rw [hp] at ht
    cases w <;> simp only [Prog.step] at ht <;> injection ht with ht <;> subst ht <;> rfl
  | .act g k =>
    rw [hp] at ht
    simp only [Prog.step] at ht
    cases hg : g st.sh with
    | error e =>
      rw [hg] at ht
      simp only at ht
      injection ht with ht; subst ht
      exact Or.inl rfl
    | ok s2 =>
      rw [hg] at ht
      simp only at ht
      injection ht with ht; subst ht
      have := hd t
      rw [hp] at this
      rcases this with ⟨h1 | h1, h2⟩ | ⟨h1 | h1, _, _⟩ | h1
      · cases h1
      · left
        injection h1 with hg' hk'
        subst hg' hk'
        beta_reduce at hg
        cases hn : st.sh.iter.next with
        | error e => rw [hn] at hg; simp at hg
        | ok r =>
          simp only [hn, ok_bind, pure_ok] at hg
          injection hg with hg; subst hg; rfl
      · cases h1
      · cases h1
      · obtain ⟨d1, d2, e, hle, hc, hi, hpr, ha⟩ := h1.2 _ _ hg
        rcases hpr with hpr | ⟨h0, x, hx, hpr⟩
        · exact Or.inl hpr
        · exact Or.inr ⟨x, hx, hpr, balanced_of hws hsp (fun u => (hd u).bal) hsum h0⟩
  | .again =>
    rw [hp] at ht
    simp only [Prog.step] at ht
    injection ht with ht; subst ht
    exact Or.inl rfl
  | .stop => rw [hp] at ht; simp [Prog.step] at ht
  | .panic => rw [hp] at ht; simp [Prog.step] at ht

theorem lines_balanced {T : Nat} {ws : List (List Nat)} (hws : ∀ w ∈ ws, w ≠ [] ∧ w.length ≤ MAXW)
    (hy : Yields LyndonWordGenerator.next (LyndonWordGenerator.new MAXW 2) ws) {st : MState T}
    (h : FreeReachable st) : ∀ x ∈ st.sh.out, ∃ r, x ∈ reportLines r ∧ ∀ i, Balanced T r i := by
  induction h with
  | refl => intro x hx; simp [TState.init, MShared.init] at hx
  | tail hab hbc ih =>
    intro x hx
    rcases prints_step hws (cinv_steps hws (cinv_init hy) hab) hbc with h | ⟨y, hy', h, hb⟩
    · rw [h] at hx; exact ih x hx
    · rw [h] at hx
      rcases List.mem_append.1 hx with hx | hx
      · exact ih x hx
      · rw [List.mem_singleton.1 hx]; exact ⟨_, hy', hb⟩

/-! ### The lines can be read -/

theorem cut {c : UInt8} {a b x y : List UInt8} (ha : c ∉ a) (hb : c ∉ b) (h : a ++ c :: x = b ++ c :: y) :
    a = b ∧ x = y := by
  induction a generalizing b with
  | nil =>
    cases b with
    | nil => simpa using h
    | cons d b =>
      simp only [List.nil_append, List.cons_append, List.cons.injEq] at h
      simp [h.1] at hb
  | cons e a ih =>
    cases b with
    | nil =>
      simp only [List.nil_append, List.cons_append, List.cons.injEq] at h
      simp [h.1] at ha
    | cons d b =>
      simp only [List.cons_append, List.cons.injEq, List.mem_cons, not_or] at h ha hb
      obtain ⟨h1, h2⟩ := ih ha.2 hb.2 h.2
      exact ⟨by rw [h.1, h1], h2⟩

theorem decimal_no {c : UInt8} (h : isDigit c = false) (n : Nat) : c ∉ decimal n := fun hc => by
  rw [decimal_isDigit n c hc] at h; cases h

theorem cut_decimal {c : UInt8} (h : isDigit c = false) {m n : Nat} {x y : List UInt8}
    (e : decimal m ++ c :: x = decimal n ++ c :: y) : m = n ∧ x = y := by
  obtain ⟨h1, h2⟩ := cut (decimal_no h m) (decimal_no h n) e
  exact ⟨Props.decimal_inj h1, h2⟩

/-- The line of the numbers of outcomes determines them. -/
theorem countsLine_inj {l l' a a' b b' c c' d d' : Nat} (h : countsLine l a b c d = countsLine l' a' b' c' d') :
    l = l' ∧ a = a' ∧ b = b' ∧ c = c' ∧ d = d' := by
  simp only [countsLine, List.append_assoc] at h
  have h := List.append_cancel_left h
  obtain ⟨h0, h⟩ := cut_decimal (c := 32) rfl h
  have h := List.append_cancel_left (as := ascii "lyndon_words=") h
  obtain ⟨h1, h⟩ := cut_decimal (c := 32) rfl h
  have h := List.append_cancel_left (as := ascii "bwt_wins=") h
  obtain ⟨h2, h⟩ := cut_decimal (c := 32) rfl h
  have h := List.append_cancel_left (as := ascii "bbwt_wins=") h
  obtain ⟨h3, h⟩ := cut_decimal (c := 32) rfl h
  have h := List.append_cancel_left (as := ascii "ties=") h
  obtain ⟨h4, h⟩ := cut_decimal (c := 10) rfl h
  exact ⟨h0, h1, h2, h3, h4⟩

theorem countsLine_ne_text {l l' a b c d e f : Nat} {t : List UInt8} :
    countsLine l a b c d ≠ textLine l' t e f := by
  intro h
  simp only [countsLine, textLine, List.append_assoc] at h
  have h := List.append_cancel_left h
  obtain ⟨_, h⟩ := cut_decimal (c := 32) rfl h
  exact absurd (List.head_eq_of_cons_eq h) (by decide)

theorem countsLine_ne_total {l a b c d n : Nat} :
    countsLine l a b c d ≠ ascii "total_count=" ++ decimal n ++ [10] := by
  intro h
  simp only [countsLine, List.append_assoc] at h
  exact absurd (List.head_eq_of_cons_eq h) (by decide)

/-- A report that has been printed line by line from balanced counters is balanced. -/
theorem report_balanced {T : Nat} {r : MShared}
    (h : ∀ x ∈ reportLines r, ∃ r', x ∈ reportLines r' ∧ ∀ i, Balanced T r' i) {l : Nat} (hl : 20 ≤ l) (hl' : l < 40) :
    Balanced T r l := by
  have hm : l ∈ List.range' 20 (MAXW - 20) := List.mem_range'_1.2 ⟨hl, by simp [MAXW]; omega⟩
  obtain ⟨r', hx, hb⟩ := h _ (mem_reportLines hm List.mem_cons_self)
  rcases List.mem_cons.1 hx with hx | hx
  · exact absurd hx countsLine_ne_total
  · obtain ⟨l', _, hx⟩ := List.mem_flatMap.1 hx
    rcases List.mem_cons.1 hx with hx | hx
    · obtain ⟨rfl, h0, h1, h2, h3⟩ := countsLine_inj hx
      have := hb l
      unfold Balanced at this ⊢
      simp only [cnt] at this ⊢
      rw [h0, h1, h2, h3]
      exact this
    · exact absurd (List.mem_singleton.1 hx) countsLine_ne_text

/-! ### Single workers -/

/-- The multiples of 10000 among the `k` numbers after `n`. -/
def mults (n k : Nat) : List Nat := (List.range' (n + 1) k).filter (fun m => decide (m % 10000 = 0))

theorem mults_succ (n k : Nat) : mults n (k + 1) = mults n 1 ++ mults (n + 1) k := by
  simp only [mults]
  rw [show List.range' (n + 1) (k + 1) = List.range' (n + 1) 1 ++ List.range' (n + 1 + 1) k by
    rw [List.range'_append_1, Nat.add_comm 1 k], List.filter_append]

theorem mults_one (n : Nat) : mults n 1 = if (n + 1) % 10000 = 0 then [n + 1] else [] := by
  simp [mults, List.filter_cons]

theorem reported_out (s : MShared) : ∃ rs : List MShared, (reported s).out = s.out ++ rs.flatMap reportLines ∧
    rs.map (·.total) = if s.total % 10000 = 0 then [s.total] else [] := by
  unfold reported
  split
  · exact ⟨[s], by simp [printed], rfl⟩
  · exact ⟨[], by simp, rfl⟩

theorem reported_data (s : MShared) : Shape s → Shape (reported s) ∧ (reported s).iter = s.iter ∧
    (reported s).total = s.total ∧ ∀ i, diff (reported s) i = diff s i := by
  intro h
  obtain ⟨x, hx⟩ := reported_eq s
  rw [hx]
  exact ⟨shape_printed h x, rfl, rfl, fun _ => rfl⟩

/-- A thread processes words on its own and prints a report at every multiple of 10000. -/
theorem solo_out {T : Nat} {t : Fin T} {ds : List (List Nat)} (hds : ∀ w ∈ ds, w ≠ [] ∧ w.length ≤ MAXW)
    {rest : List (List Nat)} : ∀ {s : MState T}, Calm (ds ++ rest) s → s.prog t = mworker →
    ∃ s', Steps s s' ∧ Calm rest s' ∧ s'.sh.total = s.sh.total + ds.length ∧ s'.prog = s.prog ∧
      (∃ rs : List MShared, s'.sh.out = s.sh.out ++ rs.flatMap reportLines ∧
        rs.map (·.total) = mults s.sh.total ds.length) ∧
      (∀ i, diff s.sh i ≤ diff s'.sh i) ∧ ∀ w ∈ ds, gain w ≤ diff s'.sh (w.length - 1) := by
  induction ds with
  | nil =>
    intro s h _
    exact ⟨s, Relation.ReflTransGen.refl, h, rfl, rfl, ⟨[], by simp, rfl⟩, fun _ => le_refl _, by simp⟩
  | cons w ds ih =>
    intro s h hp
    obtain ⟨hl, hs, hy⟩ := h
    obtain ⟨hne, hlen⟩ := hds w (by simp)
    obtain ⟨it, hy', hr⟩ := take_run hy
    obtain ⟨s1, h1, h2, h3⟩ := processWord_out (shape_iter hs it) hne hlen
    obtain ⟨b1, b2, b3, b4⟩ := reported_data _ (shape_counted (l := w.length - 1) h2.shape)
    obtain ⟨rs1, o1, o2⟩ := reported_out (counted (w.length - 1) s1)
    have e1 := run_to hl hp (hr.trans h1)
    generalize hsr : reported (counted (w.length - 1) s1) = sr at *
    let st1 : MState T := ⟨sr, free, Function.update s.prog t .again⟩
    have e2 : TState.Step mworker st1 ⟨sr, free, Function.update st1.prog t mworker⟩ :=
      step_again (s := st1) (t := t) (by simp [st1])
    have e3 : (⟨sr, free, Function.update st1.prog t mworker⟩ : MState T) = ⟨sr, free, s.prog⟩ := by
      simp only [st1, Function.update_idem]
      rw [← hp, Function.update_eq_self]
    rw [e3] at e2
    obtain ⟨s2, g1, g2, g3, g4, ⟨rs2, g5, g5'⟩, g6, g7⟩ := ih (fun v hv => hds v (by simp [hv])) (s := ⟨sr, free, s.prog⟩)
      ⟨rfl, b1, by rw [b2]; show Yields _ s1.iter _; rw [h2.iter]; exact hy'⟩ hp
    have ht : sr.total = s.sh.total + 1 := by
      rw [b3]; show s1.total + 1 = _; rw [h2.total]
    have hd : ∀ i, diff sr i = diff s1 i := b4
    have ho : sr.out = s.sh.out ++ rs1.flatMap reportLines := by
      rw [o1]; show s1.out ++ _ = _; rw [h2.out]
    refine ⟨s2, (e1.tail e2).trans g1, g2, ?_, g4, ⟨rs1 ++ rs2, ?_, ?_⟩, fun i => ?_, fun v hv => ?_⟩
    · rw [g3]; simp only [List.length_cons]; show sr.total + _ = _; omega
    · rw [g5]
      show sr.out ++ _ = _
      rw [ho]
      simp
    · rw [List.map_append, g5', List.length_cons, mults_succ, mults_one]
      show _ ++ mults sr.total _ = _
      rw [ht, o2]
      have e : (counted (w.length - 1) s1).total = s.sh.total + 1 := by show s1.total + 1 = _; rw [h2.total]
      rw [e]
    · refine le_trans ?_ (g6 i)
      show _ ≤ diff sr i
      rw [hd]
      by_cases hi : i = w.length - 1
      · rw [hi, h3]; exact le_max_left _ _
      · rw [h2.other i hi]; exact le_refl _
    · rcases List.mem_cons.1 hv with rfl | hv
      · refine le_trans ?_ (g6 _)
        show _ ≤ diff sr _
        rw [hd, h3]; exact le_max_right _ _
      · exact g7 v hv

/-- The data and the output at the end of a round of a lonely worker. -/
def BetweenOut (ws : List (List Nat)) (s : MShared) : Prop :=
  Shape s ∧ ∃ done rest, done ++ rest = ws ∧ Yields LyndonWordGenerator.next s.iter rest ∧ s.total = done.length ∧
    ∃ rs : List MShared, s.out = rs.flatMap reportLines ∧ rs.map (·.total) = mults 0 s.total

theorem mults_last (k : Nat) : mults 0 (k + 1) = mults 0 k ++ if (k + 1) % 10000 = 0 then [k + 1] else [] := by
  simp only [mults]
  rw [Nat.zero_add, List.range'_1_concat, List.filter_append]
  congr 1
  rw [Nat.add_comm 1 k]
  simp [List.filter_cons]

theorem lonely_out {ws : List (List Nat)} (hws : ∀ w ∈ ws, w ≠ [] ∧ w.length ≤ MAXW) (s : MShared)
    (h : BetweenOut ws s) : Seq (BetweenOut ws) (fun _ => True) mworker s := by
  obtain ⟨hs, done, rest, hsp, hy, ht, rs, ho, hrs⟩ := h
  match rest, hsp, hy with
  | [], hsp, hy =>
    obtain ⟨it, hy', hr⟩ := take_none hy
    exact Seq.back hr trivial
  | w :: rest, hsp, hy =>
    obtain ⟨it, hy', hr⟩ := take_run hy
    obtain ⟨hne, hl⟩ := hws w (by rw [← hsp]; simp)
    obtain ⟨s1, h1, h2, h3⟩ := processWord_out (shape_iter hs it) hne hl
    obtain ⟨b1, b2, b3, b4⟩ := reported_data _ (shape_counted (l := w.length - 1) h2.shape)
    obtain ⟨rs1, o1, o2⟩ := reported_out (counted (w.length - 1) s1)
    have e : (counted (w.length - 1) s1).total = s.total + 1 := by show s1.total + 1 = _; rw [h2.total]
    refine Seq.back (hr.trans h1) ⟨b1, done ++ [w], rest, by rw [← hsp]; simp, ?_, ?_, rs ++ rs1, ?_, ?_⟩
    · rw [b2]; show Yields _ s1.iter _; rw [h2.iter]; exact hy'
    · rw [b3, e, ht]; simp
    · rw [o1]; show s1.out ++ _ = _; rw [h2.out]; show s.out ++ _ = _; rw [ho]; simp
    · rw [List.map_append, o2, hrs, b3, e, mults_last]

/-- A report that never comes. -/
theorem missed_report {T : Nat} (h2 : 2 ≤ T) {ws : List (List Nat)}
    (hm : ∀ w, w ∈ ws ↔ IsLyndon w ∧ w.length ≤ MAXW ∧ ∀ c ∈ w, c < 2)
    (hy : Yields LyndonWordGenerator.next (LyndonWordGenerator.new MAXW 2) ws) :
    ∃ s : MState T, FreeReachable s ∧ s.locks = free ∧ s.sh.total = 10001 ∧ s.sh.out = [] ∧
      (∀ t, s.prog t = mworker ∨ s.prog t = .again) ∧
      ∃ rest, Yields LyndonWordGenerator.next s.sh.iter rest ∧ ws.length ≤ rest.length + 20000 := by
  have hlen := many_words hm
  have hgood : ∀ w ∈ ws, w ≠ [] ∧ w.length ≤ MAXW := fun w hw => ⟨((hm w).1 hw).1.1, ((hm w).1 hw).2.1⟩
  let t0 : Fin T := ⟨0, by omega⟩
  let t1 : Fin T := ⟨1, by omega⟩
  have h01 : t1 ≠ t0 := by simp [t0, t1, Fin.ext_iff]
  let s0 : MState T := TState.init mworker MShared.init
  have hsp : ws = ws.take 9999 ++ ((ws.drop 9999).take 2 ++ (ws.drop 9999).drop 2) := by
    rw [List.take_append_drop, List.take_append_drop]
  have hc0 : Calm (T := T) (ws.take 9999 ++ ((ws.drop 9999).take 2 ++ (ws.drop 9999).drop 2)) s0 :=
    ⟨rfl, shape_init, hsp ▸ hy⟩
  obtain ⟨s1, r1, c1, e1, p1, ⟨rs, o1, o1'⟩, _⟩ := solo_out (t := t0) (fun w hw => hgood w (List.mem_of_mem_take hw)) hc0 rfl
  have hl1 : (ws.take 9999).length = 9999 := by simp; omega
  have hout : s1.sh.out = [] := by
    have : rs = [] := by
      have h0 : mults s0.sh.total (ws.take 9999).length = [] := by
        rw [hl1]
        show mults 0 9999 = []
        rw [mults, List.filter_eq_nil_iff]
        intro m hm
        have := List.mem_range'_1.1 hm
        simp only [decide_eq_true_eq]
        omega
      rw [h0] at o1'
      exact List.map_eq_nil_iff.1 o1'
    rw [o1, this]; rfl
  obtain ⟨s2, r2, c2, e2, o2, p2, q2⟩ := all_wait (us := [t0, t1]) (by simp [h01.symm])
    (ds := (ws.drop 9999).take 2) (by simp; omega)
    (fun w hw => hgood w (List.mem_of_mem_drop (List.mem_of_mem_take hw))) c1 (fun u _ => by rw [p1]; rfl)
  have htot : s2.sh.total = 9999 := by
    rw [e2, e1]; simp [s0, TState.init, MShared.init]; omega
  obtain ⟨l0, hl0, hp0⟩ := q2 t0 (by simp)
  obtain ⟨l1, hl1, hp1⟩ := q2 t1 (by simp)
  -- both count
  have r3 := run_to c2.locks hp0 (countWord_run c2.shape hl0 checkReport)
  let sh3 := counted l0 s2.sh
  have g3 : Shape sh3 := shape_counted c2.shape
  have r4 := run_to (s := ⟨sh3, free, Function.update s2.prog t0 checkReport⟩) (t := t1) rfl
    (by simp only [Function.update_of_ne h01]; exact hp1) (countWord_run g3 hl1 checkReport)
  let sh4 := counted l1 sh3
  have g4 : Shape sh4 := shape_counted g3
  have ht4 : sh4.total = 10001 := by
    have h0 : sh4.total = s2.sh.total + 1 + 1 := rfl
    omega
  have hrep : reported sh4 = sh4 := by
    unfold reported; rw [if_neg]; rw [ht4]; decide
  have hq : PRuns mworker (sh4, free, checkReport) (sh4, free, .again) := by
    have := checkReport_run g4; rwa [hrep] at this
  -- both look
  have r5 := run_to (s := ⟨sh4, free, Function.update (Function.update s2.prog t0 checkReport) t1 checkReport⟩)
    (t := t0) rfl (by simp only [Function.update_of_ne h01.symm, Function.update_self]) hq
  have r6 := run_to (s := ⟨sh4, free, Function.update (Function.update (Function.update s2.prog t0 checkReport) t1 checkReport)
    t0 .again⟩) (t := t1) rfl (by simp only [Function.update_of_ne h01, Function.update_self]) hq
  refine ⟨_, r1.trans (r2.trans (r3.trans (r4.trans (r5.trans r6)))), rfl, ht4, ?_, fun t => ?_, (ws.drop 9999).drop 2, ?_, ?_⟩
  · show s2.sh.out = []
    rw [o2, hout]
  · by_cases ht1 : t = t1
    · right; subst ht1; simp
    · by_cases ht0 : t = t0
      · right; subst ht0; simp [Function.update_of_ne ht1]
      · left
        simp only [Function.update_of_ne ht1, Function.update_of_ne ht0]
        rw [p2 t (by simp [ht0, ht1]), p1]; rfl
  · exact c2.yields
  · simp only [List.length_drop]; omega

/-- A report with a text for length 40. -/
theorem report40 {T : Nat} (h1 : 1 ≤ T) {ws : List (List Nat)}
    (hm : ∀ w, w ∈ ws ↔ IsLyndon w ∧ w.length ≤ MAXW ∧ ∀ c ∈ w, c < 2)
    (hy : Yields LyndonWordGenerator.next (LyndonWordGenerator.new MAXW 2) ws) :
    ∃ (s : MState T) (r : MShared), FreeReachable s ∧ s.locks = free ∧ s.sh.total = 10000 ∧ s.sh.out = reportLines r ∧
      s.sh.bestText = r.bestText ∧ s.sh.bestBwt = r.bestBwt ∧ s.sh.bestBbwt = r.bestBbwt ∧ r.total = 10000 ∧
      2 ≤ diff s.sh 39 ∧
      ∃ rest, Yields LyndonWordGenerator.next s.sh.iter rest ∧ ws.length ≤ rest.length + 20000 := by
  have hlen := many_words hm
  have hgood : ∀ w ∈ ws, w ≠ [] ∧ w.length ≤ MAXW := fun w hw => ⟨((hm w).1 hw).1.1, ((hm w).1 hw).2.1⟩
  let t0 : Fin T := ⟨0, by omega⟩
  let s0 : MState T := TState.init mworker MShared.init
  obtain ⟨w, tl, hcons⟩ : ∃ w tl, ws.drop 9999 = w :: tl := by
    cases h : ws.drop 9999 with
    | nil => have := congrArg List.length h; simp at this; omega
    | cons w tl => exact ⟨w, tl, rfl⟩
  have hsp : ws = ws.take 9999 ++ (w :: tl) := by rw [← hcons, List.take_append_drop]
  have hw : w ∈ ws := by rw [hsp]; simp
  have hc0 : Calm (T := T) (ws.take 9999 ++ (w :: tl)) s0 := ⟨rfl, shape_init, hsp ▸ hy⟩
  obtain ⟨s1, r1, c1, e1, p1, ⟨rs, o1, o1'⟩, _, d1⟩ := solo_out (t := t0) (fun w hw => hgood w (List.mem_of_mem_take hw)) hc0 rfl
  have hl1 : (ws.take 9999).length = 9999 := by simp; omega
  have hout : s1.sh.out = [] := by
    have : rs = [] := by
      have h0 : mults s0.sh.total (ws.take 9999).length = [] := by
        rw [hl1]
        show mults 0 9999 = []
        rw [mults, List.filter_eq_nil_iff]
        intro m hm
        have := List.mem_range'_1.1 hm
        simp only [decide_eq_true_eq]
        omega
      rw [h0] at o1'
      exact List.map_eq_nil_iff.1 o1'
    rw [o1, this]; rfl
  obtain ⟨it, hy', hr⟩ := take_run c1.yields
  obtain ⟨s2, h3, h4, h5⟩ := processWord_out (shape_iter c1.shape it) (hgood w hw).1 (hgood w hw).2
  have r2 := run_to (t := t0) c1.locks (by rw [p1]; rfl) (hr.trans h3)
  obtain ⟨b1, b2, b3, b4⟩ := reported_data _ (shape_counted (l := w.length - 1) h4.shape)
  have ht1 : s1.sh.total = 9999 := by
    have h0 : s0.sh.total = 0 := rfl
    omega
  have ht : (counted (w.length - 1) s2).total = 10000 := by
    have h0 : (counted (w.length - 1) s2).total = s2.total + 1 := rfl
    have h1 : s2.total = s1.sh.total := h4.total
    omega
  have hrep : reported (counted (w.length - 1) s2) =
      printed (reportLines (counted (w.length - 1) s2)) (counted (w.length - 1) s2) := by
    unfold reported; rw [if_pos]; rw [ht]
  refine ⟨_, counted (w.length - 1) s2, r1.trans r2, rfl, ?_, ?_, ?_, ?_, ?_, ht, ?_, tl, ?_, ?_⟩
  · show (reported _).total = _
    rw [b3, ht]
  · show (reported _).out = _
    rw [hrep]
    show s2.out ++ _ = _
    rw [h4.out]
    show s1.sh.out ++ _ = _
    rw [hout]; rfl
  · show (reported _).bestText = _
    rw [hrep]; rfl
  · show (reported _).bestBwt = _
    rw [hrep]; rfl
  · show (reported _).bestBbwt = _
    rw [hrep]; rfl
  · show 2 ≤ diff (reported _) 39
    rw [b4]
    show 2 ≤ diff s2 39
    have h39 : 2 ≤ diff s1.sh 39 := by
      have hin : word3 ∈ ws.take 9999 := by
        obtain ⟨rest, hf⟩ := yields_first hy (xs := firstWords) rfl eval_first
        rw [hf, List.take_append]
        apply List.mem_append_left
        rw [List.take_of_length_le (by simp [firstWords])]
        simp [firstWords]
      exact le_trans gain3 (d1 word3 hin)
    by_cases hi : 39 = w.length - 1
    · rw [hi, h5, ← hi]
      exact le_trans h39 (le_max_left _ _)
    · rw [h4.other 39 hi]; exact h39
  · show Yields _ (reported _).iter _
    rw [b2]; show Yields _ s2.iter _; rw [h4.iter]; exact hy'
  · have := congrArg List.length hsp
    rw [List.length_append, hl1, List.length_cons] at this
    omega

end Verif.Max
