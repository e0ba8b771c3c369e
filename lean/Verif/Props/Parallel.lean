import Verif.Lemmas.Analyse

/-! # Property C57: the parallel statistics do not depend on the schedule

`MainReachable L s` (in `Verif/Model/Threads.lean`) says that `s` can be reached by the `T` workers of
`main` of parallel.rs for pattern length `L`, under some interleaving. -/

namespace Verif.Props

open Verif Spec Model Par

/-- The binary Lyndon words of length `L`, among those of length up to `MAX_LENGTH` that the generator
delivers. -/
def LyndonOfLength (L : Nat) (w : List Nat) : Prop :=
  IsLyndon w ∧ w.length ≤ MAX_LENGTH ∧ (∀ c ∈ w, c < 2) ∧ w.length = L

/-- The bytes of `w` belong in statistics cell `(i, j)`: its BWT has `i` runs and `j` is the least number
of runs of the bijective BWTs of its rotations. -/
def InCell (w : List Nat) (i j : Nat) : Prop :=
  (∃ b, bwtByMatrixNaive (w.map UInt8.ofNat) = .ok b ∧ i = numberOfRuns (sliceReader b)) ∧
  IsLeast {r | ∃ u b, Conj u (w.map UInt8.ofNat) ∧ bbwtNaive u = .ok b ∧
    r = numberOfRuns (sliceReader b)} j

theorem inCell_iff {L : Nat} {w : List Nat} (hne : w ≠ []) (hl : w.length ≤ MAX_LENGTH) (i j : Nat) :
    cell L w = some (i, j) ↔ w.length = L ∧ InCell w i j := by
  have hne' : w.map UInt8.ofNat ≠ [] := by simpa using hne
  have hl' : (w.map UInt8.ofNat).length ≤ MAX_LENGTH := by simpa using hl
  have h1 : (∃ b, bwtByMatrixNaive (w.map UInt8.ofNat) = .ok b ∧ i = numberOfRuns (sliceReader b)) ↔
      bwtRuns (w.map UInt8.ofNat) = i := by
    obtain ⟨b, hb, -⟩ := bwtByMatrixNaive_ok (w.map UInt8.ofNat)
    have e : bwtRuns (w.map UInt8.ofNat) = numberOfRuns (sliceReader b) := by rw [bwtRuns, hb]; rfl
    rw [hb, e]
    constructor
    · rintro ⟨c, hc, h⟩; injection hc with hc; rw [hc, h]
    · intro h; exact ⟨b, rfl, h.symm⟩
  have h2 : {r | ∃ u b, Conj u (w.map UInt8.ofNat) ∧ bbwtNaive u = .ok b ∧
      r = numberOfRuns (sliceReader b)} = {r | ∃ u, Conj u (w.map UInt8.ofNat) ∧ r = bbwtRuns u} := by
    ext r
    constructor
    · rintro ⟨u, b, hu, hb, rfl⟩
      exact ⟨u, hu, by rw [bbwtRuns, hb]; rfl⟩
    · rintro ⟨u, hu, rfl⟩
      obtain ⟨k, hk, hr⟩ := id hu
      have hune : u ≠ [] := by
        rw [← List.length_pos_iff, hr, rot_length]; exact List.length_pos_iff.2 hne'
      obtain ⟨b, hb⟩ := bbwt_total hune
      exact ⟨u, b, hu, hb, by rw [bbwtRuns, hb]; rfl⟩
  have h3 := bestRuns_least hne' hl'
  unfold InCell
  rw [h1, h2]
  unfold cell
  by_cases h : w.length = L
  · rw [if_pos h]
    simp only [Option.some.injEq, Prod.mk.injEq, h, true_and]
    exact and_congr_right fun _ => ⟨fun e => e ▸ h3, fun e => h3.unique e⟩
  · simp [h]

/-- The word source and the per-word computation satisfy what the invariant needs. -/
theorem main_good (L : Nat) : ∃ ws : List (List Nat), ws.Nodup ∧
    (∀ w, w ∈ ws ↔ IsLyndon w ∧ w.length ≤ MAX_LENGTH ∧ ∀ c ∈ w, c < 2) ∧
    Yields LyndonWordGenerator.next (LyndonWordGenerator.new MAX_LENGTH 2) ws ∧
    Good (analyseWord L) (MAX_LENGTH + 1) (cell L) (cellLines L) ws := by
  obtain ⟨ws, h1, h2, h3⟩ := lwg_all (n := MAX_LENGTH) (s := 2) (by omega) (by omega)
  have hn : ws.Nodup := h1.imp (fun h => ne_of_lt h)
  refine ⟨ws, hn, h2, h3, fun w hw => ?_, fun w hv => ?_, fun w hw i j hv => ?_, ?_⟩
  · have := (h2 w).1 hw
    exact analyseWord_ok this.1.1 this.2.1
  · unfold cell at hv
    split at hv
    · cases hv
    · rename_i h
      rw [cellLines, if_neg h]
  · obtain ⟨hlyn, hlen, -⟩ := (h2 w).1 hw
    have hne : w.map UInt8.ofNat ≠ [] := by simpa using hlyn.1
    have hl' : (w.map UInt8.ofNat).length ≤ MAX_LENGTH := by simpa using hlen
    unfold cell at hv
    split at hv
    · simp only [Option.some.injEq, Prod.mk.injEq] at hv
      have hb := bwtRuns_le (w.map UInt8.ofNat)
      have hj := (bestRuns_least hne hl').2 ⟨_, ⟨0, by omega, (rot_zero _).symm⟩, rfl⟩
      have hj' := bbwtRuns_le hne
      omega
    · simp at hv
  · by_cases hL : L ≤ MAX_LENGTH
    · have hc := binary_count hn (fun w hw => ((h2 w).1 hw).2.2) L
      have hp : 2 ^ L ≤ 2 ^ MAX_LENGTH := Nat.pow_le_pow_right (by omega) hL
      have hq : 2 ^ MAX_LENGTH < 2147483648 := by decide
      have : ws.countP (fun w => (cell L w).isSome) = ws.countP (fun w => decide (w.length = L)) := by
        congr 1; funext w
        by_cases h : w.length = L <;> simp [cell, h]
      omega
    · have : ws.countP (fun w => (cell L w).isSome) = 0 := by
        rw [List.countP_eq_zero]
        intro w hw
        have := ((h2 w).1 hw).2.1
        have : w.length ≠ L := by omega
        simp [cell, this]
      omega

theorem reach_inv {T L : Nat} {ws : List (List Nat)}
    (hy : Yields LyndonWordGenerator.next (LyndonWordGenerator.new MAX_LENGTH 2) ws)
    (hg : Good (analyseWord L) (MAX_LENGTH + 1) (cell L) (cellLines L) ws)
    {s : PState LyndonWordGenerator (List Nat) T} (h : MainReachable L s) :
    ∃ taken rest, Inv LyndonWordGenerator.next (MAX_LENGTH + 1) (cell L) (cellLines L) ws taken rest s := by
  induction h with
  | refl => exact ⟨_, _, Inv.init hy⟩
  | tail _ hs ih =>
    obtain ⟨taken, rest, hi⟩ := ih
    obtain ⟨t, ht⟩ := hs
    obtain ⟨taken', rest', hi', _⟩ := hi.step hg ht
    exact ⟨taken', rest', hi'⟩

/-- C57: whatever the interleaving of the `T ≥ 1` workers, if all of them have left their loops, the total
is the number of binary Lyndon words of length `L` and the statistics cell `(i, j)` the number of those
belonging there: every word has been counted exactly once. -/
theorem C57_schedule_independent (T L : Nat) (hT : 0 < T)
    (s : PState LyndonWordGenerator (List Nat) T) (hr : MainReachable L s)
    (hstop : ∀ t, s.pc t = .stopped) :
    s.total = Set.ncard {w | LyndonOfLength L w} ∧
    ∀ i j, i ≤ MAX_LENGTH → j ≤ MAX_LENGTH → ∃ row, s.stats[i]? = some row ∧
      row[j]? = some (Set.ncard {w | LyndonOfLength L w ∧ InCell w i j}) := by
  obtain ⟨ws, hn, hm, hy, hg⟩ := main_good L
  obtain ⟨taken, rest, hi⟩ := reach_inv hy hg hr
  obtain ⟨hsq, hc, ht, -⟩ := hi.final hT hstop
  constructor
  · rw [ht]
    have : (fun w => (cell L w).isSome) = fun w => decide (w.length = L) := by
      funext w
      by_cases h : w.length = L <;> simp [cell, h]
    rw [this, countP_ncard hn]
    congr 1
    ext w
    simp only [Set.mem_ofPred_eq, hm, LyndonOfLength]
    tauto
  · intro i j hi' hj'
    have hi2 : i < s.stats.length := by rw [hsq.1]; omega
    have hj2 : j < (s.stats[i]).length := by rw [hsq.2 _ (List.getElem_mem hi2)]; omega
    refine ⟨s.stats[i], by simp [hi2], ?_⟩
    have h1 := hc i j
    have h2 : entry s.stats i j = s.stats[i][j] := by simp [entry, hi2, hj2]
    rw [List.getElem?_eq_getElem hj2, ← h2, h1, countP_ncard hn]
    congr 2
    ext w
    simp only [Set.mem_ofPred_eq, hm, LyndonOfLength]
    constructor
    · rintro ⟨⟨a, b, c⟩, d⟩
      have := (inCell_iff a.1 b i j).1 d
      exact ⟨⟨a, b, c, this.1⟩, this.2⟩
    · rintro ⟨⟨a, b, c, d⟩, e⟩
      exact ⟨⟨a, b, c⟩, (inCell_iff a.1 b i j).2 ⟨d, e⟩⟩

/-- C57: two finished executions, with whatever numbers of workers (1 is the sequential run) and whatever
interleavings, leave the same total and the same statistics table. -/
theorem C57_same_as_sequential (T T' L : Nat) (hT : 0 < T) (hT' : 0 < T')
    (s : PState LyndonWordGenerator (List Nat) T) (hr : MainReachable L s)
    (hstop : ∀ t, s.pc t = .stopped)
    (s' : PState LyndonWordGenerator (List Nat) T') (hr' : MainReachable L s')
    (hstop' : ∀ t, s'.pc t = .stopped) :
    s.total = s'.total ∧ s.stats = s'.stats := by
  obtain ⟨ws, hn, hm, hy, hg⟩ := main_good L
  obtain ⟨_, _, hi⟩ := reach_inv hy hg hr
  obtain ⟨hsq, hc, ht, -⟩ := hi.final hT hstop
  obtain ⟨_, _, hi'⟩ := reach_inv hy hg hr'
  obtain ⟨hsq', hc', ht', -⟩ := hi'.final hT' hstop'
  refine ⟨by rw [ht, ht'], ?_⟩
  apply List.ext_getElem (by rw [hsq.1, hsq'.1])
  intro i h1 h2
  have l1 := hsq.2 _ (List.getElem_mem h1)
  have l2 := hsq'.2 _ (List.getElem_mem h2)
  apply List.ext_getElem (by rw [l1, l2])
  intro j h3 h4
  have e1 : entry s.stats i j = s.stats[i][j] := by simp [entry, h1, h3]
  have e2 : entry s'.stats i j = s'.stats[i][j] := by simp [entry, h2, h4]
  rw [← e1, ← e2, hc, hc']

/-- C57: no worker ever panics, under any interleaving. -/
theorem C57_no_panic (T L : Nat) (s : PState LyndonWordGenerator (List Nat) T) (hr : MainReachable L s)
    (t : Fin T) : s.pc t ≠ .panicked := by
  obtain ⟨ws, hn, hm, hy, hg⟩ := main_good L
  obtain ⟨taken, rest, hi⟩ := reach_inv hy hg hr
  exact hi.alive t

/-- C57: there is no deadlock: as long as some worker has not left its loop, some worker can go on. -/
theorem C57_no_deadlock (T L : Nat) (s : PState LyndonWordGenerator (List Nat) T)
    (hr : MainReachable L s) (t : Fin T) (ht : s.pc t ≠ .stopped) :
    ∃ s', PState.Step LyndonWordGenerator.next (analyseWord L) s s' := by
  obtain ⟨ws, hn, hm, hy, hg⟩ := main_good L
  obtain ⟨taken, rest, hi⟩ := reach_inv hy hg hr
  obtain ⟨u, s', h⟩ := hi.progress ht
  exact ⟨s', u, h⟩

/-- C57: every execution ends (whatever the scheduler does): there is no infinite sequence of steps. -/
theorem C57_terminates (T L : Nat) (run : Nat → PState LyndonWordGenerator (List Nat) T)
    (h0 : MainReachable L (run 0)) :
    ¬ ∀ n, PState.Step LyndonWordGenerator.next (analyseWord L) (run n) (run (n + 1)) := by
  intro hstep
  obtain ⟨ws, hn, hm, hy, hg⟩ := main_good L
  have key : ∀ m n taken rest,
      Inv LyndonWordGenerator.next (MAX_LENGTH + 1) (cell L) (cellLines L) ws taken rest (run n) →
      Par.measure (cellLines L) rest (run n) ≤ m → False := by
    intro m
    induction m with
    | zero =>
      intro n taken rest hi hm
      obtain ⟨t, ht⟩ := hstep n
      obtain ⟨_, _, _, hlt⟩ := hi.step hg ht
      omega
    | succ m ih =>
      intro n taken rest hi hm
      obtain ⟨t, ht⟩ := hstep n
      obtain ⟨taken', rest', hi', hlt⟩ := hi.step hg ht
      exact ih (n + 1) taken' rest' hi' (by omega)
  obtain ⟨taken, rest, hi⟩ := reach_inv hy hg h0
  exact key _ 0 taken rest hi (le_refl _)

/-- A finished execution exists for every number of workers, so the theorem is not vacuous. -/
theorem C57_finishes (T L : Nat) : ∃ s : PState LyndonWordGenerator (List Nat) T,
    MainReachable L s ∧ ∀ t, s.pc t = .stopped := by
  obtain ⟨ws, hn, hm, hy, hg⟩ := main_good L
  have key : ∀ m (s : PState LyndonWordGenerator (List Nat) T) taken rest, MainReachable L s →
      Inv LyndonWordGenerator.next (MAX_LENGTH + 1) (cell L) (cellLines L) ws taken rest s →
      Par.measure (cellLines L) rest s ≤ m → ∃ s : PState LyndonWordGenerator (List Nat) T,
        MainReachable L s ∧ ∀ t, s.pc t = .stopped := by
    intro m
    induction m with
    | zero =>
      intro s taken rest hr hi hm
      by_cases hall : ∀ t, s.pc t = .stopped
      · exact ⟨s, hr, hall⟩
      · push Not at hall
        obtain ⟨t, ht⟩ := hall
        obtain ⟨u, s', h⟩ := hi.progress (analyse := analyseWord L) ht
        obtain ⟨_, _, _, hlt⟩ := hi.step hg h
        omega
    | succ m ih =>
      intro s taken rest hr hi hm
      by_cases hall : ∀ t, s.pc t = .stopped
      · exact ⟨s, hr, hall⟩
      · push Not at hall
        obtain ⟨t, ht⟩ := hall
        obtain ⟨u, s', h⟩ := hi.progress (analyse := analyseWord L) ht
        obtain ⟨taken', rest', hi', hlt⟩ := hi.step hg h
        exact ih s' taken' rest' (hr.tail ⟨u, h⟩) hi' (by omega)
  exact key _ _ [] ws Relation.ReflTransGen.refl (Inv.init hy) (le_refl _)

example : ∃ (s : PState LyndonWordGenerator (List Nat) 3) (s' : PState LyndonWordGenerator (List Nat) 1),
    s.total = Set.ncard {w | LyndonOfLength 5 w} ∧ s.total = s'.total ∧ s.stats = s'.stats := by
  obtain ⟨s, h, hs⟩ := C57_finishes 3 5
  obtain ⟨s', h', hs'⟩ := C57_finishes 1 5
  exact ⟨s, s', (C57_schedule_independent 3 5 (by decide) s h hs).1,
    C57_same_as_sequential 3 1 5 (by decide) (by decide) s h hs s' h' hs'⟩

example := C57_no_panic 3 5 _ Relation.ReflTransGen.refl 0
example := C57_no_deadlock 3 5 _ Relation.ReflTransGen.refl 0 (by simp [PState.init])
example := C57_terminates 3 5 (fun _ => _) Relation.ReflTransGen.refl

example : (analyseWord 3 [0, 0, 1]).map (·.map (·.2)) = .ok (some (2, 2)) := by decide +kernel
example : InCell [0, 0, 1] 2 2 :=
  ((inCell_iff (L := 3) (by simp) (by decide) 2 2).1 (by decide +kernel)).2

end Verif.Props
