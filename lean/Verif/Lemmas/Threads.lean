import Verif.Model.Threads
import Verif.Model.Generators
import Verif.Spec.Words
import Mathlib.Algebra.BigOperators.Fin
import Mathlib.Algebra.Order.BigOperators.Group.Finset

/-! # Invariant of the workers of `main` of parallel.rs -/

namespace Verif.Par

open Verif Spec Model

section iter
variable {σ W : Type} {next : σ → Res (Option W × σ)}

/-- The iterator delivers `ws` and then `None` forever. -/
def Yields (next : σ → Res (Option W × σ)) (it : σ) (ws : List W) : Prop :=
  ∀ k, runIter next k it = .ok ((ws.map some ++ List.replicate k none).take k)

theorem runIter_succ {k : Nat} {it : σ} {l : List (Option W)} {o : Option W}
    (h : runIter next (k + 1) it = .ok (o :: l)) :
    ∃ it', next it = .ok (o, it') ∧ runIter next k it' = .ok l := by
  rw [runIter] at h
  cases hn : next it with
  | error e => rw [hn] at h; simp at h
  | ok p =>
    obtain ⟨o', it'⟩ := p
    rw [hn, ok_bind] at h
    simp only at h
    cases hr : runIter next k it' with
    | error e => rw [hr] at h; simp at h
    | ok l' =>
      rw [hr, ok_bind, pure_ok] at h
      injection h with h
      injection h with h1 h2
      subst h1 h2
      exact ⟨it', rfl, hr⟩

theorem Yields.nil {it : σ} (h : Yields next it []) :
    ∃ it', next it = .ok (none, it') ∧ Yields next it' [] := by
  have h1 := h 1
  obtain ⟨it', hn, _⟩ := runIter_succ (k := 0) (l := []) (o := none) (by simpa using h1)
  refine ⟨it', hn, fun k => ?_⟩
  have h2 := h (k + 1)
  obtain ⟨it2, hn2, h3⟩ := runIter_succ (k := k) (l := List.replicate k none) (o := none)
    (by rw [h2]; simp [List.replicate_succ])
  rw [hn] at hn2
  injection hn2 with hn2
  injection hn2 with _ hn2
  subst hn2
  rw [h3]; simp

theorem Yields.cons {it : σ} {w : W} {ws : List W} (h : Yields next it (w :: ws)) :
    ∃ it', next it = .ok (some w, it') ∧ Yields next it' ws := by
  have h1 := h 1
  obtain ⟨it', hn, _⟩ := runIter_succ (k := 0) (l := []) (o := some w) (by simpa using h1)
  refine ⟨it', hn, fun k => ?_⟩
  have h2 := h (k + 1)
  obtain ⟨it2, hn2, h3⟩ := runIter_succ (k := k)
    (l := (ws.map some ++ List.replicate k none).take k) (o := some w)
    (by
      rw [h2]
      simp only [List.map_cons, List.cons_append, List.take_succ_cons]
      have : (ws.map some ++ List.replicate (k + 1) (none : Option W)).take k
          = (ws.map some ++ List.replicate k none).take k := by
        rw [List.take_append, List.take_append]
        congr 1
        rw [List.take_replicate, List.take_replicate]
        congr 1; omega
      rw [this])
  rw [hn] at hn2
  injection hn2 with hn2
  injection hn2 with _ hn2
  subst hn2
  exact h3

end iter

section sums
variable {T : Nat} {P : Type}

theorem sum_upd (f : P → Nat) (pc : Fin T → P) (t : Fin T) (x : P) :
    ∑ u, f (Function.update pc t x u) + f (pc t) = ∑ u, f (pc u) + f x := by
  have h1 := Finset.sum_update_of_mem (Finset.mem_univ t) (fun u => f (pc u)) (f x)
  have h2 : (fun u => f (Function.update pc t x u)) = Function.update (fun u => f (pc u)) t (f x) := by
    funext u
    by_cases hu : u = t
    · subst hu; simp
    · simp [Function.update_of_ne hu]
  rw [h2, h1]
  have h3 := Finset.add_sum_erase Finset.univ (fun u => f (pc u)) (Finset.mem_univ t)
  rw [Finset.sdiff_singleton_eq_erase]
  omega

theorem sum_ge (f : P → Nat) (pc : Fin T → P) (t : Fin T) : f (pc t) ≤ ∑ u, f (pc u) :=
  Finset.single_le_sum (f := fun u => f (pc u)) (fun _ _ => Nat.zero_le _) (Finset.mem_univ t)

theorem sum_pos (f : P → Nat) (pc : Fin T → P) (h : 0 < ∑ u, f (pc u)) : ∃ t, 0 < f (pc t) := by
  by_contra hc
  push Not at hc
  have : ∑ u, f (pc u) = 0 := Finset.sum_eq_zero (fun u _ => by have := hc u; omega)
  omega

end sums

/-! ### the statistics table -/

/-- entry `(i, j)` of the table -/
def entry (stats : List (List Nat)) (i j : Nat) : Nat := ((stats[i]?).bind (·[j]?)).getD 0

/-- an `M` by `M` table -/
def Square (M : Nat) (stats : List (List Nat)) : Prop :=
  stats.length = M ∧ ∀ r ∈ stats, r.length = M

theorem square_replicate (M : Nat) : Square M (List.replicate M (List.replicate M 0)) := by
  refine ⟨by simp, fun r hr => ?_⟩
  rw [List.eq_of_mem_replicate hr]; simp

theorem entry_replicate (M i j : Nat) : entry (List.replicate M (List.replicate M 0)) i j = 0 := by
  unfold entry
  by_cases hi : i < M <;> by_cases hj : j < M <;> simp [hi, hj]

theorem incStats_ok {M i j : Nat} {stats : List (List Nat)} (h : Square M stats) (hi : i < M) (hj : j < M)
    (hv : entry stats i j + 1 < 2147483648) :
    ∃ stats', incStats stats i j = .ok stats' ∧ Square M stats' ∧
      ∀ a b, entry stats' a b = entry stats a b + if a = i ∧ b = j then 1 else 0 := by
  have hi' : i < stats.length := by rw [h.1]; exact hi
  have hrow : (stats[i]).length = M := h.2 _ (List.getElem_mem hi')
  have hj' : j < (stats[i]).length := by rw [hrow]; exact hj
  have he : entry stats i j = stats[i][j] := by simp [entry, hi', hj']
  rw [he] at hv
  refine ⟨stats.set i ((stats[i]).set j (stats[i][j] + 1)), ?_, ⟨by simp [h.1], ?_⟩, ?_⟩
  · unfold incStats
    rw [rd_ok hi', ok_bind, rd_ok hj', ok_bind, if_pos hv, wr_ok hj', ok_bind, wr_ok hi']
  · intro r hr
    rcases List.mem_or_eq_of_mem_set hr with hr | hr
    · exact h.2 r hr
    · rw [hr]; simp [hrow]
  · intro a b
    by_cases ha : a = i
    · subst ha
      by_cases hb : b = j
      · subst hb
        simp [entry, hi', hj']
      · have hb' : j ≠ b := fun e => hb e.symm
        simp [entry, hi', hb, List.getElem?_set_ne hb']
    · have ha' : i ≠ a := fun e => ha e.symm
      simp [entry, ha, List.getElem?_set_ne ha']

/-! ### the invariant -/

variable {σ W : Type} {T : Nat}

/-- how often a thread still has to print `x` -/
def pendL (lines : W → List (List UInt8)) (x : List UInt8) : Pc W → Nat
  | .got w => (lines w).count x
  | .printing ls _ _ => ls.count x
  | _ => 0

/-- 1 for a thread that still has to count a word in cell `(i, j)` -/
def pendS (val : W → Option (Nat × Nat)) (i j : Nat) : Pc W → Nat
  | .got w => if val w = some (i, j) then 1 else 0
  | .printing _ a b => if a = i ∧ b = j then 1 else 0
  | .wantStats a b => if a = i ∧ b = j then 1 else 0
  | .statsHeld a b => if a = i ∧ b = j then 1 else 0
  | _ => 0

/-- 1 for a thread that still has to count a word in the total -/
def pendT (val : W → Option (Nat × Nat)) : Pc W → Nat
  | .got w => if (val w).isSome then 1 else 0
  | .printing _ _ _ => 1
  | .wantStats _ _ => 1
  | .statsHeld _ _ => 1
  | .wantTotal => 1
  | .totalHeld => 1
  | _ => 0

/-- progress rank of a position -/
def rank (lines : W → List (List UInt8)) : Pc W → Nat
  | .idle => 2
  | .iterHeld => 1
  | .got w => 8 + (lines w).length
  | .printing ls _ _ => 7 + ls.length
  | .wantStats _ _ => 6
  | .statsHeld _ _ => 5
  | .wantTotal => 4
  | .totalHeld => 3
  | .stopped => 0
  | .panicked => 0

def atIter : Pc W → Nat | .iterHeld => 1 | _ => 0
def atStats : Pc W → Nat | .statsHeld _ _ => 1 | _ => 0
def atTotal : Pc W → Nat | .totalHeld => 1 | _ => 0

/-- the number of holders a lock announces -/
def holders : Lock → Nat
  | .free => 0
  | .held => 1
  | .poisoned => 2

structure Inv (next : σ → Res (Option W × σ)) (M : Nat) (val : W → Option (Nat × Nat))
    (lines : W → List (List UInt8)) (words : List W) (taken rest : List W) (s : PState σ W T) : Prop where
  split : words = taken ++ rest
  yields : Yields next s.iter rest
  alive : ∀ t, s.pc t ≠ .panicked
  lockI : ∑ t, atIter (s.pc t) = holders s.iterLock
  lockS : ∑ t, atStats (s.pc t) = holders s.statsLock
  lockT : ∑ t, atTotal (s.pc t) = holders s.totalLock
  poisI : s.iterLock ≠ .poisoned
  poisS : s.statsLock ≠ .poisoned
  poisT : s.totalLock ≠ .poisoned
  square : Square M s.stats
  cells : ∀ i j, entry s.stats i j + ∑ t, pendS val i j (s.pc t) =
    taken.countP (fun w => decide (val w = some (i, j)))
  tot : s.total + ∑ t, pendT val (s.pc t) = taken.countP (fun w => (val w).isSome)
  prints : ∀ x, s.out.count x + ∑ t, pendL lines x (s.pc t) = (taken.flatMap lines).count x
  stop : (∃ t, s.pc t = .stopped) → rest = []
  inword : ∀ t w, s.pc t = .got w → w ∈ words
  range : ∀ t i j, (∃ ls, s.pc t = .printing ls i j) ∨ s.pc t = .wantStats i j ∨ s.pc t = .statsHeld i j →
    i < M ∧ j < M

theorem Inv.init {next : σ → Res (Option W × σ)} {M : Nat} {val : W → Option (Nat × Nat)} {lines : W → List (List UInt8)}
    {words : List W} {it : σ} (h : Yields next it words) :
    Inv (T := T) next M val lines words [] words (PState.init M it) where
  split := rfl
  yields := h
  alive := by simp [PState.init]
  lockI := by simp [PState.init, atIter, holders]
  lockS := by simp [PState.init, atStats, holders]
  lockT := by simp [PState.init, atTotal, holders]
  poisI := by simp [PState.init]
  poisS := by simp [PState.init]
  poisT := by simp [PState.init]
  square := square_replicate M
  cells := by intro i j; simp [PState.init, entry_replicate, pendS]
  tot := by simp [PState.init, pendT]
  prints := by intro x; simp [PState.init, pendL]
  stop := by simp [PState.init]
  inword := by simp [PState.init]
  range := by simp [PState.init]

/-- facts about the word source used by the invariant -/
structure Good (analyse : W → Res (Option (List (List UInt8) × Nat × Nat))) (M : Nat) (val : W → Option (Nat × Nat))
    (lines : W → List (List UInt8)) (words : List W) : Prop where
  ok : ∀ w ∈ words, analyse w = .ok ((val w).map fun p => (lines w, p))
  silent : ∀ w, val w = none → lines w = []
  lt : ∀ w ∈ words, ∀ i j, val w = some (i, j) → i < M ∧ j < M
  few : words.countP (fun w => (val w).isSome) < 2147483648

/-- progress measure -/
def measure (lines : W → List (List UInt8)) (rest : List W) (s : PState σ W T) : Nat :=
  (rest.map (fun w => 8 + (lines w).length)).sum + ∑ t, rank lines (s.pc t)

theorem Good.few' {analyse : W → Res (Option (List (List UInt8) × Nat × Nat))} {M : Nat} {val : W → Option (Nat × Nat)} {lines : W → List (List UInt8)}
    {words taken rest : List W} (hg : Good analyse M val lines words) (h : words = taken ++ rest) (i j : Nat) :
    taken.countP (fun w => decide (val w = some (i, j))) < 2147483648 := by
  refine lt_of_le_of_lt ?_ hg.few
  rw [h, List.countP_append]
  refine le_trans (List.countP_mono_left (q := fun w => (val w).isSome) ?_) (Nat.le_add_right _ _)
  intro w _ hw
  simp only [decide_eq_true_eq] at hw
  simp [hw]

/-- thread-local consequences of moving thread `t` to `p` -/
theorem upd_all {Q : Pc W → Prop} {pc : Fin T → Pc W} (h : ∀ u, Q (pc u)) {p : Pc W} (hp : Q p)
    (t : Fin T) : ∀ u, Q (Function.update pc t p u) := by
  intro u
  by_cases hu : u = t
  · subst hu; simpa using hp
  · rw [Function.update_of_ne hu]; exact h u

theorem Inv.move {next : σ → Res (Option W × σ)} {M : Nat} {val : W → Option (Nat × Nat)} {lines : W → List (List UInt8)}
    {words taken rest taken' rest' : List W} {s s' : PState σ W T}
    (h : Inv next M val lines words taken rest s) {t : Fin T} {q p : Pc W} (hq : s.pc t = q)
    (hpc : s'.pc = Function.update s.pc t p)
    (hsp : taken ++ rest = taken' ++ rest') (hy : Yields next s'.iter rest') (hal : p ≠ .panicked)
    (hI : atIter p + holders s.iterLock = atIter q + holders s'.iterLock)
    (hS : atStats p + holders s.statsLock = atStats q + holders s'.statsLock)
    (hT : atTotal p + holders s.totalLock = atTotal q + holders s'.totalLock)
    (hpI : s'.iterLock ≠ .poisoned) (hpS : s'.statsLock ≠ .poisoned) (hpT : s'.totalLock ≠ .poisoned)
    (hsq : Square M s'.stats)
    (hc : ∀ i j, entry s'.stats i j + pendS val i j p +
        taken.countP (fun w => decide (val w = some (i, j))) =
      entry s.stats i j + pendS val i j q + taken'.countP (fun w => decide (val w = some (i, j))))
    (ht : s'.total + pendT val p + taken.countP (fun w => (val w).isSome) =
      s.total + pendT val q + taken'.countP (fun w => (val w).isSome))
    (hl : ∀ x, s'.out.count x + pendL lines x p + (taken.flatMap lines).count x =
      s.out.count x + pendL lines x q + (taken'.flatMap lines).count x)
    (hst : p = .stopped → rest' = []) (hst' : rest = [] → rest' = [])
    (hin : ∀ w, p = .got w → w ∈ words)
    (hrg : ∀ i j, (∃ ls, p = .printing ls i j) ∨ p = .wantStats i j ∨ p = .statsHeld i j → i < M ∧ j < M)
    (hm : (rest'.map (fun w => 8 + (lines w).length)).sum + rank lines p <
      (rest.map (fun w => 8 + (lines w).length)).sum + rank lines q) :
    Inv next M val lines words taken' rest' s' ∧ measure lines rest' s' < measure lines rest s := by
  have hIt := sum_upd atIter s.pc t p
  have hSt := sum_upd atStats s.pc t p
  have hTo := sum_upd atTotal s.pc t p
  have hRk := sum_upd (rank lines) s.pc t p
  have hPL := fun x => sum_upd (pendL lines x) s.pc t p
  have hPS := fun i j => sum_upd (pendS val i j) s.pc t p
  have hPT := sum_upd (pendT val) s.pc t p
  rw [hq] at hIt hSt hTo hRk hPT
  simp only [hq] at hPS hPL
  have h1 := h.lockI; have h2 := h.lockS; have h3 := h.lockT; have h4 := h.tot
  refine ⟨⟨h.split.trans hsp, hy, ?_, ?_, ?_, ?_, hpI, hpS, hpT, hsq, ?_, ?_, ?_, ?_, ?_, ?_⟩, ?_⟩
  · rw [hpc]; exact upd_all (Q := fun p => p ≠ .panicked) h.alive hal t
  · rw [hpc]; omega
  · rw [hpc]; omega
  · rw [hpc]; omega
  · intro i j
    have a1 := hc i j; have a2 := h.cells i j; have a3 := hPS i j
    rw [hpc]; omega
  · rw [hpc]; omega
  · intro x
    have a1 := hl x; have a2 := h.prints x; have a3 := hPL x
    rw [hpc]; omega
  · rintro ⟨u, hu⟩
    rw [hpc] at hu
    by_cases hut : u = t
    · subst hut; simp at hu; exact hst hu
    · rw [Function.update_of_ne hut] at hu; exact hst' (h.stop ⟨u, hu⟩)
  · rw [hpc]; exact upd_all (Q := fun p => ∀ w, p = .got w → w ∈ words) h.inword hin t
  · rw [hpc]
    exact upd_all (Q := fun p => ∀ i j, (∃ ls, p = .printing ls i j) ∨ p = .wantStats i j ∨ p = .statsHeld i j → i < M ∧ j < M)
      h.range hrg t
  · simp only [measure]; rw [hpc]; omega

theorem holder_pos {f : Pc W → Nat} {pc : Fin T → Pc W} {l : Lock} (h : ∑ t, f (pc t) = holders l)
    {t : Fin T} (ht : f (pc t) = 1) (hp : l ≠ .poisoned) : l = .held := by
  have := sum_ge f pc t
  cases l with
  | free => simp only [holders] at h; omega
  | held => rfl
  | poisoned => exact absurd rfl hp

theorem Inv.step {next : σ → Res (Option W × σ)} {analyse : W → Res (Option (List (List UInt8) × Nat × Nat))} {M : Nat}
    {val : W → Option (Nat × Nat)} {lines : W → List (List UInt8)} {words taken rest : List W} {s s' : PState σ W T}
    (hg : Good analyse M val lines words) (h : Inv next M val lines words taken rest s)
    {t : Fin T} (hs : s.step next analyse t = some s') :
    ∃ taken' rest', Inv next M val lines words taken' rest' s' ∧ measure lines rest' s' < measure lines rest s := by
  unfold PState.step at hs
  cases hpc : s.pc t with
  | idle =>
    rw [hpc] at hs
    cases hl : s.iterLock with
    | held => simp [hl] at hs
    | poisoned => exact absurd hl h.poisI
    | free =>
      simp only [hl, Option.some.injEq] at hs
      subst hs
      refine ⟨taken, rest, h.move hpc rfl rfl h.yields (by simp) ?_ rfl rfl (by simp) h.poisS h.poisT
        h.square (fun i j => rfl) rfl (fun x => rfl) (by simp) id (by simp) (by simp) (by simp [rank])⟩
      rw [hl]; rfl
  | iterHeld =>
    rw [hpc] at hs
    have hl := holder_pos h.lockI (t := t) (by rw [hpc]; rfl) h.poisI
    cases hr : rest with
    | nil =>
      obtain ⟨it', hn, hy⟩ := Yields.nil (hr ▸ h.yields)
      simp only [hn, Option.some.injEq] at hs
      subst hs
      refine ⟨taken, [], ?_⟩
      have := h.move (rest' := []) (taken' := taken) hpc (s' := { s with iter := it', iterLock := .free, pc := Function.update s.pc t .stopped }) rfl
        (by rw [hr]) hy (by simp) (by rw [hl]; rfl) rfl rfl (by simp) h.poisS h.poisT h.square
        (fun i j => rfl) rfl (fun x => rfl) (fun _ => rfl) (fun _ => rfl) (by simp) (by simp) (by simp [rank])
      rwa [hr] at this
    | cons w rest' =>
      obtain ⟨it', hn, hy⟩ := Yields.cons (hr ▸ h.yields)
      simp only [hn, Option.some.injEq] at hs
      subst hs
      refine ⟨taken ++ [w], rest', ?_⟩
      have := h.move (rest' := rest') (taken' := taken ++ [w]) hpc (s' := { s with iter := it', iterLock := .free, pc := Function.update s.pc t (.got w) }) rfl
        (by rw [hr]; simp) hy (by simp) (by rw [hl]; rfl) rfl rfl (by simp) h.poisS h.poisT h.square
        (fun i j => ?_) ?_ (fun x => ?_) (by simp) (by simp [hr]) ?_ (by simp) (by simp [rank, hr]; omega)
      · rwa [hr] at this
      · simp only [pendS, List.countP_append, List.countP_singleton]
        by_cases hv : val w = some (i, j) <;> simp [hv] <;> omega
      · simp only [pendT, List.countP_append, List.countP_singleton]
        by_cases hv : (val w).isSome <;> simp [hv] <;> omega
      · simp only [pendL, List.flatMap_append, List.flatMap_cons, List.flatMap_nil, List.append_nil, List.count_append]
        omega
      · intro w' hw'
        injection hw' with hw'
        rw [h.split, hr, ← hw']; simp
  | got w =>
    rw [hpc] at hs
    have hw := h.inword t w hpc
    have ha := hg.ok w hw
    cases hv : val w with
    | none =>
      rw [hv] at ha
      simp only [ha, Option.map_none, Option.some.injEq] at hs
      subst hs
      exact ⟨taken, rest, h.move hpc rfl rfl h.yields (by simp) rfl rfl rfl h.poisI h.poisS h.poisT
        h.square (fun i j => by simp [pendS, hv]) (by simp [pendT, hv])
        (fun x => by simp [pendL, hg.silent w hv]) (by simp) id (by simp) (by simp) (by simp [rank]; omega)⟩
    | some p =>
      obtain ⟨i, j⟩ := p
      rw [hv] at ha
      simp only [ha, Option.map_some, Option.some.injEq] at hs
      subst hs
      refine ⟨taken, rest, h.move hpc rfl rfl h.yields (by simp) rfl rfl rfl h.poisI h.poisS h.poisT
        h.square (fun a b => ?_) (by simp [pendT, hv]) (fun x => rfl) (by simp) id (by simp) ?_ (by simp [rank])⟩
      · simp [pendS, hv]
      · intro a b hab
        have : a = i ∧ b = j := by
          rcases hab with ⟨ls', hab⟩ | hab | hab
          · injection hab with _ h1 h2; exact ⟨h1.symm, h2.symm⟩
          · cases hab
          · cases hab
        rw [this.1, this.2]
        exact hg.lt w hw i j hv
  | printing ls i j =>
    rw [hpc] at hs
    cases ls with
    | nil =>
      simp only [Option.some.injEq] at hs
      subst hs
      refine ⟨taken, rest, h.move hpc rfl rfl h.yields (by simp) rfl rfl rfl h.poisI h.poisS h.poisT
        h.square (fun a b => rfl) rfl (fun x => by simp [pendL]) (by simp) id (by simp) ?_ (by simp [rank])⟩
      intro a b hab
      simp only [Pc.wantStats.injEq, reduceCtorEq, or_false, false_or, exists_false] at hab
      rw [← hab.1, ← hab.2]
      exact h.range t i j (Or.inl ⟨_, hpc⟩)
    | cons l ls =>
      simp only [Option.some.injEq] at hs
      subst hs
      refine ⟨taken, rest, h.move hpc rfl rfl h.yields (by simp) rfl rfl rfl h.poisI h.poisS h.poisT
        h.square (fun a b => rfl) rfl (fun x => ?_) (by simp) id (by simp) ?_ (by simp [rank])⟩
      · simp only [pendL, List.count_append, List.count_cons, List.count_nil]
        omega
      · intro a b hab
        have : a = i ∧ b = j := by
          rcases hab with ⟨ls', hab⟩ | hab | hab
          · injection hab with _ h1 h2; exact ⟨h1.symm, h2.symm⟩
          · cases hab
          · cases hab
        rw [this.1, this.2]
        exact h.range t i j (Or.inl ⟨_, hpc⟩)
  | wantStats i j =>
    rw [hpc] at hs
    cases hl : s.statsLock with
    | held => simp [hl] at hs
    | poisoned => exact absurd hl h.poisS
    | free =>
      simp only [hl, Option.some.injEq] at hs
      subst hs
      refine ⟨taken, rest, h.move hpc rfl rfl h.yields (by simp) rfl ?_ rfl h.poisI (by simp) h.poisT
        h.square (fun a b => rfl) rfl (fun x => rfl) (by simp) id (by simp) ?_ (by simp [rank])⟩
      · rw [hl]; rfl
      · intro a b hab
        simp only [Pc.statsHeld.injEq, reduceCtorEq, false_or, exists_false] at hab
        rw [← hab.1, ← hab.2]
        exact h.range t i j (Or.inr (Or.inl hpc))
  | statsHeld i j =>
    rw [hpc] at hs
    have hl := holder_pos h.lockS (t := t) (by rw [hpc]; rfl) h.poisS
    have hij := h.range t i j (Or.inr (Or.inr hpc))
    have hlt : entry s.stats i j + 1 < 2147483648 := by
      have h1 := hg.few' h.split i j
      have h2 := h.cells i j
      have h3 := sum_ge (pendS val i j) s.pc t
      have h4 : pendS val i j (s.pc t) = 1 := by rw [hpc]; simp [pendS]
      omega
    obtain ⟨stats', hi, hsq, he⟩ := incStats_ok h.square hij.1 hij.2 hlt
    simp only [hi, Option.some.injEq] at hs
    subst hs
    refine ⟨taken, rest, h.move hpc rfl rfl h.yields (by simp) rfl ?_ rfl h.poisI (by simp) h.poisT
      hsq (fun a b => ?_) rfl (fun x => rfl) (by simp) id (by simp) (by simp) (by simp [rank])⟩
    · rw [hl]; rfl
    · simp only [he, pendS]
      have : (i = a ∧ j = b) ↔ (a = i ∧ b = j) := by constructor <;> (rintro ⟨rfl, rfl⟩; simp)
      simp [this]
  | wantTotal =>
    rw [hpc] at hs
    cases hl : s.totalLock with
    | held => simp [hl] at hs
    | poisoned => exact absurd hl h.poisT
    | free =>
      simp only [hl, Option.some.injEq] at hs
      subst hs
      refine ⟨taken, rest, h.move hpc rfl rfl h.yields (by simp) rfl rfl ?_ h.poisI h.poisS (by simp)
        h.square (fun a b => rfl) rfl (fun x => rfl) (by simp) id (by simp) (by simp) (by simp [rank])⟩
      rw [hl]; rfl
  | totalHeld =>
    rw [hpc] at hs
    have hl := holder_pos h.lockT (t := t) (by rw [hpc]; rfl) h.poisT
    simp only [Option.some.injEq] at hs
    subst hs
    refine ⟨taken, rest, h.move hpc rfl rfl h.yields (by simp) rfl rfl ?_ h.poisI h.poisS (by simp)
      h.square (fun a b => rfl) ?_ (fun x => rfl) (by simp) id (by simp) (by simp) (by simp [rank])⟩
    · rw [hl]; rfl
    · simp only [pendT]
  | stopped => rw [hpc] at hs; simp at hs
  | panicked => exact absurd hpc (h.alive t)

/-- Some thread can move unless all have stopped. -/
theorem Inv.progress {next : σ → Res (Option W × σ)} {analyse : W → Res (Option (List (List UInt8) × Nat × Nat))} {M : Nat}
    {val : W → Option (Nat × Nat)} {lines : W → List (List UInt8)} {words taken rest : List W} {s : PState σ W T}
    (h : Inv next M val lines words taken rest s) {t : Fin T} (ht : s.pc t ≠ .stopped) :
    ∃ u s', s.step next analyse u = some s' := by
  have hany : ∀ u, (s.pc u = .iterHeld ∨ (∃ i j, s.pc u = .statsHeld i j) ∨ s.pc u = .totalHeld) →
      ∃ s', s.step next analyse u = some s' := by
    intro u hu
    unfold PState.step
    rcases hu with hu | ⟨i, j, hu⟩ | hu <;> rw [hu]
    · cases rest with
      | nil => obtain ⟨it', hn, _⟩ := Yields.nil h.yields; simp [hn]
      | cons w r => obtain ⟨it', hn, _⟩ := Yields.cons h.yields; simp [hn]
    · cases hi : incStats s.stats i j <;> simp [hi]
    · simp
  cases hpc : s.pc t with
  | stopped => exact absurd hpc ht
  | panicked => exact absurd hpc (h.alive t)
  | iterHeld => exact ⟨t, hany t (Or.inl hpc)⟩
  | statsHeld i j => exact ⟨t, hany t (Or.inr (Or.inl ⟨i, j, hpc⟩))⟩
  | totalHeld => exact ⟨t, hany t (Or.inr (Or.inr hpc))⟩
  | got w =>
    refine ⟨t, ?_⟩
    unfold PState.step
    rw [hpc]
    rcases ha : analyse w with e | o
    · simp [ha]
    · cases o with
      | none => simp [ha]
      | some p => simp [ha]
  | printing ls i j =>
    refine ⟨t, ?_⟩
    unfold PState.step
    rw [hpc]
    cases ls <;> simp
  | idle =>
    cases hl : s.iterLock with
    | free => exact ⟨t, by unfold PState.step; simp [hpc, hl]⟩
    | poisoned => exact absurd hl h.poisI
    | held =>
      have h1 := h.lockI
      rw [hl] at h1
      obtain ⟨u, hu⟩ := sum_pos atIter s.pc (by rw [h1]; simp [holders])
      refine ⟨u, hany u (Or.inl ?_)⟩
      cases hq : s.pc u <;> simp [hq, atIter] at hu ⊢
  | wantStats i j =>
    cases hl : s.statsLock with
    | free => exact ⟨t, by unfold PState.step; simp [hpc, hl]⟩
    | poisoned => exact absurd hl h.poisS
    | held =>
      have h1 := h.lockS
      rw [hl] at h1
      obtain ⟨u, hu⟩ := sum_pos atStats s.pc (by rw [h1]; simp [holders])
      refine ⟨u, hany u (Or.inr (Or.inl ?_))⟩
      cases hq : s.pc u <;> simp [hq, atStats] at hu ⊢
  | wantTotal =>
    cases hl : s.totalLock with
    | free => exact ⟨t, by unfold PState.step; simp [hpc, hl]⟩
    | poisoned => exact absurd hl h.poisT
    | held =>
      have h1 := h.lockT
      rw [hl] at h1
      obtain ⟨u, hu⟩ := sum_pos atTotal s.pc (by rw [h1]; simp [holders])
      refine ⟨u, hany u (Or.inr (Or.inr ?_))⟩
      cases hq : s.pc u <;> simp [hq, atTotal] at hu ⊢

/-- When all threads have stopped everything is counted. -/
theorem Inv.final {next : σ → Res (Option W × σ)} {M : Nat} {val : W → Option (Nat × Nat)} {lines : W → List (List UInt8)}
    {words taken rest : List W} {s : PState σ W T} (h : Inv next M val lines words taken rest s)
    (hT : 0 < T) (hall : ∀ t, s.pc t = .stopped) :
    Square M s.stats ∧
    (∀ i j, entry s.stats i j = words.countP (fun w => decide (val w = some (i, j)))) ∧
    s.total = words.countP (fun w => (val w).isSome) ∧
    s.out.Perm (words.flatMap lines) := by
  have hr := h.stop ⟨⟨0, hT⟩, hall _⟩
  have hw : words = taken := by rw [h.split, hr, List.append_nil]
  refine ⟨h.square, fun i j => ?_, ?_, ?_⟩
  · have := h.cells i j
    simp only [hall, pendS, Finset.sum_const_zero] at this
    rw [hw]; omega
  · have := h.tot
    simp only [hall, pendT, Finset.sum_const_zero] at this
    rw [hw]; omega
  · rw [List.perm_iff_count]
    intro x
    have := h.prints x
    simp only [hall, pendL, Finset.sum_const_zero] at this
    rw [hw]; omega

end Verif.Par
