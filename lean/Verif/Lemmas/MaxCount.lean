import Verif.Lemmas.MaxSafe
import Mathlib.Algebra.BigOperators.Fin
import Mathlib.Algebra.BigOperators.Pi
import Mathlib.Algebra.Order.BigOperators.Group.Finset
import Mathlib.Algebra.Order.BigOperators.Group.List

/-! # What the workers of `max_lyndon_word` count -/

namespace Verif.Max

open Verif Spec Model Par

/-- All counters: `0` words, `1`, `2`, `3` the three outcomes, from `4` on the total. -/
def cnt (s : MShared) : Nat → Nat → Nat
  | 0, i => s.num.getD i 0
  | 1, i => s.bwtWin.getD i 0
  | 2, i => s.bbwtWin.getD i 0
  | 3, i => s.tie.getD i 0
  | _, _ => s.total

abbrev Cnt := Nat → Nat → Nat

def one (c i : Nat) : Cnt := fun c' i' => if c' = c ∧ i' = i then 1 else 0

def oneTotal : Cnt := fun c' _ => if 4 ≤ c' then 1 else 0

/-- The outcome of a comparison. -/
def kind (b c : Nat) : Nat := if b < c then 1 else if b > c then 2 else 3

/-- At most one word is still to be counted, and for it at most its rotations. -/
def Bal (d : Cnt) : Prop := ∀ i, d 0 i ≤ 1 ∧ d 1 i + d 2 i + d 3 i ≤ (i + 1) * d 0 i

/-- Nothing is printed, or nothing is left to be counted and a line of the report of this moment is printed. -/
def Prints (d : Cnt) (s s' : MShared) : Prop :=
  s'.out = s.out ∨ (d = 0 ∧ ∃ x ∈ reportLines s, s'.out = s.out ++ [x])

/-- `p` adds `d` to the counters, whatever the data, and ends the round. -/
def Adds : MProg → Cnt → Prop
  | .acq _ _ k, d => Adds k d
  | .rel _ _ k, d => Adds k d
  | .act g k, d => Bal d ∧ ∀ s s', g s = .ok s' → ∃ d1 d2, d = d1 + d2 ∧ (∀ c i, d1 c i ≤ 1) ∧
      cnt s' = cnt s + d1 ∧ s'.iter = s.iter ∧ Prints d s s' ∧ Adds (k s) d2
  | .again, d => d = 0
  | .stop, _ => False
  | .panic, d => Bal d

theorem bal_zero : Bal 0 := fun i => by simp

theorem Adds.bal {p : MProg} {d : Cnt} (h : Adds p d) : Bal d := by
  induction p with
  | acq l w k ih => exact ih h
  | rel l w k ih => exact ih h
  | act g k ih => exact h.1
  | again => rw [show d = 0 from h]; exact bal_zero
  | stop => exact absurd h (by simp [Adds])
  | panic => exact h

/-- Less is left to be counted. -/
theorem Bal.tail {a d : Cnt} (h : Bal (a + d)) (h0 : ∀ i, a 0 i = 0) : Bal d := by
  intro i
  have := h i
  simp only [Pi.add_apply, h0 i, Nat.zero_add] at this
  exact ⟨this.1, by omega⟩

theorem incAt_getD {v v' : List Nat} {i : Nat} (h : incAt v i = .ok v') (j : Nat) :
    v'.getD j 0 = v.getD j 0 + if j = i then 1 else 0 := by
  by_cases hi : i < v.length
  · rw [incAt_ok hi] at h
    injection h with h
    subst h
    rw [getD_set' v i j _ hi]
    split
    · rename_i e; subst e; simp [List.getD_eq_getElem?_getD, hi]
    · simp
  · have : v[i]? = none := List.getElem?_eq_none (by omega)
    simp [incAt, rd, this] at h

theorem one_le (c i c' i' : Nat) : one c i c' i' ≤ 1 := by unfold one; split <;> omega

theorem oneTotal_le (c' i' : Nat) : oneTotal c' i' ≤ 1 := by unfold oneTotal; split <;> omega

variable {k : MProg} {d : Cnt}

theorem adds_silent {g : MShared → Res MShared} {k : MShared → MProg}
    (hg : ∀ s s', g s = .ok s' → cnt s' = cnt s ∧ s'.iter = s.iter ∧ Prints d s s') (h : ∀ s, Adds (k s) d) :
    Adds (.act g k) d :=
  ⟨(h MShared.init).bal, fun s s' hs => ⟨0, d, by simp, by simp, by simp [(hg s s' hs).1], (hg s s' hs).2.1,
    (hg s s' hs).2.2, h s⟩⟩

theorem cnt_record (s : MShared) (a b : List Nat) (t : List (List UInt8)) :
    cnt { s with bestBwt := a, bestBbwt := b, bestText := t } = cnt s := by
  funext c i
  match c with
  | 0 => rfl
  | 1 => rfl
  | 2 => rfl
  | 3 => rfl
  | _ + 4 => rfl

theorem adds_storeBest {b c i : Nat} {t : List UInt8} (h : Adds k d) : Adds (storeBest b c i t k) d := by
  unfold storeBest
  refine adds_silent (fun s s' hs => ?_) fun _ => adds_silent (fun s s' hs => ?_) fun _ =>
    adds_silent (fun s s' hs => ?_) fun _ => h
  · simp only [wr] at hs
    split at hs
    · simp only [ok_bind, pure_ok] at hs
      injection hs with hs; subst hs
      exact ⟨cnt_record s _ _ _, rfl, Or.inl rfl⟩
    · simp at hs
  · simp only [wr] at hs
    split at hs
    · simp only [ok_bind, pure_ok] at hs
      injection hs with hs; subst hs
      exact ⟨cnt_record s _ _ _, rfl, Or.inl rfl⟩
    · simp at hs
  · simp only [wr] at hs
    split at hs
    · simp only [ok_bind, pure_ok] at hs
      injection hs with hs; subst hs
      exact ⟨cnt_record s _ _ _, rfl, Or.inl rfl⟩
    · simp at hs

theorem adds_considerBest {b c i : Nat} {t : List UInt8} (h : Adds k d) :
    Adds (considerBest b c i t k) d := by
  unfold considerBest
  split
  · refine adds_silent (fun s s' hs => ?_) fun s => ?_
    · cases hn : needsChange b c i t s with
      | error e => rw [hn] at hs; simp at hs
      | ok r => rw [hn] at hs; simp only [ok_bind, pure_ok] at hs; injection hs with hs; subst hs; exact ⟨rfl, rfl, Or.inl rfl⟩
    · show Adds (match needsChange b c i t s with
        | .ok true => storeBest b c i t k
        | _ => k) d
      split
      · exact adds_storeBest h
      · exact h
  · exact h

theorem winUpdate_adds {b c i : Nat} {s s' : MShared} (h : winUpdate b c i s = .ok s') :
    cnt s' = cnt s + one (kind b c) i ∧ s'.iter = s.iter ∧ s'.out = s.out := by
  unfold winUpdate at h
  unfold kind
  split at h
  · rename_i hlt
    rw [if_pos hlt]
    cases hv : incAt s.bwtWin i with
    | error e => rw [hv] at h; simp at h
    | ok v =>
      rw [hv] at h; simp only [ok_bind, pure_ok] at h; injection h with h; subst h
      refine ⟨?_, rfl, rfl⟩
      funext c j
      match c with
      | 0 => rfl
      | 1 => show v.getD j 0 = _; rw [incAt_getD hv]; simp [cnt, one]
      | 2 => rfl
      | 3 => rfl
      | _ + 4 => rfl
  · rename_i hlt
    rw [if_neg hlt]
    split at h
    · rename_i hgt
      rw [if_pos hgt]
      cases hv : incAt s.bbwtWin i with
      | error e => rw [hv] at h; simp at h
      | ok v =>
        rw [hv] at h; simp only [ok_bind, pure_ok] at h; injection h with h; subst h
        refine ⟨?_, rfl, rfl⟩
        funext c j
        match c with
        | 0 => rfl
        | 1 => rfl
        | 2 => show v.getD j 0 = _; rw [incAt_getD hv]; simp [cnt, one]
        | 3 => rfl
        | _ + 4 => rfl
    · rename_i hgt
      rw [if_neg hgt]
      cases hv : incAt s.tie i with
      | error e => rw [hv] at h; simp at h
      | ok v =>
        rw [hv] at h; simp only [ok_bind, pure_ok] at h; injection h with h; subst h
        refine ⟨?_, rfl, rfl⟩
        funext c j
        match c with
        | 0 => rfl
        | 1 => rfl
        | 2 => rfl
        | 3 => show v.getD j 0 = _; rw [incAt_getD hv]; simp [cnt, one]
        | _ + 4 => rfl

theorem adds_conjugateBlock {b i : Nat} {t : List UInt8} (hB : Bal (one (kind b (bbwtRuns t)) i + d)) (h : Adds k d) :
    Adds (conjugateBlock b i t k) (one (kind b (bbwtRuns t)) i + d) := by
  unfold conjugateBlock
  split
  · exact hB
  · rename_i bt hb
    have hbr : bbwtRuns t = numberOfRuns (sliceReader bt) := by rw [bbwtRuns, hb]; rfl
    simp only [← hbr]
    refine ⟨hB, fun s s' hs => ?_⟩
    obtain ⟨h1, h2, h3⟩ := winUpdate_adds hs
    exact ⟨_, d, rfl, one_le _ _, h1, h2, Or.inl h3, adds_considerBest h⟩

/-- What the conjugates add. -/
def wins (b i : Nat) (us : List (List UInt8)) : Cnt := (us.map fun u => one (kind b (bbwtRuns u)) i).sum

theorem wins_cons (b i : Nat) (u : List UInt8) (us : List (List UInt8)) :
    wins b i (u :: us) = one (kind b (bbwtRuns u)) i + wins b i us := by simp [wins]

theorem kind_cases (b c : Nat) : kind b c = 1 ∨ kind b c = 2 ∨ kind b c = 3 := by
  unfold kind
  split
  · exact Or.inl rfl
  · split
    · exact Or.inr (Or.inl rfl)
    · exact Or.inr (Or.inr rfl)

theorem one_kind (b c i j : Nat) : one (kind b c) i 0 j = 0 ∧
    one (kind b c) i 1 j + one (kind b c) i 2 j + one (kind b c) i 3 j = if j = i then 1 else 0 := by
  rcases kind_cases b c with h | h | h <;> rw [h] <;> simp [one]

theorem wins_sum (b i j : Nat) (us : List (List UInt8)) : wins b i us 0 j = 0 ∧
    wins b i us 1 j + wins b i us 2 j + wins b i us 3 j = if j = i then us.length else 0 := by
  induction us with
  | nil => simp [wins]
  | cons u us ih =>
    have h := one_kind b (bbwtRuns u) i j
    simp only [wins_cons, Pi.add_apply, h.1, ih.1, List.length_cons]
    refine ⟨trivial, ?_⟩
    have h2 := h.2
    have h3 := ih.2
    split <;> simp_all <;> omega

theorem adds_conjugateLoop {b i : Nat} (h : Adds k d) {us : List (List UInt8)} :
    ∀ {it : ConjugateIterator UInt8} {fuel : Nat}, Yields ConjugateIterator.next it us →
      us.length < fuel → Bal (wins b i us + d) → Adds (conjugateLoop b i fuel it k) (wins b i us + d) := by
  induction us with
  | nil =>
    intro it fuel hy hf _
    obtain ⟨it', hn, _⟩ := hy.nil
    obtain ⟨f, rfl⟩ : ∃ f, fuel = f + 1 := ⟨fuel - 1, by simp at hf; omega⟩
    simp only [conjugateLoop, hn]
    simpa [wins] using h
  | cons u us ih =>
    intro it fuel hy hf hB
    obtain ⟨it', hn, hy'⟩ := hy.cons
    simp only [List.length_cons] at hf
    obtain ⟨f, rfl⟩ : ∃ f, fuel = f + 1 := ⟨fuel - 1, by omega⟩
    simp only [conjugateLoop, hn]
    rw [wins_cons, add_assoc] at hB ⊢
    exact adds_conjugateBlock (b := b) (i := i) (t := u) hB
      (ih hy' (show us.length < f by omega) (hB.tail (fun j => (one_kind b _ i j).1)))

theorem bal_count (i : Nat) : Bal (one 0 i + (oneTotal + 0)) := by
  intro j
  simp [one, oneTotal]
  split <;> simp

theorem bal_total : Bal (oneTotal + 0) := by
  intro j
  simp [oneTotal]

theorem adds_countWord {i : Nat} (h : Adds k 0) : Adds (countWord i k) (one 0 i + (oneTotal + 0)) := by
  unfold countWord
  refine ⟨bal_count i, fun s s' hs => ?_⟩
  beta_reduce at hs
  refine ⟨one 0 i, oneTotal + 0, rfl, one_le _ _, ?_, ?_, ?_, ?_⟩
  · cases hv : incAt s.num i with
    | error e => rw [hv] at hs; simp at hs
    | ok v =>
      rw [hv] at hs; simp only [ok_bind, pure_ok] at hs; injection hs with hs; subst hs
      funext c j
      match c with
      | 0 => show v.getD j 0 = _; rw [incAt_getD hv]; simp [cnt, one]
      | 1 => rfl
      | 2 => rfl
      | 3 => rfl
      | _ + 4 => rfl
  · cases hv : incAt s.num i with
    | error e => rw [hv] at hs; simp at hs
    | ok v => rw [hv] at hs; simp only [ok_bind, pure_ok] at hs; injection hs with hs; subst hs; rfl
  · cases hv : incAt s.num i with
    | error e => rw [hv] at hs; simp at hs
    | ok v =>
      rw [hv] at hs; simp only [ok_bind, pure_ok] at hs; injection hs with hs; subst hs; exact Or.inl rfl
  · refine ⟨bal_total, fun s s' hs => ?_⟩
    simp only [pure_ok] at hs
    injection hs with hs; subst hs
    refine ⟨oneTotal, 0, rfl, oneTotal_le, ?_, rfl, Or.inl rfl, h⟩
    funext c j
    match c with
    | 0 => rfl
    | 1 => rfl
    | 2 => rfl
    | 3 => rfl
    | _ + 4 => simp [cnt, oneTotal]

theorem cnt_printed (x : List (List UInt8)) (s : MShared) : cnt (printed x s) = cnt s := by
  funext c i
  match c with
  | 0 => rfl
  | 1 => rfl
  | 2 => rfl
  | 3 => rfl
  | _ + 4 => rfl

theorem rd_inv {α : Type} {v : List α} {i : Nat} {x : α} (h : rd v i = .ok x) : i < v.length := by
  by_contra hc
  have : v[i]? = none := List.getElem?_eq_none (by omega)
  simp [rd, this] at h

theorem printCounts_inv {l : Nat} {s s' : MShared} (h : printCounts l s = .ok s') :
    s' = printed [(lengthLines s l).headI] s := by
  have h0 := h
  unfold printCounts at h
  cases h1 : rd s.num l with
  | error e => rw [h1] at h; simp at h
  | ok a =>
    rw [h1, ok_bind] at h
    cases h2 : rd s.bwtWin l with
    | error e => rw [h2] at h; simp at h
    | ok b =>
      rw [h2, ok_bind] at h
      cases h3 : rd s.bbwtWin l with
      | error e => rw [h3] at h; simp at h
      | ok c =>
        rw [h3, ok_bind] at h
        cases h4 : rd s.tie l with
        | error e => rw [h4] at h; simp at h
        | ok d =>
          rw [printCounts_ok (rd_inv h1) (rd_inv h2) (rd_inv h3) (rd_inv h4)] at h0
          injection h0 with h0
          exact h0.symm

theorem printText_inv {l : Nat} {s s' : MShared} (h : printText l s = .ok s') :
    s' = printed (lengthLines s l).tail s := by
  have h0 := h
  unfold printText at h
  cases h1 : rd s.bestText l with
  | error e => rw [h1] at h; simp at h
  | ok a =>
    rw [h1, ok_bind] at h
    cases h2 : rd s.bestBwt l with
    | error e => rw [h2] at h; simp at h
    | ok b =>
      rw [h2, ok_bind] at h
      cases h3 : rd s.bestBbwt l with
      | error e => rw [h3] at h; simp at h
      | ok c =>
        rw [printText_ok (rd_inv h1) (rd_inv h2) (rd_inv h3)] at h0
        injection h0 with h0
        exact h0.symm

theorem mem_reportLines {s : MShared} {l : Nat} (hl : l ∈ List.range' 20 (MAXW - 20)) {x : List UInt8}
    (hx : x ∈ lengthLines s l) : x ∈ reportLines s :=
  List.mem_cons_of_mem _ (List.mem_flatMap.2 ⟨l, hl, hx⟩)

theorem adds_reportTexts (h : Adds k 0) (ls : List Nat) (hls : ∀ l ∈ ls, l ∈ List.range' 20 (MAXW - 20)) :
    Adds (reportTexts k ls) 0 := by
  induction ls with
  | nil => exact h
  | cons l ls ih =>
    have hl := hls l (by simp)
    refine adds_silent (fun s s' hs => ?_) fun _ => adds_silent (fun s s' hs => ?_) fun _ =>
      ih (fun l hl => hls l (by simp [hl]))
    · rw [printCounts_inv hs]
      exact ⟨cnt_printed _ _, rfl, Or.inr ⟨rfl, _, mem_reportLines hl (List.mem_cons_self), rfl⟩⟩
    · rw [printText_inv hs]
      exact ⟨cnt_printed _ _, rfl, Or.inr ⟨rfl, _, mem_reportLines hl (List.mem_cons_of_mem _ List.mem_cons_self), rfl⟩⟩

theorem adds_checkReport : Adds checkReport 0 := by
  unfold checkReport
  refine adds_silent (fun s s' hs => ?_) fun s => ?_
  · simp only [pure_ok] at hs; injection hs with hs; subst hs; exact ⟨rfl, rfl, Or.inl rfl⟩
  · show Adds (if s.total % 10000 = 0 then _ else _) 0
    split
    · refine adds_silent (d := 0) (fun s s' hs => ?_) fun s => adds_reportTexts ?_ _ (fun _ h => h)
      · injection hs with hs
        subst hs
        exact ⟨cnt_printed _ s, rfl, Or.inr ⟨rfl, _, List.mem_cons_self, rfl⟩⟩
      · show (0 : Cnt) = 0
        rfl
    · show (0 : Cnt) = 0
      rfl

/-- What a word adds. -/
def delta (w : List Nat) : Cnt :=
  wins (bwtRuns (w.map UInt8.ofNat)) (w.length - 1) (conjs w) + (one 0 (w.length - 1) + (oneTotal + 0))

theorem adds_processWord {w : List Nat} (hne : w ≠ []) (hl : w.length ≤ MAXW) :
    Adds (processWord w) (delta w) := by
  rw [processWord_eq hne hl]
  have hn := List.length_pos_iff.2 hne
  have hlen : (conjs w).length = w.length := by simp [conjs]
  refine adds_conjugateLoop (adds_countWord adds_checkReport) (conj_yields _)
    (show (conjs w).length < w.length + 1 by omega) (fun j => ?_)
  have := wins_sum (bwtRuns (w.map UInt8.ofNat)) (w.length - 1) j (conjs w)
  have e : (List.range (w.map UInt8.ofNat).length).map (rot · (w.map UInt8.ofNat)) = conjs w := rfl
  simp only [Pi.add_apply, this.1]
  simp only [one, oneTotal, Pi.zero_apply]
  by_cases hj : j = w.length - 1
  · have h2 := this.2
    rw [if_pos hj] at h2
    simp [hj] at h2 ⊢
    omega
  · have h2 := this.2
    rw [if_neg hj] at h2
    simp [hj] at h2 ⊢
    omega

theorem cnt_iter (s : MShared) (it : LyndonWordGenerator) : cnt { s with iter := it } = cnt s := by
  funext c i
  match c with
  | 0 => rfl
  | 1 => rfl
  | 2 => rfl
  | 3 => rfl
  | _ + 4 => rfl

/-! ### All threads -/

/-- The worker after it has locked the iterator. -/
def takeNext : MProg :=
  .act (fun s => do
    let (_, it) ← s.iter.next
    pure { s with iter := it }) fun s =>
  .rel .iter true <|
  match s.iter.next with
  | .ok (some w, _) => processWord w
  | .ok (none, _) => .stop
  | .error _ => .panic

theorem mworker_eq : mworker = .acq .iter true takeNext := rfl

/-- What one thread still has to add. -/
def Local (rest : List (List Nat)) (p : MProg) (d : Cnt) : Prop :=
  ((p = mworker ∨ p = takeNext) ∧ d = 0) ∨
  ((p = .stop ∨ p = .rel .iter true .stop) ∧ d = 0 ∧ rest = []) ∨ Adds p d

theorem Local.bal {rest : List (List Nat)} {p : MProg} {d : Cnt} (h : Local rest p d) : Bal d := by
  rcases h with ⟨_, h⟩ | ⟨_, h, _⟩ | h
  · rw [h]; exact bal_zero
  · rw [h]; exact bal_zero
  · exact h.bal

def total (ws : List (List Nat)) : Cnt := (ws.map delta).sum

/-- Everything that is still to be added, together with what has been added, is what all words add. -/
def CInv {T : Nat} (ws : List (List Nat)) (st : MState T) : Prop :=
  ∃ done rest, done ++ rest = ws ∧ Yields LyndonWordGenerator.next st.sh.iter rest ∧
    ∃ d : Fin T → Cnt, (∀ t, Local rest (st.prog t) (d t)) ∧ cnt st.sh + ∑ t, d t = total done

theorem sum_update {T : Nat} (d : Fin T → Cnt) (t : Fin T) (x : Cnt) :
    (∑ u, Function.update d t x u) + d t = (∑ u, d u) + x := by
  rw [Finset.sum_update_of_mem (Finset.mem_univ t)]
  have := Finset.sum_erase_add (Finset.univ) d (Finset.mem_univ t)
  rw [← this, ← Finset.erase_eq, add_comm x, add_assoc, add_assoc, add_comm x]

/-- One step changes each counter by at most one. -/
def Near (s s' : MShared) : Prop := ∀ c i, cnt s c i ≤ cnt s' c i ∧ cnt s' c i ≤ cnt s c i + 1

theorem Near.refl (s : MShared) : Near s s := fun _ _ => by omega

theorem CInv.step {T : Nat} {ws : List (List Nat)} (hws : ∀ w ∈ ws, w ≠ [] ∧ w.length ≤ MAXW)
    {st st' : MState T} (h : CInv ws st) (hs : TState.Step mworker st st') :
    CInv ws st' ∧ Near st.sh st'.sh := by
  obtain ⟨t, ht⟩ := hs
  obtain ⟨done, rest, hsp, hy, d, hd, hsum⟩ := h
  simp only [TState.stepOf] at ht
  -- only the program of `t` has changed, and what it has to add is the same
  have quiet : ∀ (lk : MLock → Holds) (p : MProg), Local rest p (d t) →
      CInv ws (⟨st.sh, lk, Function.update st.prog t p⟩ : MState T) ∧ Near st.sh st.sh := fun lk p hp => by
    refine ⟨⟨done, rest, hsp, hy, d, fun u => ?_, hsum⟩, Near.refl _⟩
    by_cases hu : u = t
    · subst hu; simpa using hp
    · simpa [hu] using hd u
  match hp : st.prog t with
  | .acq l w k =>
    rw [hp] at ht
    have hk : st' = ⟨st.sh, st'.locks, Function.update st.prog t k⟩ := by
      cases w <;> simp only [Prog.step] at ht <;> split at ht
      all_goals
        first
        | (rename_i hq; split at hq
           · injection hq with hq; injection ht with ht; cases hq; subst ht; rfl
           · cases hq)
        | cases ht
    rw [hk]
    refine quiet _ _ ?_
    have := hd t
    rw [hp] at this
    rcases this with ⟨h1 | h1, h2⟩ | ⟨h1 | h1, _, _⟩ | h1
    · rw [mworker_eq] at h1; injection h1 with _ _ h1; subst h1
      exact Or.inl ⟨Or.inr rfl, h2⟩
    · cases h1
    · cases h1
    · cases h1
    · exact Or.inr (Or.inr h1)
  | .rel l w k =>
    rw [hp] at ht
    have hk : st' = ⟨st.sh, st'.locks, Function.update st.prog t k⟩ := by
      cases w <;> simp only [Prog.step] at ht <;> injection ht with ht <;> subst ht <;> rfl
    rw [hk]
    refine quiet _ _ ?_
    have := hd t
    rw [hp] at this
    rcases this with ⟨h1 | h1, h2⟩ | ⟨h1 | h1, h2, h3⟩ | h1
    · cases h1
    · cases h1
    · cases h1
    · injection h1 with _ _ h1; subst h1
      exact Or.inr (Or.inl ⟨Or.inl rfl, h2, h3⟩)
    · exact Or.inr (Or.inr h1)
  | .act g k =>
    rw [hp] at ht
    simp only [Prog.step] at ht
    cases hg : g st.sh with
    | error e =>
      rw [hg] at ht
      simp only at ht
      injection ht with ht; subst ht
      refine quiet _ _ (Or.inr (Or.inr ?_))
      have := hd t
      rw [hp] at this
      exact this.bal
    | ok s2 =>
      rw [hg] at ht
      simp only at ht
      injection ht with ht; subst ht
      have := hd t
      rw [hp] at this
      rcases this with ⟨h1 | h1, h2⟩ | ⟨h1 | h1, _, _⟩ | h1
      · cases h1
      · -- the next word is taken
        injection h1 with hg' hk'
        subst hg' hk'
        match rest, hsp, hy, hd with
        | [], hsp, hy, hd =>
          obtain ⟨it, hn, hy'⟩ := hy.nil
          simp only [hn, ok_bind, pure_ok] at hg
          injection hg with hg; subst hg
          refine ⟨⟨done, [], hsp, hy', d, fun u => ?_, by rw [cnt_iter]; exact hsum⟩, fun c i => ?_⟩
          · by_cases hu : u = t
            · subst hu
              simp only [Function.update_self, hn]
              exact Or.inr (Or.inl ⟨Or.inr rfl, h2, rfl⟩)
            · simpa [hu] using hd u
          · have e := congrFun (congrFun (cnt_iter st.sh it) c) i
            exact ⟨Nat.le_of_eq e.symm, by rw [show cnt _ c i = cnt st.sh c i from e]; omega⟩
        | w :: rest, hsp, hy, hd =>
          obtain ⟨it, hn, hy'⟩ := hy.cons
          simp only [hn, ok_bind, pure_ok] at hg
          injection hg with hg; subst hg
          have hw := hws w (by rw [← hsp]; simp)
          refine ⟨⟨done ++ [w], rest, by rw [← hsp]; simp, hy', Function.update d t (delta w), fun u => ?_, ?_⟩,
            fun c i => ?_⟩
          · by_cases hu : u = t
            · subst hu
              simp only [Function.update_self, hn]
              exact Or.inr (Or.inr (adds_processWord hw.1 hw.2))
            · simp only [Function.update_of_ne hu]
              rcases hd u with h | ⟨_, _, h⟩ | h
              · exact Or.inl h
              · cases h
              · exact Or.inr (Or.inr h)
          · show cnt { st.sh with iter := it } + _ = _
            have := sum_update d t (delta w)
            rw [h2, add_zero] at this
            rw [this, cnt_iter, ← add_assoc, hsum]
            simp [total]
          · have e := congrFun (congrFun (cnt_iter st.sh it) c) i
            exact ⟨Nat.le_of_eq e.symm, by rw [show cnt _ c i = cnt st.sh c i from e]; omega⟩
      · cases h1
      · cases h1
      · obtain ⟨d1, d2, e, hle, hc, hi, -, ha⟩ := h1.2 _ _ hg
        refine ⟨⟨done, rest, hsp, by rw [hi]; exact hy, Function.update d t d2, fun u => ?_, ?_⟩, fun c i => ?_⟩
        · by_cases hu : u = t
          · subst hu; simp only [Function.update_self]; exact Or.inr (Or.inr ha)
          · simpa [hu] using hd u
        · show cnt s2 + _ = _
          have := sum_update d t d2
          rw [e] at this
          have h3 : (∑ u, Function.update d t d2 u) + d1 = ∑ u, d u := by
            apply add_right_cancel (b := d2)
            rw [add_assoc, this]
          rw [hc, add_assoc, add_comm d1, h3, hsum]
        · show _ ≤ cnt s2 c i ∧ cnt s2 c i ≤ _
          rw [hc]
          have := hle c i
          simp only [Pi.add_apply]
          omega
  | .again =>
    rw [hp] at ht
    simp only [Prog.step] at ht
    injection ht with ht; subst ht
    refine quiet _ _ (Or.inl ⟨Or.inl rfl, ?_⟩)
    have := hd t
    rw [hp] at this
    rcases this with ⟨h1 | h1, h2⟩ | ⟨h1 | h1, _, _⟩ | h1
    · cases h1
    · cases h1
    · cases h1
    · cases h1
    · exact h1
  | .stop => rw [hp] at ht; simp [Prog.step] at ht
  | .panic => rw [hp] at ht; simp [Prog.step] at ht

end Verif.Max
