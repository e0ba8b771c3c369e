import Verif.Lemmas.MaxLyndon
import Mathlib.Tactic.IntervalCases

/-! # One worker of `max_lyndon_word`, undisturbed: the record it keeps -/

namespace Verif.Max

open Verif Spec Model Par

/-- A record: runs of the BWT, runs of the bijective BWT, text. -/
abbrev Rec := Nat × Nat × List UInt8

/-- The difference of a record. -/
def adv (r : Rec) : Nat := r.1 - r.2.1

/-- The record for texts of length `i + 1`. -/
def record (s : MShared) (i : Nat) : Rec :=
  (s.bestBwt.getD i 0, s.bestBbwt.getD i 0, s.bestText.getD i [])

/-- Keep the first of the best. -/
def pick (r x : Rec) : Rec := if adv r < adv x then x else r

theorem adv_pick (r x : Rec) : adv r ≤ adv (pick r x) := by
  unfold pick; split <;> omega

/-- What folding `pick` computes. -/
theorem foldl_pick (xs : List Rec) (r : Rec) :
    (xs.foldl pick r = r ∧ ∀ x ∈ xs, adv x ≤ adv r) ∨
    ∃ pre x post, xs = pre ++ x :: post ∧ xs.foldl pick r = x ∧ adv r < adv x ∧
      (∀ y ∈ pre, adv y < adv x) ∧ ∀ y ∈ post, adv y ≤ adv x := by
  induction xs generalizing r with
  | nil => left; exact ⟨rfl, by simp⟩
  | cons x xs ih =>
    rw [List.foldl_cons]
    by_cases h : adv r < adv x
    · have e : pick r x = x := by rw [pick, if_pos h]
      rw [e]
      right
      rcases ih x with ⟨h1, h2⟩ | ⟨pre, y, post, h1, h2, h3, h4, h5⟩
      · exact ⟨[], x, xs, rfl, h1, h, by simp, h2⟩
      · refine ⟨x :: pre, y, post, by rw [h1]; rfl, h2, by omega, ?_, h5⟩
        intro z hz
        rcases List.mem_cons.1 hz with rfl | hz
        · exact h3
        · exact h4 z hz
    · have e : pick r x = r := by rw [pick, if_neg h]
      rw [e]
      rcases ih r with ⟨h1, h2⟩ | ⟨pre, y, post, h1, h2, h3, h4, h5⟩
      · left
        refine ⟨h1, fun y hy => ?_⟩
        rcases List.mem_cons.1 hy with rfl | hy
        · omega
        · exact h2 y hy
      · right
        refine ⟨x :: pre, y, post, by rw [h1]; rfl, h2, h3, ?_, h5⟩
        intro z hz
        rcases List.mem_cons.1 hz with rfl | hz
        · omega
        · exact h4 z hz

/-- The data hold the records `f`, none of whose texts has a byte `'0'`. -/
structure Records (f : Nat → Rec) (s : MShared) : Prop where
  shape : Shape s
  kept : ∀ i, record s i = f i
  clean : ∀ i, (48 : UInt8) ∉ (f i).2.2

theorem secondCriteria_clean {t old : List UInt8} (h : (48 : UInt8) ∉ old) : secondCriteria t old = false := by
  have : old.countP (fun c => decide (c = 48)) = 0 := by
    rw [List.countP_eq_zero]
    intro c hc
    simp only [decide_eq_true_eq]
    rintro rfl
    exact h hc
  simp [secondCriteria, this]

theorem needsChange_clean {f : Nat → Rec} {s : MShared} {l : Nat} (hs : Records f s) (hl : l < MAXW) {b c : Nat}
    (hcb : c ≤ b) (t : List UInt8) : needsChange b c l t s = .ok (decide (adv (f l) < b - c)) := by
  have h1 : l < s.bestBwt.length := by rw [hs.shape.bestBwt]; exact hl
  have h2 : l < s.bestBbwt.length := by rw [hs.shape.bestBbwt]; exact hl
  have h3 : l < s.bestText.length := by rw [hs.shape.bestText]; exact hl
  have e1 : s.bestBwt.getD l 0 = s.bestBwt[l] := by simp [List.getD_eq_getElem?_getD, h1]
  have e2 : s.bestBbwt.getD l 0 = s.bestBbwt[l] := by simp [List.getD_eq_getElem?_getD, h2]
  have e3 : s.bestText.getD l [] = s.bestText[l] := by simp [List.getD_eq_getElem?_getD, h3]
  have hle := hs.shape.le l
  rw [e1, e2] at hle
  have hr := hs.kept l
  rw [record, e1, e2, e3] at hr
  have hc := hs.clean l
  rw [← hr] at hc ⊢
  unfold needsChange
  rw [usub_ok hcb, ok_bind, rd_ok h1, ok_bind, rd_ok h2, ok_bind, usub_ok hle, ok_bind]
  change _ = Except.ok (decide (s.bestBwt[l] - s.bestBbwt[l] < b - c))
  by_cases hgt : s.bestBwt[l] - s.bestBbwt[l] < b - c
  · rw [if_pos (show b - c > _ from hgt), pure_ok, decide_eq_true hgt]
  · rw [if_neg (show ¬ b - c > _ from hgt), decide_eq_false hgt]
    by_cases heq : b - c = s.bestBwt[l] - s.bestBbwt[l]
    · rw [if_pos heq, rd_ok h3, ok_bind, pure_ok, secondCriteria_clean hc]
    · rw [if_neg heq, pure_ok]

/-- The records after one candidate. -/
def tryOne (l : Nat) (x : Rec) (f : Nat → Rec) : Nat → Rec := Function.update f l (pick (f l) x)

/-- The records after some candidates. -/
def tryAll (l : Nat) (xs : List Rec) (f : Nat → Rec) : Nat → Rec := xs.foldl (fun f x => tryOne l x f) f

theorem tryAll_apply (l : Nat) (xs : List Rec) (f : Nat → Rec) (i : Nat) :
    tryAll l xs f i = if i = l then xs.foldl pick (f l) else f i := by
  induction xs generalizing f with
  | nil => simp only [tryAll, List.foldl_nil]; split <;> simp_all
  | cons x xs ih =>
    have : tryAll l (x :: xs) f = tryAll l xs (tryOne l x f) := rfl
    rw [this, ih]
    by_cases hi : i = l
    · subst hi; simp [tryOne]
    · rw [if_neg hi, if_neg hi, tryOne, Function.update_of_ne hi]

theorem considerBest_rec {f : Nat → Rec} {s : MShared} {l : Nat} (hs : Records f s) (hl : l < MAXW) (b c : Nat)
    {t : List UInt8} (ht : (48 : UInt8) ∉ t) (k : MProg) :
    ∃ s', PRuns mworker (s, free, considerBest b c l t k) (s', free, k) ∧ Records (tryOne l (b, c, t) f) s' ∧
      s'.iter = s.iter ∧ s'.total = s.total := by
  have same : adv (f l) ≥ b - c → tryOne l (b, c, t) f = f := fun h => by
    rw [tryOne, pick, if_neg (show ¬ adv (f l) < adv (b, c, t) from Nat.not_lt.2 h)]
    exact Function.update_eq_self l f
  by_cases hcb : c < b
  · have hr := needsChange_clean hs hl (Nat.le_of_lt hcb) t
    have hrun := considerBest_read hcb hr k
    by_cases hd : adv (f l) < b - c
    · rw [decide_eq_true hd] at hrun
      refine ⟨stored b c l t s, hrun.trans (storeBest_run hs.shape hl b c t k), ⟨shape_stored hs.shape hl (by omega), ?_, ?_⟩,
        rfl, rfl⟩
      · intro i
        have e : pick (f l) (b, c, t) = (b, c, t) := if_pos hd
        rw [tryOne, e]
        have h1 : l < s.bestBwt.length := by rw [hs.shape.bestBwt]; exact hl
        have h2 : l < s.bestBbwt.length := by rw [hs.shape.bestBbwt]; exact hl
        have h3 : l < s.bestText.length := by rw [hs.shape.bestText]; exact hl
        by_cases hi : i = l
        · subst hi
          simp [record, stored, h1, h2, h3]
        · rw [Function.update_of_ne hi, ← hs.kept i]
          simp [record, stored, Ne.symm hi]
      · intro i
        have e : pick (f l) (b, c, t) = (b, c, t) := if_pos hd
        rw [tryOne, e]
        by_cases hi : i = l
        · subst hi; simpa using ht
        · rw [Function.update_of_ne hi]; exact hs.clean i
    · rw [decide_eq_false hd] at hrun
      rw [same (by omega)]
      exact ⟨s, hrun, hs, rfl, rfl⟩
  · rw [same (by omega)]
    unfold considerBest
    rw [if_neg hcb]
    exact ⟨s, Relation.ReflTransGen.refl, hs, rfl, rfl⟩

theorem conjugateBlock_rec {f : Nat → Rec} {s : MShared} {l : Nat} (hs : Records f s) (hl : l < MAXW) (b : Nat)
    {u : List UInt8} (hu : u ≠ []) (hc : (48 : UInt8) ∉ u) (k : MProg) :
    ∃ s', PRuns mworker (s, free, conjugateBlock b l u k) (s', free, k) ∧
      Records (tryOne l (b, bbwtRuns u, u) f) s' ∧ s'.iter = s.iter ∧ s'.total = s.total := by
  obtain ⟨bt, hb⟩ := bbwt_total hu
  have hbr : bbwtRuns u = numberOfRuns (sliceReader bt) := by rw [bbwtRuns, hb]; rfl
  obtain ⟨s', h1, h2, h3, h4, h5, h6, h7, h8, _⟩ := winUpdate_ok hs.shape hl b (bbwtRuns u)
  have hs' : Records f s' := ⟨h2, fun i => by rw [← hs.kept i, record, record, h6, h7, h8], hs.clean⟩
  obtain ⟨s2, g1, g2, g3, g4⟩ := considerBest_rec hs' hl b (bbwtRuns u) hc k
  refine ⟨s2, Relation.ReflTransGen.trans ?_ g1, g2, g3.trans h3, g4.trans h5⟩
  unfold conjugateBlock
  simp only [hb, ← hbr]
  refine PRuns.bracketW (by simp [free]) (PRuns.bracketW (by simp [free]) (PRuns.bracketW (by simp [free])
    ?_))
  exact PRuns.act h1 Relation.ReflTransGen.refl

theorem conjugateLoop_rec {l : Nat} (hl : l < MAXW) (b : Nat) (k : MProg) {us : List (List UInt8)} :
    ∀ {f : Nat → Rec} {s : MShared} {it : ConjugateIterator UInt8} {fuel : Nat}, Records f s →
      Yields ConjugateIterator.next it us → (∀ u ∈ us, u ≠ []) → (∀ u ∈ us, (48 : UInt8) ∉ u) →
      us.length < fuel →
    ∃ s', PRuns mworker (s, free, conjugateLoop b l fuel it k) (s', free, k) ∧
      Records (tryAll l (us.map fun u => (b, bbwtRuns u, u)) f) s' ∧ s'.iter = s.iter ∧ s'.total = s.total := by
  induction us with
  | nil =>
    intro f s it fuel hs hy _ _ hf
    obtain ⟨it', hn, _⟩ := hy.nil
    obtain ⟨n, rfl⟩ : ∃ n, fuel = n + 1 := ⟨fuel - 1, by simp at hf; omega⟩
    refine ⟨s, ?_, hs, rfl, rfl⟩
    simp only [conjugateLoop, hn]
    exact Relation.ReflTransGen.refl
  | cons u us ih =>
    intro f s it fuel hs hy hne hc hf
    obtain ⟨it', hn, hy'⟩ := hy.cons
    simp only [List.length_cons] at hf
    obtain ⟨n, rfl⟩ : ∃ n, fuel = n + 1 := ⟨fuel - 1, by omega⟩
    simp only [conjugateLoop, hn]
    obtain ⟨s1, h1, h2, h3, h4⟩ := conjugateBlock_rec hs hl b (hne u (by simp)) (hc u (by simp))
      (conjugateLoop b l n it' k)
    obtain ⟨s2, g1, g2, g3, g4⟩ := ih (s := s1) (it := it') (fuel := n) h2 hy'
      (fun v hv => hne v (by simp [hv])) (fun v hv => hc v (by simp [hv])) (by omega)
    exact ⟨s2, h1.trans g1, g2, g3.trans h3, g4.trans h4⟩

/-- The candidates from one word: its rotations, in the order of the shift. -/
def wordTries (w : List Nat) : List Rec :=
  (conjs w).map fun u => (bwtRuns (w.map UInt8.ofNat), bbwtRuns u, u)

theorem conjs_clean {w : List Nat} (hw : ∀ c ∈ w, c < 2) : ∀ u ∈ conjs w, (48 : UInt8) ∉ u := by
  intro u hu h48
  simp only [conjs, List.mem_map] at hu
  obtain ⟨i, _, rfl⟩ := hu
  have : (48 : UInt8) ∈ w.map UInt8.ofNat := by
    rw [rot] at h48
    rcases List.mem_append.1 h48 with h | h
    · exact List.mem_of_mem_drop h
    · exact List.mem_of_mem_take h
  obtain ⟨c, hc, e⟩ := List.mem_map.1 this
  have := hw c hc
  interval_cases c <;> exact absurd e (by decide)

theorem processWord_rec {f : Nat → Rec} {s : MShared} {w : List Nat} (hs : Records f s) (hne : w ≠ [])
    (hl : w.length ≤ MAXW) (hw : ∀ c ∈ w, c < 2) :
    ∃ s', PRuns mworker (s, free, processWord w) (s', free, .again) ∧
      Records (tryAll (w.length - 1) (wordTries w) f) s' ∧ s'.iter = s.iter ∧ s'.total = s.total + 1 := by
  have hn := List.length_pos_iff.2 hne
  rw [processWord_eq hne hl]
  obtain ⟨s', h1, h2, h3, h4⟩ := conjugateLoop_rec (l := w.length - 1) (by omega) (bwtRuns (w.map UInt8.ofNat))
    (countWord (w.length - 1) checkReport) (us := conjs w) hs (conj_yields _) (conjs_ne hne) (conjs_clean hw)
    (fuel := w.length + 1) (by simp [conjs])
  have hrun := checkReport_run (shape_counted (l := w.length - 1) h2.shape)
  obtain ⟨x, hx⟩ := reported_eq (counted (w.length - 1) s')
  rw [hx] at hrun
  refine ⟨printed x (counted (w.length - 1) s'),
    h1.trans ((countWord_run h2.shape (by omega) _).trans hrun),
    ⟨shape_printed (shape_counted h2.shape) _, h2.kept, h2.clean⟩, h3, ?_⟩
  show s'.total + 1 = _
  rw [h4]

/-- The candidates of length `i + 1`, in the order in which a single worker meets them. -/
def tries (done : List (List Nat)) (i : Nat) : List Rec :=
  (done.filter (fun w => decide (w.length = i + 1))).flatMap wordTries

/-- The state of the data at the end of a round of a lonely worker. -/
def BetweenRec (ws : List (List Nat)) (s : MShared) : Prop :=
  ∃ done rest, done ++ rest = ws ∧ Yields LyndonWordGenerator.next s.iter rest ∧
    s.total = done.length ∧ Records (fun i => (tries done i).foldl pick (0, 0, [])) s

theorem betweenRec_init {ws : List (List Nat)} (hy : Yields LyndonWordGenerator.next MShared.init.iter ws) :
    BetweenRec ws MShared.init := by
  refine ⟨[], ws, rfl, hy, rfl, shape_init, fun i => ?_, fun i => by simp [tries]⟩
  simp only [record, MShared.init, tries, List.filter_nil, List.flatMap_nil, List.foldl_nil]
  simp only [List.getD_eq_getElem?_getD, List.getElem?_replicate]
  split <;> rfl

theorem lonely_rec {ws : List (List Nat)} (hws : ∀ w ∈ ws, w ≠ [] ∧ w.length ≤ MAXW ∧ ∀ c ∈ w, c < 2)
    (s : MShared) (h : BetweenRec ws s) : Seq (BetweenRec ws) (fun _ => True) mworker s := by
  obtain ⟨done, rest, hsp, hy, ht, hd⟩ := h
  match rest, hsp, hy with
  | [], hsp, hy =>
    obtain ⟨it, hy', hr⟩ := take_none hy
    exact Seq.back hr trivial
  | w :: rest, hsp, hy =>
    obtain ⟨it, hy', hr⟩ := take_run hy
    obtain ⟨hne, hl, hw⟩ := hws w (by rw [← hsp]; simp)
    have hs := hd.shape
    have hd' : Records (fun i => (tries done i).foldl pick (0, 0, [])) { s with iter := it } :=
      ⟨⟨hs.num, hs.bwtWin, hs.bbwtWin, hs.tie, hs.bestBwt, hs.bestBbwt, hs.bestText, hs.le⟩, hd.kept, hd.clean⟩
    obtain ⟨s', h1, h2, h3, h4⟩ := processWord_rec hd' hne hl hw
    refine Seq.back (hr.trans h1) ⟨done ++ [w], rest, by rw [← hsp]; simp, by rw [h3]; exact hy', ?_, ?_⟩
    · rw [h4]; simp [ht]
    · have hn := List.length_pos_iff.2 hne
      have e : (fun i => (tries (done ++ [w]) i).foldl pick (0, 0, [])) =
          tryAll (w.length - 1) (wordTries w) (fun i => (tries done i).foldl pick (0, 0, [])) := by
        funext i
        rw [tryAll_apply]
        by_cases hi : i = w.length - 1
        · have : w.length = i + 1 := by omega
          rw [if_pos hi, ← hi, tries, List.filter_append, List.flatMap_append, List.foldl_append]
          simp [this, tries]
        · have : ¬ w.length = i + 1 := by omega
          rw [if_neg hi, tries, List.filter_append, List.flatMap_append, List.foldl_append]
          simp [this, tries]
      rw [e]; exact h2

end Verif.Max
