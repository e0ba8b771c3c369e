import Verif.Lemmas.Prog
import Verif.Lemmas.Analyse
import Verif.Model.MaxLyndon

/-! # One worker of `max_lyndon_word`, undisturbed -/

namespace Verif.Max

open Verif Spec Model Par

/-- All locks are free. -/
def free : MLock → Holds := fun _ => (0, false)

/-- The arrays have their lengths, and no record would underflow. -/
structure Shape (s : MShared) : Prop where
  num : s.num.length = MAXW
  bwtWin : s.bwtWin.length = MAXW
  bbwtWin : s.bbwtWin.length = MAXW
  tie : s.tie.length = MAXW
  bestBwt : s.bestBwt.length = MAXW
  bestBbwt : s.bestBbwt.length = MAXW
  bestText : s.bestText.length = MAXW
  le : ∀ i, s.bestBbwt.getD i 0 ≤ s.bestBwt.getD i 0

theorem shape_init : Shape MShared.init := by
  refine ⟨rfl, rfl, rfl, rfl, rfl, rfl, rfl, fun i => ?_⟩
  simp only [MShared.init]
  exact le_refl _

/-- The recorded difference for a length. -/
def diff (s : MShared) (i : Nat) : Nat := s.bestBwt.getD i 0 - s.bestBbwt.getD i 0

theorem incAt_ok {v : List Nat} {i : Nat} (h : i < v.length) : incAt v i = .ok (v.set i (v[i] + 1)) := by
  rw [incAt, rd_ok h, ok_bind, wr_ok h]

theorem winUpdate_ok {s : MShared} {l : Nat} (hs : Shape s) (hl : l < MAXW) (b c : Nat) :
    ∃ s', winUpdate b c l s = .ok s' ∧ Shape s' ∧ s'.iter = s.iter ∧ s'.num = s.num ∧
      s'.total = s.total ∧ s'.bestBwt = s.bestBwt ∧ s'.bestBbwt = s.bestBbwt ∧
      s'.bestText = s.bestText ∧ s'.out = s.out := by
  unfold winUpdate
  split
  · rw [incAt_ok (by rw [hs.bwtWin]; exact hl), ok_bind, pure_ok]
    exact ⟨_, rfl, ⟨hs.num, by simp [hs.bwtWin], hs.bbwtWin, hs.tie, hs.bestBwt, hs.bestBbwt, hs.bestText,
      hs.le⟩, rfl, rfl, rfl, rfl, rfl, rfl, rfl⟩
  · split
    · rw [incAt_ok (by rw [hs.bbwtWin]; exact hl), ok_bind, pure_ok]
      exact ⟨_, rfl, ⟨hs.num, hs.bwtWin, by simp [hs.bbwtWin], hs.tie, hs.bestBwt, hs.bestBbwt,
        hs.bestText, hs.le⟩, rfl, rfl, rfl, rfl, rfl, rfl, rfl⟩
    · rw [incAt_ok (by rw [hs.tie]; exact hl), ok_bind, pure_ok]
      exact ⟨_, rfl, ⟨hs.num, hs.bwtWin, hs.bbwtWin, by simp [hs.tie], hs.bestBwt, hs.bestBbwt,
        hs.bestText, hs.le⟩, rfl, rfl, rfl, rfl, rfl, rfl, rfl⟩

/-- The data after storing a record. -/
def stored (b c l : Nat) (t : List UInt8) (s : MShared) : MShared :=
  { s with bestBwt := s.bestBwt.set l b, bestBbwt := s.bestBbwt.set l c, bestText := s.bestText.set l t }

theorem getD_set' (v : List Nat) (l i x : Nat) (hl : l < v.length) :
    (v.set l x).getD i 0 = if i = l then x else v.getD i 0 := by
  rw [List.getD_eq_getElem?_getD, List.getD_eq_getElem?_getD, List.getElem?_set]
  by_cases h : i = l
  · subst h; simp [hl]
  · rw [if_neg (fun e => h e.symm), if_neg h]

theorem shape_stored {s : MShared} {l b c : Nat} {t : List UInt8} (hs : Shape s) (hl : l < MAXW)
    (hcb : c ≤ b) : Shape (stored b c l t s) := by
  refine ⟨hs.num, hs.bwtWin, hs.bbwtWin, hs.tie, by simp [stored, hs.bestBwt],
    by simp [stored, hs.bestBbwt], by simp [stored, hs.bestText], fun i => ?_⟩
  simp only [stored]
  rw [getD_set' _ _ _ _ (by rw [hs.bestBbwt]; exact hl), getD_set' _ _ _ _ (by rw [hs.bestBwt]; exact hl)]
  split
  · exact hcb
  · exact hs.le i

theorem diff_stored {s : MShared} {l b c : Nat} {t : List UInt8} (hs : Shape s) (hl : l < MAXW) (i : Nat) :
    diff (stored b c l t s) i = if i = l then b - c else diff s i := by
  simp only [stored, diff]
  rw [getD_set' _ _ _ _ (by rw [hs.bestBwt]; exact hl), getD_set' _ _ _ _ (by rw [hs.bestBbwt]; exact hl)]
  split <;> rfl

theorem storeBest_run {s : MShared} {l : Nat} (hs : Shape s) (hl : l < MAXW) (b c : Nat) (t : List UInt8)
    (k : MProg) : PRuns mworker (s, free, storeBest b c l t k) (stored b c l t s, free, k) := by
  unfold storeBest
  refine PRuns.bracketW (by simp [free]) (PRuns.bracketW (by simp [free]) (PRuns.bracketW (by simp [free])
    (PRuns.bracketW (by simp [free]) ?_)))
  refine PRuns.act (s' := { s with bestBwt := s.bestBwt.set l b }) ?_ ?_
  · simp only [wr_ok (show l < s.bestBwt.length by rw [hs.bestBwt]; exact hl), ok_bind, pure_ok]
  refine PRuns.act (s' := { s with bestBwt := s.bestBwt.set l b, bestBbwt := s.bestBbwt.set l c }) ?_ ?_
  · simp only [wr_ok (show l < s.bestBbwt.length by rw [hs.bestBbwt]; exact hl), ok_bind, pure_ok]
  refine PRuns.act (s' := stored b c l t s) ?_ Relation.ReflTransGen.refl
  simp only [wr_ok (show l < s.bestText.length by rw [hs.bestText]; exact hl), ok_bind, pure_ok, stored]

theorem needsChange_ok {s : MShared} {l : Nat} (hs : Shape s) (hl : l < MAXW) {b c : Nat} (hcb : c ≤ b)
    (t : List UInt8) : ∃ r, needsChange b c l t s = .ok r ∧ (diff s l < b - c → r = true) ∧
      (r = true → diff s l ≤ b - c) := by
  have h1 : l < s.bestBwt.length := by rw [hs.bestBwt]; exact hl
  have h2 : l < s.bestBbwt.length := by rw [hs.bestBbwt]; exact hl
  have h3 : l < s.bestText.length := by rw [hs.bestText]; exact hl
  have e1 : s.bestBwt.getD l 0 = s.bestBwt[l] := by simp [List.getD_eq_getElem?_getD, h1]
  have e2 : s.bestBbwt.getD l 0 = s.bestBbwt[l] := by simp [List.getD_eq_getElem?_getD, h2]
  have hle := hs.le l
  rw [e1, e2] at hle
  have hd : diff s l = s.bestBwt[l] - s.bestBbwt[l] := by rw [diff, e1, e2]
  unfold needsChange
  rw [usub_ok hcb, ok_bind, rd_ok h1, ok_bind, rd_ok h2, ok_bind, usub_ok hle, ok_bind, hd]
  by_cases hgt : b - c > s.bestBwt[l] - s.bestBbwt[l]
  · rw [if_pos hgt]
    exact ⟨true, rfl, fun _ => rfl, fun _ => by omega⟩
  · rw [if_neg hgt]
    by_cases heq : b - c = s.bestBwt[l] - s.bestBbwt[l]
    · rw [if_pos heq, rd_ok h3, ok_bind, pure_ok]
      exact ⟨_, rfl, fun h => by omega, fun _ => by omega⟩
    · rw [if_neg heq]
      exact ⟨false, rfl, fun h => by omega, fun h => by cases h⟩

/-- What a part of the program that only touches counters and the record for `l` leaves alone. -/
structure Keeps (l : Nat) (s s' : MShared) : Prop where
  shape : Shape s'
  iter : s'.iter = s.iter
  num : s'.num = s.num
  total : s'.total = s.total
  out : s'.out = s.out
  other : ∀ i, i ≠ l → diff s' i = diff s i

theorem Keeps.refl {l : Nat} {s : MShared} (h : Shape s) : Keeps l s s := ⟨h, rfl, rfl, rfl, rfl, fun _ _ => rfl⟩

theorem Keeps.trans {l : Nat} {s s' s'' : MShared} (h : Keeps l s s') (h' : Keeps l s' s'') :
    Keeps l s s'' :=
  ⟨h'.shape, h'.iter.trans h.iter, h'.num.trans h.num, h'.total.trans h.total, h'.out.trans h.out,
    fun i hi => (h'.other i hi).trans (h.other i hi)⟩

/-- Up to the decision. -/
theorem considerBest_read {s : MShared} {l b c : Nat} {t : List UInt8} {r : Bool} (hcb : c < b)
    (hr : needsChange b c l t s = .ok r) (k : MProg) :
    PRuns mworker (s, free, considerBest b c l t k)
      (s, free, if r then storeBest b c l t k else k) := by
  unfold considerBest
  rw [if_pos hcb]
  refine PRuns.bracketR (by simp [free]) (PRuns.bracketR (by simp [free]) (PRuns.bracketR (by simp [free])
    (PRuns.bracketR (by simp [free]) ?_)))
  refine PRuns.act (s' := s) (by simp only [hr, ok_bind, pure_ok]) ?_
  simp only [hr]
  cases r <;> exact Relation.ReflTransGen.refl

/-- Up to the decision, when it is to store. -/
theorem considerBest_pending {s : MShared} {l : Nat} (hs : Shape s) (hl : l < MAXW) {b c : Nat}
    (hcb : diff s l < b - c) (t : List UInt8) (k : MProg) :
    PRuns mworker (s, free, considerBest b c l t k) (s, free, storeBest b c l t k) := by
  obtain ⟨r, hr, h1, h2⟩ := needsChange_ok hs hl (show c ≤ b by omega) t
  rw [h1 hcb] at hr
  exact considerBest_read (by omega) hr k

theorem considerBest_run {s : MShared} {l : Nat} (hs : Shape s) (hl : l < MAXW) (b c : Nat)
    (t : List UInt8) (k : MProg) :
    ∃ s', PRuns mworker (s, free, considerBest b c l t k) (s', free, k) ∧ Keeps l s s' ∧
      diff s' l = max (diff s l) (b - c) := by
  by_cases hcb : c < b
  · obtain ⟨r, hr, h1, h2⟩ := needsChange_ok hs hl (show c ≤ b by omega) t
    have hrun := considerBest_read hcb hr k
    cases r with
    | true =>
      refine ⟨stored b c l t s, hrun.trans (storeBest_run hs hl b c t k), ?_, ?_⟩
      · exact ⟨shape_stored hs hl (by omega), rfl, rfl, rfl, rfl,
          fun i hi => by rw [diff_stored hs hl, if_neg hi]⟩
      · rw [diff_stored hs hl, if_pos rfl]
        have := h2 rfl
        omega
    | false =>
      refine ⟨s, hrun, Keeps.refl hs, ?_⟩
      have : ¬ diff s l < b - c := fun h => by cases h1 h
      omega
  · unfold considerBest
    rw [if_neg hcb]
    refine ⟨s, Relation.ReflTransGen.refl, Keeps.refl hs, ?_⟩
    have : b - c = 0 := by omega
    rw [this]; simp

/-- Up to the comparison with the record. -/
theorem conjugateBlock_begin {s : MShared} {l : Nat} (hs : Shape s) (hl : l < MAXW) (b : Nat)
    {u : List UInt8} (hu : u ≠ []) (k : MProg) :
    ∃ s', PRuns mworker (s, free, conjugateBlock b l u k) (s', free, considerBest b (bbwtRuns u) l u k) ∧
      Keeps l s s' ∧ diff s' l = diff s l := by
  obtain ⟨bt, hb⟩ := bbwt_total hu
  have hbr : bbwtRuns u = numberOfRuns (sliceReader bt) := by rw [bbwtRuns, hb]; rfl
  obtain ⟨s', h1, h2, h3, h4, h5, h6, h7, h8, h9⟩ := winUpdate_ok hs hl b (bbwtRuns u)
  have hd : ∀ i, diff s' i = diff s i := fun i => by rw [diff, diff, h6, h7]
  refine ⟨s', ?_, ⟨h2, h3, h4, h5, h9, fun i _ => hd i⟩, hd l⟩
  unfold conjugateBlock
  simp only [hb, ← hbr]
  refine PRuns.bracketW (by simp [free]) (PRuns.bracketW (by simp [free]) (PRuns.bracketW (by simp [free])
    ?_))
  exact PRuns.act h1 Relation.ReflTransGen.refl

theorem conjugateBlock_run {s : MShared} {l : Nat} (hs : Shape s) (hl : l < MAXW) (b : Nat)
    {u : List UInt8} (hu : u ≠ []) (k : MProg) :
    ∃ s', PRuns mworker (s, free, conjugateBlock b l u k) (s', free, k) ∧ Keeps l s s' ∧
      diff s' l = max (diff s l) (b - bbwtRuns u) := by
  obtain ⟨s1, h1, h2, h3⟩ := conjugateBlock_begin hs hl b hu k
  obtain ⟨s2, h4, h5, h6⟩ := considerBest_run h2.shape hl b (bbwtRuns u) u k
  exact ⟨s2, h1.trans h4, h2.trans h5, by rw [h6, h3]⟩

/-- The whole loop over the conjugates. -/
theorem conjugateLoop_run {l : Nat} (hl : l < MAXW) (b : Nat) (k : MProg) {us : List (List UInt8)} :
    ∀ {s : MShared} {it : ConjugateIterator UInt8} {fuel : Nat}, Shape s →
      Yields ConjugateIterator.next it us → (∀ u ∈ us, u ≠ []) → us.length < fuel →
    ∃ s', PRuns mworker (s, free, conjugateLoop b l fuel it k) (s', free, k) ∧ Keeps l s s' ∧
      diff s' l = us.foldl (fun d u => max d (b - bbwtRuns u)) (diff s l) := by
  induction us with
  | nil =>
    intro s it fuel hs hy _ hf
    obtain ⟨it', hn, _⟩ := hy.nil
    obtain ⟨f, rfl⟩ : ∃ f, fuel = f + 1 := ⟨fuel - 1, by simp at hf; omega⟩
    refine ⟨s, ?_, Keeps.refl hs, rfl⟩
    simp only [conjugateLoop, hn]
    exact Relation.ReflTransGen.refl
  | cons u us ih =>
    intro s it fuel hs hy hne hf
    obtain ⟨it', hn, hy'⟩ := hy.cons
    simp only [List.length_cons] at hf
    obtain ⟨f, rfl⟩ : ∃ f, fuel = f + 1 := ⟨fuel - 1, by omega⟩
    simp only [conjugateLoop, hn]
    obtain ⟨s1, h1, h2, h3⟩ := conjugateBlock_run hs hl b (hne u (by simp))
      (conjugateLoop b l f it' k)
    obtain ⟨s2, h4, h5, h6⟩ := ih (s := s1) (it := it') (fuel := f) h2.shape hy'
      (fun v hv => hne v (by simp [hv])) (by omega)
    refine ⟨s2, h1.trans h4, h2.trans h5, ?_⟩
    rw [h6, h3]; rfl

/-- Up to the first conjugate that improves on the record `0`, with the decision to store it made. -/
theorem conjugateLoop_pending {l : Nat} (hl : l < MAXW) (b : Nat) (k : MProg) {us : List (List UInt8)} :
    ∀ {s : MShared} {it : ConjugateIterator UInt8} {fuel : Nat}, Shape s → diff s l = 0 →
      Yields ConjugateIterator.next it us → (∀ u ∈ us, u ≠ []) → us.length < fuel →
      (∃ u ∈ us, bbwtRuns u < b) →
    ∃ s' u us' it' fuel', u ∈ us ∧ us' ⊆ us ∧ bbwtRuns u < b ∧
      PRuns mworker (s, free, conjugateLoop b l fuel it k)
        (s', free, storeBest b (bbwtRuns u) l u (conjugateLoop b l fuel' it' k)) ∧
      Keeps l s s' ∧ Yields ConjugateIterator.next it' us' ∧ us'.length < fuel' := by
  induction us with
  | nil => intro s it fuel _ _ _ _ _ ⟨u, hu, _⟩; simp at hu
  | cons u us ih =>
    intro s it fuel hs hd hy hne hf hex
    obtain ⟨it', hn, hy'⟩ := hy.cons
    simp only [List.length_cons] at hf
    obtain ⟨f, rfl⟩ : ∃ f, fuel = f + 1 := ⟨fuel - 1, by omega⟩
    simp only [conjugateLoop, hn]
    by_cases hu : bbwtRuns u < b
    · obtain ⟨s1, h1, h2, h3⟩ := conjugateBlock_begin hs hl b (hne u (by simp))
        (conjugateLoop b l f it' k)
      exact ⟨s1, u, us, it', f, by simp, by simp, hu,
        h1.trans (considerBest_pending h2.shape hl (by rw [h3, hd]; omega) u _), h2, hy', by omega⟩
    · obtain ⟨s1, h1, h2, h3⟩ := conjugateBlock_run hs hl b (hne u (by simp))
        (conjugateLoop b l f it' k)
      have hex' : ∃ u ∈ us, bbwtRuns u < b := by
        obtain ⟨v, hv, hvb⟩ := hex
        rcases List.mem_cons.1 hv with rfl | hv
        · exact absurd hvb hu
        · exact ⟨v, hv, hvb⟩
      obtain ⟨s2, v, us', it2, f2, hv, hsub, hvb, h4, h5, h6, h7⟩ := ih (s := s1) (it := it') (fuel := f)
        h2.shape (by rw [h3, hd]; omega) hy' (fun v hv => hne v (by simp [hv])) (by omega) hex'
      exact ⟨s2, v, us', it2, f2, by simp [hv], fun x hx => by simp [hsub hx], hvb, h1.trans h4, h2.trans h5,
        h6, h7⟩

/-- The data after counting a word. -/
def counted (l : Nat) (s : MShared) : MShared :=
  { s with num := s.num.set l (s.num.getD l 0 + 1), total := s.total + 1 }

theorem diff_counted (l i : Nat) (s : MShared) : diff (counted l s) i = diff s i := rfl

theorem shape_counted {l : Nat} {s : MShared} (h : Shape s) : Shape (counted l s) :=
  ⟨by simp [counted, h.num], h.bwtWin, h.bbwtWin, h.tie, h.bestBwt, h.bestBbwt, h.bestText, h.le⟩

theorem num_ok {l : Nat} {s : MShared} (h : Shape s) (hl : l < MAXW) :
    incAt s.num l = .ok (s.num.set l (s.num.getD l 0 + 1)) := by
  have h1 : l < s.num.length := by rw [h.num]; exact hl
  rw [incAt_ok h1]; simp [List.getD_eq_getElem?_getD, h1]

theorem countWord_run {l : Nat} {s : MShared} (h : Shape s) (hl : l < MAXW) (k : MProg) :
    PRuns mworker (s, free, countWord l k) (counted l s, free, k) := by
  unfold countWord
  refine PRuns.bracketW (by simp [free]) ?_
  refine PRuns.act (s' := { s with num := s.num.set l (s.num.getD l 0 + 1) })
    (by simp only [num_ok h hl, ok_bind, pure_ok]) ?_
  refine PRuns.bracketW (by simp [free]) ?_
  exact PRuns.act rfl Relation.ReflTransGen.refl

/-- The two lines for a length. -/
def lengthLines (s : MShared) (l : Nat) : List (List UInt8) :=
  [ascii "length=" ++ decimal l ++ ascii " lyndon_words=" ++
    decimal (s.num.getD l 0) ++ ascii " bwt_wins=" ++ decimal (s.bwtWin.getD l 0) ++ ascii " bbwt_wins=" ++
    decimal (s.bbwtWin.getD l 0) ++ ascii " ties=" ++ decimal (s.tie.getD l 0) ++ [10],
   ascii "length=" ++ decimal l ++ ascii " text=" ++
    binaryVectorToStr (s.bestText.getD l []) ++ ascii " bwt_runs=" ++ decimal (s.bestBwt.getD l 0) ++
    ascii " bbwt_runs=" ++ decimal (s.bestBbwt.getD l 0) ++ [10]]

/-- The lines of a report. -/
def reportLines (s : MShared) : List (List UInt8) :=
  (ascii "total_count=" ++ decimal s.total ++ [10]) :: (List.range' 20 (MAXW - 20)).flatMap (lengthLines s)

/-- The data after the lines `x` have been printed. -/
def printed (x : List (List UInt8)) (s : MShared) : MShared := { s with out := s.out ++ x }

theorem rd_getD {α : Type} {v : List α} {i : Nat} (h : i < v.length) (d : α) : rd v i = .ok (v.getD i d) := by
  rw [rd_ok h]; simp [List.getD_eq_getElem?_getD, h]

/-- Printing one line, then another. -/
theorem printed_printed (x y : List (List UInt8)) (s : MShared) : printed y (printed x s) = printed (x ++ y) s := by
  simp [printed]

theorem printCounts_ok {s : MShared} {l : Nat} (h1 : l < s.num.length) (h2 : l < s.bwtWin.length)
    (h3 : l < s.bbwtWin.length) (h4 : l < s.tie.length) :
    printCounts l s = .ok (printed [(lengthLines s l).headI] s) := by
  unfold printCounts
  rw [rd_getD h1 0, ok_bind, rd_getD h2 0, ok_bind, rd_getD h3 0, ok_bind, rd_getD h4 0, ok_bind, pure_ok]
  rfl

theorem printText_ok {s : MShared} {l : Nat} (h1 : l < s.bestText.length) (h2 : l < s.bestBwt.length)
    (h3 : l < s.bestBbwt.length) :
    printText l s = .ok (printed (lengthLines s l).tail s) := by
  unfold printText
  rw [rd_getD h1 [], ok_bind, rd_getD h2 0, ok_bind, rd_getD h3 0, ok_bind, pure_ok]
  rfl

theorem shape_printed {s : MShared} (h : Shape s) (x : List (List UInt8)) : Shape (printed x s) :=
  ⟨h.num, h.bwtWin, h.bbwtWin, h.tie, h.bestBwt, h.bestBbwt, h.bestText, h.le⟩

theorem reportTexts_run {s : MShared} (hs : Shape s) {lk : MLock → Holds} (h : ∀ l, lk (.text l) = (0, false)) (k : MProg)
    (ls : List Nat) (hls : ∀ l ∈ ls, l < MAXW) (x : List (List UInt8)) :
    PRuns mworker (printed x s, lk, reportTexts k ls) (printed (x ++ ls.flatMap (lengthLines s)) s, lk, k) := by
  induction ls generalizing x with
  | nil => rw [List.flatMap_nil, List.append_nil]; exact Relation.ReflTransGen.refl
  | cons l ls ih =>
    have hl := hls l (by simp)
    have e : x ++ (l :: ls).flatMap (lengthLines s) = (x ++ lengthLines s l) ++ ls.flatMap (lengthLines s) := by simp
    rw [e]
    refine (PRuns.bracketR (h l) ?_).trans (ih (fun l hl => hls l (by simp [hl])) _)
    refine PRuns.act (s' := printed [(lengthLines s l).headI] (printed x s))
      (printCounts_ok (hl.trans_eq hs.num.symm) (hl.trans_eq hs.bwtWin.symm)
        (hl.trans_eq hs.bbwtWin.symm) (hl.trans_eq hs.tie.symm)) ?_
    refine PRuns.act (s' := printed (lengthLines s l).tail (printed [(lengthLines s l).headI] (printed x s)))
      (printText_ok (hl.trans_eq hs.bestText.symm) (hl.trans_eq hs.bestBwt.symm)
        (hl.trans_eq hs.bestBbwt.symm)) ?_
    rw [printed_printed, printed_printed]
    exact Relation.ReflTransGen.refl

/-- The data after a look at the total. -/
def reported (s : MShared) : MShared := if s.total % 10000 = 0 then printed (reportLines s) s else s

theorem reported_eq (s : MShared) : ∃ x, reported s = printed x s := by
  unfold reported
  split
  · exact ⟨_, rfl⟩
  · exact ⟨[], by simp [printed]⟩

theorem checkReport_run {s : MShared} (hs : Shape s) : PRuns mworker (s, free, checkReport) (reported s, free, .again) := by
  unfold checkReport
  refine PRuns.bracketW (by simp [free]) ?_
  refine PRuns.act (s' := s) rfl ?_
  unfold reported
  split
  · unfold Model.report
    refine PRuns.bracketW (by simp [free]) (PRuns.bracketW (by simp [free]) (PRuns.bracketW (by simp [free])
      (PRuns.bracketW (by simp [free]) (PRuns.bracketR (by simp [free]) (PRuns.bracketR (by simp [free])
      (PRuns.bracketR (by simp [free]) ?_))))))
    refine PRuns.act (s' := printed [ascii "total_count=" ++ decimal s.total ++ [10]] s) rfl ?_
    exact reportTexts_run hs (by simp [free]) _ _ (by simp [MAXW]) _
  · exact Relation.ReflTransGen.refl

/-- The conjugates of the bytes of a word. -/
def conjs (w : List Nat) : List (List UInt8) :=
  (List.range (w.map UInt8.ofNat).length).map (rot · (w.map UInt8.ofNat))

/-- The largest difference of a word. -/
def gain (w : List Nat) : Nat :=
  (conjs w).foldl (fun d u => max d (bwtRuns (w.map UInt8.ofNat) - bbwtRuns u)) 0

theorem foldl_max (f : List UInt8 → Nat) (us : List (List UInt8)) (d : Nat) :
    us.foldl (fun d u => max d (f u)) d = max d (us.foldl (fun d u => max d (f u)) 0) := by
  induction us generalizing d with
  | nil => simp
  | cons u us ih => rw [List.foldl_cons, ih, List.foldl_cons, ih (max 0 (f u))]; omega

theorem le_foldl_max (f : List UInt8 → Nat) {us : List (List UInt8)} {u : List UInt8} (hu : u ∈ us) :
    f u ≤ us.foldl (fun d u => max d (f u)) 0 := by
  induction us with
  | nil => simp at hu
  | cons v us ih =>
    rw [List.foldl_cons, foldl_max]
    rcases List.mem_cons.1 hu with rfl | hu
    · omega
    · have := ih hu; omega

theorem foldl_max_mem (f : List UInt8 → Nat) (us : List (List UInt8)) :
    us.foldl (fun d u => max d (f u)) 0 = 0 ∨ ∃ u ∈ us, us.foldl (fun d u => max d (f u)) 0 = f u := by
  induction us with
  | nil => left; rfl
  | cons v us ih =>
    rw [List.foldl_cons, foldl_max]
    rcases ih with ih | ⟨u, hu, e⟩
    · by_cases h : f v = 0
      · left; omega
      · right; exact ⟨v, by simp, by omega⟩
    · by_cases h : f v ≤ f u
      · right; exact ⟨u, by simp [hu], by omega⟩
      · right; exact ⟨v, by simp, by omega⟩

theorem conjs_ne {w : List Nat} (hw : w ≠ []) : ∀ u ∈ conjs w, u ≠ [] := by
  intro u hu
  simp only [conjs, List.mem_map] at hu
  obtain ⟨i, _, rfl⟩ := hu
  rw [← List.length_pos_iff, rot_length]
  simpa [List.length_pos_iff] using hw

theorem processWord_eq {w : List Nat} (hne : w ≠ []) (hl : w.length ≤ MAXW) :
    processWord w = conjugateLoop (bwtRuns (w.map UInt8.ofNat)) (w.length - 1) (w.length + 1)
      (ConjugateIterator.new (w.map UInt8.ofNat)) (countWord (w.length - 1) checkReport) := by
  have hn := List.length_pos_iff.2 hne
  obtain ⟨b, hb, -⟩ := bwtByMatrixNaive_ok (w.map UInt8.ofNat)
  have e : bwtRuns (w.map UInt8.ofNat) = numberOfRuns (sliceReader b) := by rw [bwtRuns, hb]; rfl
  unfold processWord
  simp only [hb, ← e]
  rw [if_pos]
  · simp
  · simp only [List.length_map]; omega

/-- A word, up to its counting. -/
theorem processWord_conjs {s : MShared} {w : List Nat} (hs : Shape s) (hne : w ≠ []) (hl : w.length ≤ MAXW) :
    ∃ s', PRuns mworker (s, free, processWord w) (s', free, countWord (w.length - 1) checkReport) ∧
      Keeps (w.length - 1) s s' ∧ diff s' (w.length - 1) = max (diff s (w.length - 1)) (gain w) := by
  have hn := List.length_pos_iff.2 hne
  rw [processWord_eq hne hl]
  obtain ⟨s', h1, h2, h3⟩ := conjugateLoop_run (l := w.length - 1) (by omega) (bwtRuns (w.map UInt8.ofNat))
    (countWord (w.length - 1) checkReport) (us := conjs w) hs (conj_yields _) (conjs_ne hne)
    (fuel := w.length + 1) (by simp [conjs])
  exact ⟨s', h1, h2, by rw [h3, foldl_max]; rfl⟩

/-- A whole word, with what is printed. -/
theorem processWord_out {s : MShared} {w : List Nat} (hs : Shape s) (hne : w ≠ []) (hl : w.length ≤ MAXW) :
    ∃ s', PRuns mworker (s, free, processWord w) (reported (counted (w.length - 1) s'), free, .again) ∧
      Keeps (w.length - 1) s s' ∧ diff s' (w.length - 1) = max (diff s (w.length - 1)) (gain w) := by
  have hn := List.length_pos_iff.2 hne
  obtain ⟨s1, h1, h2, h3⟩ := processWord_conjs hs hne hl
  exact ⟨s1, h1.trans ((countWord_run h2.shape (by omega) _).trans (checkReport_run (shape_counted h2.shape))), h2, h3⟩

/-- A whole word. -/
theorem processWord_run {s : MShared} {w : List Nat} (hs : Shape s) (hne : w ≠ []) (hl : w.length ≤ MAXW) :
    ∃ s', PRuns mworker (s, free, processWord w) (s', free, .again) ∧ Shape s' ∧ s'.iter = s.iter ∧
      s'.total = s.total + 1 ∧ diff s' (w.length - 1) = max (diff s (w.length - 1)) (gain w) ∧
      ∀ i, i ≠ w.length - 1 → diff s' i = diff s i := by
  have hn := List.length_pos_iff.2 hne
  obtain ⟨s1, h1, h2, h3⟩ := processWord_conjs hs hne hl
  have hrun := h1.trans ((countWord_run h2.shape (by omega) _).trans (checkReport_run (shape_counted h2.shape)))
  obtain ⟨x, hx⟩ := reported_eq (counted (w.length - 1) s1)
  rw [hx] at hrun
  refine ⟨_, hrun, shape_printed (shape_counted h2.shape) x, h2.iter, ?_, h3, fun i hi => h2.other i hi⟩
  show s1.total + 1 = _
  rw [h2.total]

/-- Taking a word. -/
theorem take_run {s : MShared} {w : List Nat} {ws : List (List Nat)}
    (hy : Yields LyndonWordGenerator.next s.iter (w :: ws)) :
    ∃ it, Yields LyndonWordGenerator.next it ws ∧
      PRuns mworker (s, free, mworker) ({ s with iter := it }, free, processWord w) := by
  obtain ⟨it, hn, hy'⟩ := hy.cons
  refine ⟨it, hy', ?_⟩
  have key : ∀ body : MProg, PRuns body (s, free, mworker) ({ s with iter := it }, free, processWord w) := by
    intro body
    unfold mworker
    refine PRuns.bracketW (by simp [free]) ?_
    refine PRuns.act (s' := { s with iter := it }) (by simp only [hn, ok_bind, pure_ok]) ?_
    simp only [hn]
    exact Relation.ReflTransGen.refl
  exact key mworker

/-- Finding no word. -/
theorem take_none {s : MShared} (hy : Yields LyndonWordGenerator.next s.iter []) :
    ∃ it, Yields LyndonWordGenerator.next it [] ∧
      PRuns mworker (s, free, mworker) ({ s with iter := it }, free, .stop) := by
  obtain ⟨it, hn, hy'⟩ := hy.nil
  refine ⟨it, hy', ?_⟩
  have key : ∀ body : MProg, PRuns body (s, free, mworker) ({ s with iter := it }, free, .stop) := by
    intro body
    unfold mworker
    refine PRuns.bracketW (by simp [free]) ?_
    refine PRuns.act (s' := { s with iter := it }) (by simp only [hn, ok_bind, pure_ok]) ?_
    simp only [hn]
    exact Relation.ReflTransGen.refl
  exact key mworker

/-- The largest difference among the words of a length. -/
def best (done : List (List Nat)) (i : Nat) : Nat :=
  done.foldl (fun d w => if w.length - 1 = i then max d (gain w) else d) 0

theorem best_spec (done : List (List Nat)) (i : Nat) :
    (∀ w ∈ done, w.length - 1 = i → gain w ≤ best done i) ∧
    (best done i = 0 ∨ ∃ w ∈ done, w.length - 1 = i ∧ best done i = gain w) := by
  induction done using List.reverseRecOn with
  | nil => exact ⟨fun w hw => by simp at hw, Or.inl rfl⟩
  | append_singleton done v ih =>
    obtain ⟨h1, h2⟩ := ih
    have e : best (done ++ [v]) i = if v.length - 1 = i then max (best done i) (gain v) else best done i := by
      rw [best, List.foldl_append]; rfl
    rw [e]
    by_cases hv : v.length - 1 = i
    · simp only [if_pos hv]
      refine ⟨fun w hw hl => ?_, ?_⟩
      · rcases List.mem_append.1 hw with hw | hw
        · have := h1 w hw hl; omega
        · rw [List.mem_singleton.1 hw]; omega
      · by_cases hle : best done i ≤ gain v
        · exact Or.inr ⟨v, by simp, hv, by omega⟩
        · rcases h2 with h2 | ⟨w, hw, hl, e⟩
          · omega
          · exact Or.inr ⟨w, by simp [hw], hl, by omega⟩
    · simp only [if_neg hv]
      refine ⟨fun w hw hl => ?_, ?_⟩
      · rcases List.mem_append.1 hw with hw | hw
        · exact h1 w hw hl
        · rw [List.mem_singleton.1 hw] at hl; exact absurd hl hv
      · rcases h2 with h2 | ⟨w, hw, hl, e⟩
        · exact Or.inl h2
        · exact Or.inr ⟨w, by simp [hw], hl, e⟩

/-- The state of the data at the end of a round of a lonely worker. -/
def Between (ws : List (List Nat)) (s : MShared) : Prop :=
  Shape s ∧ ∃ done rest, done ++ rest = ws ∧ Yields LyndonWordGenerator.next s.iter rest ∧
    s.total = done.length ∧ ∀ i, diff s i = best done i

/-- The state when it has left its loop. -/
def Finished (ws : List (List Nat)) (s : MShared) : Prop :=
  Shape s ∧ Yields LyndonWordGenerator.next s.iter [] ∧ s.total = ws.length ∧ ∀ i, diff s i = best ws i

theorem lonely {ws : List (List Nat)} (hws : ∀ w ∈ ws, w ≠ [] ∧ w.length ≤ MAXW) (s : MShared)
    (h : Between ws s) : Seq (Between ws) (Finished ws) mworker s := by
  obtain ⟨hs, done, rest, hsp, hy, ht, hd⟩ := h
  match rest, hsp, hy with
  | [], hsp, hy =>
    obtain ⟨it, hy', hr⟩ := take_none hy
    refine Seq.back hr ⟨?_, hy', ?_, ?_⟩
    · exact ⟨hs.num, hs.bwtWin, hs.bbwtWin, hs.tie, hs.bestBwt, hs.bestBbwt, hs.bestText, hs.le⟩
    · rw [← hsp, List.append_nil]; exact ht
    · rw [← hsp, List.append_nil]; exact hd
  | w :: rest, hsp, hy =>
    obtain ⟨it, hy', hr⟩ := take_run hy
    obtain ⟨hne, hl⟩ := hws w (by rw [← hsp]; simp)
    have hs' : Shape { s with iter := it } :=
      ⟨hs.num, hs.bwtWin, hs.bbwtWin, hs.tie, hs.bestBwt, hs.bestBbwt, hs.bestText, hs.le⟩
    obtain ⟨s', h1, h2, h3, h4, h5, h6⟩ := processWord_run hs' hne hl
    refine Seq.back (hr.trans h1) ⟨h2, done ++ [w], rest, by rw [← hsp]; simp, by rw [h3]; exact hy', ?_, ?_⟩
    · rw [h4]; simp [ht]
    · intro i
      rw [best, List.foldl_append, List.foldl_cons, List.foldl_nil]
      have hd' : diff { s with iter := it } i = best done i := hd i
      by_cases hi : i = w.length - 1
      · subst hi
        rw [h5, hd', if_pos rfl]; rfl
      · rw [h6 i hi, hd', if_neg (fun e => hi e.symm)]; rfl

end Verif.Max
