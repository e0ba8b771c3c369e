import Verif.Lemmas.MaxRuns

/-! # `max_lyndon_word` under every interleaving -/

namespace Verif.Max

open Verif Spec Model Par

/-- The data a lock stands for; the three parts of the record all go with the first of their locks.  The total is only
written by a thread that also holds the number of words, and so is the output. -/
def V : MLock → Type
  | .iter => LyndonWordGenerator
  | .num => List Nat × Nat × List (List UInt8)
  | .bwtWin => List Nat
  | .bbwtWin => List Nat
  | .tie => List Nat
  | .bestBwt => List Nat × List Nat × List (List UInt8)
  | .bestBbwt => Unit
  | .texts => Unit
  | .text _ => Unit
  | .total => Nat

def comp : (l : MLock) → MShared → V l
  | .iter, s => s.iter
  | .num, s => (s.num, s.total, s.out)
  | .bwtWin, s => s.bwtWin
  | .bbwtWin, s => s.bbwtWin
  | .tie, s => s.tie
  | .bestBwt, s => (s.bestBwt, s.bestBbwt, s.bestText)
  | .bestBbwt, _ => ()
  | .texts, _ => ()
  | .text _, _ => ()
  | .total, s => s.total

/-- The record for one length: nothing yet, or a conjugate of one of the words that really has the stored
numbers of runs. -/
def Witness (ws : List (List Nat)) (i b c : Nat) (t : List UInt8) : Prop :=
  (b = 0 ∧ c = 0 ∧ t = []) ∨
  ∃ w ∈ ws, w.length = i + 1 ∧ t ∈ conjs w ∧ b = bwtRuns (w.map UInt8.ofNat) ∧ c = bbwtRuns t ∧ c < b

/-- The record. -/
def RecInv (ws : List (List Nat)) (r : List Nat × List Nat × List (List UInt8)) : Prop :=
  r.1.length = MAXW ∧ r.2.1.length = MAXW ∧ r.2.2.length = MAXW ∧
  ∀ i < MAXW, Witness ws i (r.1.getD i 0) (r.2.1.getD i 0) (r.2.2.getD i [])

/-- A report was printed at a multiple of 10000, its numbers of words add up to the total, and its texts are genuine. -/
structure GoodReport (ws : List (List Nat)) (r : MShared) : Prop where
  mult : r.total % 10000 = 0
  len : r.num.length = MAXW
  sum : r.num.sum = r.total
  record : RecInv ws (r.bestBwt, r.bestBbwt, r.bestText)

/-- The output consists of complete good reports. -/
def Reports (ws : List (List Nat)) (total : Nat) (out : List (List UInt8)) : Prop :=
  ∃ rs : List MShared, out = rs.flatMap reportLines ∧ rs.Pairwise (fun r r' => r.total ≤ r'.total) ∧
    ∀ r ∈ rs, GoodReport ws r ∧ r.total ≤ total

theorem Reports.mono {ws : List (List Nat)} {n m : Nat} {out : List (List UInt8)} (h : Reports ws n out) (hnm : n ≤ m) :
    Reports ws m out := by
  obtain ⟨rs, h1, h2, h3⟩ := h
  exact ⟨rs, h1, h2, fun r hr => ⟨(h3 r hr).1, le_trans (h3 r hr).2 hnm⟩⟩

theorem Reports.add {ws : List (List Nat)} {out : List (List UInt8)} {r : MShared} (h : Reports ws r.total out)
    (hr : GoodReport ws r) : Reports ws r.total (out ++ reportLines r) := by
  obtain ⟨rs, h1, h2, h3⟩ := h
  refine ⟨rs ++ [r], by simp [h1], ?_, ?_⟩
  · rw [List.pairwise_append]
    exact ⟨h2, by simp, fun a ha b hb => by rw [List.mem_singleton.1 hb]; exact (h3 a ha).2⟩
  · intro a ha
    rcases List.mem_append.1 ha with ha | ha
    · exact h3 a ha
    · rw [List.mem_singleton.1 ha]; exact ⟨hr, le_refl _⟩

def inv (ws : List (List Nat)) : (l : MLock) → V l → Prop
  | .iter, it => ∃ done rest, done ++ rest = ws ∧ Yields LyndonWordGenerator.next it rest
  | .num, v => v.1.length = MAXW ∧ v.1.sum = v.2.1 ∧ Reports ws v.2.1 v.2.2
  | .bwtWin, v => v.length = MAXW
  | .bbwtWin, v => v.length = MAXW
  | .tie, v => v.length = MAXW
  | .bestBwt, r => RecInv ws r
  | .bestBbwt, _ => True
  | .texts, _ => True
  | .text _, _ => True
  | .total, _ => True

/-- The order of the locks. -/
def rank : MLock → Nat
  | .iter => 0
  | .num => 1
  | .total => 2
  | .bwtWin => 3
  | .bbwtWin => 4
  | .tie => 5
  | .bestBwt => 6
  | .bestBbwt => 7
  | .texts => 8
  | .text _ => 9

/-- Locks are taken in order, except that the report takes the number of words after the total. -/
def ord (H : MLock → Option Bool) (s : MShared) (l : MLock) : Prop :=
  (∀ m, H m ≠ none → rank m < rank l) ∨ (l = .num ∧ H .total = some true ∧ s.total % 10000 = 0)

/-- What a thread holds, last lock first. -/
def held : List (MLock × Bool) → MLock → Option Bool
  | [], _ => none
  | (m, w) :: hs, l => if l = m then some w else held hs l

def locksOf (hs : List (MLock × Bool)) : List MLock := hs.map (·.1)

theorem held_none {hs : List (MLock × Bool)} {l : MLock} : held hs l = none ↔ l ∉ locksOf hs := by
  induction hs with
  | nil => simp [held, locksOf]
  | cons p hs ih =>
    obtain ⟨m, w⟩ := p
    simp only [held, locksOf, List.map_cons, List.mem_cons]
    by_cases h : l = m
    · simp [h]
    · rw [if_neg h, ih]; simp [h, locksOf]

theorem held_push (hs : List (MLock × Bool)) (l : MLock) (w : Bool) :
    Function.update (held hs) l (some w) = held ((l, w) :: hs) := by
  funext m; simp only [Function.update_apply, held]

theorem held_pop {hs : List (MLock × Bool)} {l : MLock} {w : Bool} (h : l ∉ locksOf hs) :
    Function.update (held ((l, w) :: hs)) l none = held hs := by
  funext m
  simp only [Function.update_apply, held]
  split
  · rename_i e; rw [e, held_none.2 h]
  · rfl

/-- Safety for a thread that holds `hs`. -/
def Sf (ws : List (List Nat)) (p : MProg) (hs : List (MLock × Bool)) (s : MShared) : Prop :=
  Safe comp (inv ws) ord p (held hs) s

/-- The data of the held locks is fine. -/
def Good (ws : List (List Nat)) (hs : List (MLock × Bool)) (s : MShared) : Prop :=
  ∀ l ∈ locksOf hs, inv ws l (comp l s)

def Same (hs : List (MLock × Bool)) (s s' : MShared) : Prop := ∀ l ∈ locksOf hs, comp l s = comp l s'

variable {ws : List (List Nat)} {hs : List (MLock × Bool)} {s : MShared} {p k : MProg} {l : MLock} {w : Bool}

theorem agree_same {s' : MShared} (h : Agree comp (held hs) s s') : Same hs s s' :=
  fun l hl => h l (fun e => held_none.1 e hl)

theorem Good.same {s' : MShared} (g : Good ws hs s) (h : Same hs s s') : Good ws hs s' :=
  fun l hl => h l hl ▸ g l hl

theorem Sf.acq' (hl : l ∉ locksOf hs) (ho : ord (held hs) s l) (g : Good ws hs s)
    (h : ∀ s', Same hs s s' → Good ws ((l, w) :: hs) s' → Sf ws k ((l, w) :: hs) s') :
    Sf ws (.acq l w k) hs s := by
  refine ⟨held_none.2 hl, ho, fun s' ha hi => ?_⟩
  rw [held_push]
  refine h s' (agree_same ha) fun m hm => ?_
  simp only [locksOf, List.map_cons, List.mem_cons] at hm
  rcases hm with rfl | hm
  · exact hi
  · exact (g.same (agree_same ha)) m hm

theorem Sf.acq (hl : ∀ m ∈ locksOf hs, rank m < rank l) (g : Good ws hs s)
    (h : ∀ s', Same hs s s' → Good ws ((l, w) :: hs) s' → Sf ws k ((l, w) :: hs) s') :
    Sf ws (.acq l w k) hs s := by
  refine Sf.acq' (fun hm => absurd (hl l hm) (by omega)) (Or.inl fun m hm => hl m ?_) g h
  by_contra hc
  exact hm (held_none.2 hc)

theorem Sf.rel (hl : l ∉ locksOf hs) (g : Good ws ((l, w) :: hs) s)
    (h : Good ws hs s → Sf ws k hs s) : Sf ws (.rel l w k) ((l, w) :: hs) s := by
  refine ⟨by simp [held], g l (by simp [locksOf]), ?_⟩
  rw [held_pop hl]
  refine h fun m hm => g m ?_
  simp only [locksOf, List.map_cons, List.mem_cons]
  exact Or.inr hm

/-- An action that changes the data of the lock `l` only. -/
theorem Sf.act (l : MLock) {f : MShared → Res MShared} {k : MShared → MProg} (hl : held hs l = some true)
    (h : ∀ s', Same hs s s' → ∃ s'', f s' = .ok s'' ∧ (∀ m, m ≠ l → comp m s'' = comp m s') ∧
      Sf ws (k s') hs s'') : Sf ws (.act f k) hs s := by
  intro s' ha
  obtain ⟨s'', h1, h2, h3⟩ := h s' (agree_same ha)
  refine ⟨s'', h1, fun m hm => ?_, h3⟩
  by_cases e : m = l
  · subst e; exact absurd hl hm
  · exact h2 m e

/-- An action that changes nothing. -/
theorem Sf.look {f : MShared → Res MShared} {k : MShared → MProg}
    (h : ∀ s', Same hs s s' → f s' = .ok s' ∧ Sf ws (k s') hs s') : Sf ws (.act f k) hs s := by
  intro s' ha
  obtain ⟨h1, h2⟩ := h s' (agree_same ha)
  exact ⟨s', h1, fun _ _ => rfl, h2⟩

theorem good_nil : Good ws [] s := fun l hl => by simp [locksOf] at hl

/-- `.again` with nothing held. -/
theorem sf_again : Sf ws .again [] s := fun _ => rfl

/-- Taking a lock without looking at the other data. -/
theorem Sf.acqP (hl : ∀ m ∈ locksOf hs, rank m < rank l)
    (h : ∀ s', Same hs s s' → inv ws l (comp l s') → Sf ws k ((l, w) :: hs) s') : Sf ws (.acq l w k) hs s := by
  refine ⟨held_none.2 (fun hm => absurd (hl l hm) (by omega)), Or.inl fun m hm => hl m ?_, fun s' ha hi => ?_⟩
  · by_contra hc
    exact hm (held_none.2 hc)
  · rw [held_push]
    exact h s' (agree_same ha) hi

theorem Sf.relP (hl : l ∉ locksOf hs) (hi : inv ws l (comp l s)) (h : Sf ws k hs s) :
    Sf ws (.rel l w k) ((l, w) :: hs) s := by
  refine ⟨by simp [held], hi, ?_⟩
  rw [held_pop hl]
  exact h

/-- What is held during a report. -/
def reportHeld : List (MLock × Bool) :=
  [(.texts, false), (.bestBbwt, false), (.bestBwt, false), (.tie, true), (.bbwtWin, true), (.bwtWin, true),
    (.num, true), (.total, true)]

/-- During the report the data stays as it was at its beginning (`s0`), except that lines have been printed. -/
structure Frozen (s0 : MShared) (x : List (List UInt8)) (s : MShared) : Prop where
  num : s.num = s0.num
  total : s.total = s0.total
  bwtWin : s.bwtWin = s0.bwtWin
  bbwtWin : s.bbwtWin = s0.bbwtWin
  tie : s.tie = s0.tie
  bestBwt : s.bestBwt = s0.bestBwt
  bestBbwt : s.bestBbwt = s0.bestBbwt
  bestText : s.bestText = s0.bestText
  out : s.out = s0.out ++ x

theorem Frozen.refl (s : MShared) : Frozen s [] s := ⟨rfl, rfl, rfl, rfl, rfl, rfl, rfl, rfl, by simp⟩

theorem Frozen.same {s0 s s' : MShared} {x : List (List UInt8)} (h : Frozen s0 x s) (hh : reportHeld ⊆ hs)
    (e : Same hs s s') : Frozen s0 x s' := by
  have hm : ∀ {l w}, (l, w) ∈ reportHeld → l ∈ locksOf hs := fun h' => List.mem_map.2 ⟨_, hh h', rfl⟩
  have e1 : (s.num, s.total, s.out) = (s'.num, s'.total, s'.out) := e .num (hm (w := true) (by simp [reportHeld]))
  have e2 : s.bwtWin = s'.bwtWin := e .bwtWin (hm (w := true) (by simp [reportHeld]))
  have e3 : s.bbwtWin = s'.bbwtWin := e .bbwtWin (hm (w := true) (by simp [reportHeld]))
  have e4 : s.tie = s'.tie := e .tie (hm (w := true) (by simp [reportHeld]))
  have e5 : (s.bestBwt, s.bestBbwt, s.bestText) = (s'.bestBwt, s'.bestBbwt, s'.bestText) :=
    e .bestBwt (hm (w := false) (by simp [reportHeld]))
  simp only [Prod.mk.injEq] at e1 e5
  exact ⟨e1.1 ▸ h.num, e1.2.1 ▸ h.total, e2 ▸ h.bwtWin, e3 ▸ h.bbwtWin, e4 ▸ h.tie, e5.1 ▸ h.bestBwt, e5.2.1 ▸ h.bestBbwt,
    e5.2.2 ▸ h.bestText, e1.2.2 ▸ h.out⟩

theorem Frozen.printed {s0 s : MShared} {x : List (List UInt8)} (h : Frozen s0 x s) (y : List (List UInt8)) :
    Frozen s0 (x ++ y) (Max.printed y s) :=
  ⟨h.num, h.total, h.bwtWin, h.bbwtWin, h.tie, h.bestBwt, h.bestBbwt, h.bestText, by
    rw [Max.printed, h.out, List.append_assoc]⟩

theorem Frozen.lines {s0 s : MShared} {x : List (List UInt8)} (h : Frozen s0 x s) (l : Nat) :
    lengthLines s l = lengthLines s0 l := by
  unfold lengthLines
  rw [h.num, h.bwtWin, h.bbwtWin, h.tie, h.bestBwt, h.bestBbwt, h.bestText]

/-- All the arrays have their lengths. -/
structure FullLen (s : MShared) : Prop where
  num : s.num.length = MAXW
  bwtWin : s.bwtWin.length = MAXW
  bbwtWin : s.bbwtWin.length = MAXW
  tie : s.tie.length = MAXW
  bestBwt : s.bestBwt.length = MAXW
  bestBbwt : s.bestBbwt.length = MAXW
  bestText : s.bestText.length = MAXW

theorem comp_printed (y : List (List UInt8)) (s : MShared) (m : MLock) (h : m ≠ .num) :
    comp m (Max.printed y s) = comp m s := by
  cases m <;> first | rfl | exact absurd rfl h

theorem sf_reportTexts {s0 : MShared} (hf : FullLen s0) : ∀ (ls : List Nat), (∀ l ∈ ls, l < MAXW) →
    ∀ (x : List (List UInt8)) (s : MShared),
    (∀ s, Frozen s0 (x ++ ls.flatMap (lengthLines s0)) s → Sf ws k reportHeld s) → Frozen s0 x s →
    Sf ws (reportTexts k ls) reportHeld s := by
  intro ls
  induction ls with
  | nil =>
    intro _ x s hk hs
    rw [List.flatMap_nil, List.append_nil] at hk
    exact hk s hs
  | cons l ls ih =>
    intro hls x s hk hs
    have hl := hls l (by simp)
    have hsub : reportHeld ⊆ (MLock.text l, false) :: reportHeld := fun a ha => by simp [ha]
    refine Sf.acqP (by simp [locksOf, reportHeld, rank]) fun s1 e1 _ => ?_
    have f1 := hs.same (fun _ h => h) e1
    refine Sf.act .num (by simp [held, reportHeld]) fun s2 e2 => ?_
    have f2 := f1.same hsub e2
    refine ⟨_, printCounts_ok (by rw [f2.num, hf.num]; exact hl) (by rw [f2.bwtWin, hf.bwtWin]; exact hl)
      (by rw [f2.bbwtWin, hf.bbwtWin]; exact hl) (by rw [f2.tie, hf.tie]; exact hl),
      fun m hm => comp_printed _ _ m hm, ?_⟩
    have f3 := f2.printed [(lengthLines s2 l).headI]
    refine Sf.act .num (by simp [held, reportHeld]) fun s4 e4 => ?_
    have f4 := f3.same hsub e4
    refine ⟨_, printText_ok (by rw [f4.bestText, hf.bestText]; exact hl) (by rw [f4.bestBwt, hf.bestBwt]; exact hl)
      (by rw [f4.bestBbwt, hf.bestBbwt]; exact hl), fun m hm => comp_printed _ _ m hm, ?_⟩
    have f5 := f4.printed (lengthLines s4 l).tail
    rw [f2.lines, f4.lines, List.append_assoc] at f5
    refine Sf.relP (by simp [locksOf, reportHeld]) trivial ?_
    rw [f4.lines l]
    refine ih (fun l hl => hls l (by simp [hl])) _ _ (fun s h => hk s ?_) f5
    have e : x ++ (l :: ls).flatMap (lengthLines s0) =
      x ++ ([(lengthLines s0 l).headI] ++ (lengthLines s0 l).tail) ++ ls.flatMap (lengthLines s0) := by
      rw [List.flatMap_cons, List.append_assoc]; rfl
    rw [e]
    exact h

theorem sf_checkReport (s : MShared) : Sf ws checkReport [] s := by
  unfold checkReport
  refine Sf.acq (by simp [locksOf]) good_nil fun s1 _ g1 => Sf.look fun s2 e2 => ⟨rfl, ?_⟩
  have g2 := g1.same e2
  have hend : ∀ s, Good ws [(.total, true)] s → Sf ws (.rel .total true .again) [(.total, true)] s :=
    fun s g => Sf.rel (by simp [locksOf]) g fun _ => sf_again
  split
  · rename_i h0
    unfold Model.report
    refine Sf.acq' (by simp [locksOf]) (Or.inr ⟨rfl, by simp [held], h0⟩) g2 fun s3 e3 g3 => ?_
    have t3 : s3.total = s2.total := (e3 .total (by simp [locksOf])).symm
    refine Sf.acq (by simp [locksOf, rank]) g3 fun s4 e4 g4 => ?_
    have t4 : s4.total = s3.total := (e4 .total (by simp [locksOf])).symm
    refine Sf.acq (by simp [locksOf, rank]) g4 fun s5 e5 g5 => ?_
    have t5 : s5.total = s4.total := (e5 .total (by simp [locksOf])).symm
    refine Sf.acq (by simp [locksOf, rank]) g5 fun s6 e6 g6 => ?_
    have t6 : s6.total = s5.total := (e6 .total (by simp [locksOf])).symm
    refine Sf.acq (by simp [locksOf, rank]) g6 fun s7 e7 g7 => ?_
    have t7 : s7.total = s6.total := (e7 .total (by simp [locksOf])).symm
    refine Sf.acq (by simp [locksOf, rank]) g7 fun s8 e8 g8 => ?_
    have t8 : s8.total = s7.total := (e8 .total (by simp [locksOf])).symm
    refine Sf.acq (by simp [locksOf, rank]) g8 fun s9 e9 g9 => ?_
    have t9 : s9.total = s8.total := (e9 .total (by simp [locksOf])).symm
    have ht : s9.total % 10000 = 0 := by rw [t9, t8, t7, t6, t5, t4, t3]; exact h0
    have g9 : Good ws reportHeld s9 := g9
    obtain ⟨n1, n2, n3⟩ : inv ws .num (comp .num s9) := g9 .num (by simp [locksOf, reportHeld])
    have hrec : RecInv ws (s9.bestBwt, s9.bestBbwt, s9.bestText) := g9 .bestBwt (by simp [locksOf, reportHeld])
    have hfull : FullLen s9 := ⟨n1, g9 .bwtWin (by simp [locksOf, reportHeld]), g9 .bbwtWin (by simp [locksOf, reportHeld]),
      g9 .tie (by simp [locksOf, reportHeld]), hrec.1, hrec.2.1, hrec.2.2.1⟩
    have hgood : GoodReport ws s9 := ⟨ht, n1, n2, hrec⟩
    refine Sf.act .num (by simp [held]) fun s10 e10 => ?_
    have f10 := (Frozen.refl s9).same (fun _ h => h) e10
    refine ⟨_, rfl, fun m hm => comp_printed _ _ m hm, ?_⟩
    refine sf_reportTexts hfull _ (by simp [MAXW]) _ _ (fun s f => ?_)
      (f10.printed [ascii "total_count=" ++ decimal s10.total ++ [10]])
    rw [f10.total] at f
    have f : Frozen s9 (reportLines s9) s := f
    have g : Good ws reportHeld s := by
      intro m hm
      simp only [locksOf, reportHeld, List.map_cons, List.map_nil, List.mem_cons, List.not_mem_nil, or_false] at hm
      rcases hm with rfl | rfl | rfl | rfl | rfl | rfl | rfl | rfl
      · trivial
      · trivial
      · show RecInv ws (s.bestBwt, s.bestBbwt, s.bestText)
        rw [f.bestBwt, f.bestBbwt, f.bestText]; exact hrec
      · show s.tie.length = MAXW
        rw [f.tie]; exact hfull.tie
      · show s.bbwtWin.length = MAXW
        rw [f.bbwtWin]; exact hfull.bbwtWin
      · show s.bwtWin.length = MAXW
        rw [f.bwtWin]; exact hfull.bwtWin
      · show s.num.length = MAXW ∧ s.num.sum = s.total ∧ Reports ws s.total s.out
        rw [f.num, f.total, f.out]
        exact ⟨n1, n2, Reports.add n3 hgood⟩
      · trivial
    exact Sf.rel (by simp [locksOf]) g fun g => Sf.rel (by simp [locksOf]) g fun g =>
      Sf.rel (by simp [locksOf]) g fun g => Sf.rel (by simp [locksOf]) g fun g =>
      Sf.rel (by simp [locksOf]) g fun g => Sf.rel (by simp [locksOf]) g fun g =>
      Sf.rel (by simp [locksOf]) g fun g => hend _ g
  · exact hend _ g2

theorem sum_set_succ {v : List Nat} {i : Nat} (hi : i < v.length) : (v.set i (v[i] + 1)).sum = v.sum + 1 := by
  induction v generalizing i with
  | nil => simp at hi
  | cons a v ih =>
    cases i with
    | zero => simp; omega
    | succ i => simp only [List.set_cons_succ, List.sum_cons, List.getElem_cons_succ]; rw [ih (by simpa using hi)]; omega

theorem sf_countWord {i : Nat} (hi : i < MAXW) (hk : ∀ s, Sf ws k [] s) (s : MShared) :
    Sf ws (countWord i k) [] s := by
  unfold countWord
  refine Sf.acq (by simp [locksOf]) good_nil fun s1 _ g1 => ?_
  refine Sf.act .num (by simp [held]) fun s2 e2 => ?_
  obtain ⟨hlen, hsum, hrep⟩ : s2.num.length = MAXW ∧ s2.num.sum = s2.total ∧ Reports ws s2.total s2.out :=
    (g1.same e2) .num (by simp [locksOf])
  refine ⟨{ s2 with num := s2.num.set i (s2.num[i]'(by omega) + 1) },
    by rw [incAt_ok (by omega), ok_bind, pure_ok], fun m hm => by cases m <;> first | rfl | exact absurd rfl hm, ?_⟩
  refine Sf.acqP (by simp [locksOf, rank]) fun s4 e4 _ => ?_
  have e4 : (s2.num.set i (s2.num[i]'(by omega) + 1), s2.total, s2.out) = (s4.num, s4.total, s4.out) :=
    e4 .num (by simp [locksOf])
  intro s5 ha
  have e5 : (s4.num, s4.total, s4.out) = (s5.num, s5.total, s5.out) := agree_same ha .num (by simp [locksOf])
  rw [← e4] at e5
  simp only [Prod.mk.injEq] at e5
  refine ⟨{ s5 with total := s5.total + 1 }, rfl,
    fun m hm => by cases m <;> first | rfl | exact absurd (by simp [held]) hm, ?_⟩
  refine Sf.relP (by simp [locksOf]) trivial (Sf.relP (by simp [locksOf]) ?_ (hk _))
  show s5.num.length = MAXW ∧ s5.num.sum = s5.total + 1 ∧ Reports ws (s5.total + 1) s5.out
  rw [← e5.1, ← e5.2.1, ← e5.2.2, List.length_set, sum_set_succ, hsum]
  exact ⟨hlen, rfl, hrep.mono (by omega)⟩

/-- The conjugate and its numbers of runs are what they should be. -/
def Fits (ws : List (List Nat)) (i b : Nat) (t : List UInt8) : Prop :=
  ∃ w ∈ ws, w.length = i + 1 ∧ t ∈ conjs w ∧ b = bwtRuns (w.map UInt8.ofNat)

theorem recInv_set {r : List Nat × List Nat × List (List UInt8)} (h : RecInv ws r) {i b c : Nat}
    {t : List UInt8} (hf : Fits ws i b t) (hc : c = bbwtRuns t) (hcb : c < b) :
    RecInv ws (r.1.set i b, r.2.1.set i c, r.2.2.set i t) := by
  obtain ⟨h1, h2, h3, h4⟩ := h
  refine ⟨by simp [h1], by simp [h2], by simp [h3], fun j hj => ?_⟩
  by_cases e : j = i
  · subst e
    right
    obtain ⟨w, hw, hl, ht, hb⟩ := hf
    have h1' : j < r.1.length := by omega
    have h2' : j < r.2.1.length := by omega
    have h3' : j < r.2.2.length := by omega
    refine ⟨w, hw, hl, ?_, ?_, ?_, ?_⟩ <;> simp [List.getD_eq_getElem?_getD, h1', h2', h3', ht, hb, hc]
    rw [← hc, ← hb]; exact hcb
  · have := h4 j hj
    simpa [List.getD_eq_getElem?_getD, List.getElem?_set, Ne.symm e] using this

theorem sf_storeBest {i b c : Nat} {t : List UInt8} (hi : i < MAXW) (hf : Fits ws i b t)
    (hc : c = bbwtRuns t) (hcb : c < b) (hk : ∀ s, Sf ws k [] s) (s : MShared) :
    Sf ws (storeBest b c i t k) [] s := by
  unfold storeBest
  refine Sf.acq (by simp [locksOf]) good_nil fun s1 _ g1 => ?_
  refine Sf.acq (by simp [locksOf, rank]) g1 fun s2 _ g2 => ?_
  refine Sf.acq (by simp [locksOf, rank]) g2 fun s3 _ g3 => ?_
  refine Sf.acq (by simp [locksOf, rank]) g3 fun s4 _ g4 => ?_
  have hr : RecInv ws (comp .bestBwt s4) := g4 .bestBwt (by simp [locksOf])
  -- the three stores
  refine Sf.act .bestBwt (by simp [held]) fun s5 e5 => ?_
  have e5 : comp .bestBwt s4 = comp .bestBwt s5 := e5 .bestBwt (by simp [locksOf])
  rw [e5] at hr
  have hr : RecInv ws (s5.bestBwt, s5.bestBbwt, s5.bestText) := hr
  have l1 : i < s5.bestBwt.length := by rw [hr.1]; exact hi
  refine ⟨{ s5 with bestBwt := s5.bestBwt.set i b }, by rw [wr_ok l1, ok_bind, pure_ok],
    fun m hm => by cases m <;> first | rfl | exact absurd rfl hm, ?_⟩
  refine Sf.act .bestBwt (by simp [held]) fun s6 e6 => ?_
  have e6 : (s5.bestBwt.set i b, s5.bestBbwt, s5.bestText) = (s6.bestBwt, s6.bestBbwt, s6.bestText) :=
    e6 .bestBwt (by simp [locksOf])
  simp only [Prod.mk.injEq] at e6
  obtain ⟨a1, a2, a3⟩ := e6
  have l2 : i < s6.bestBbwt.length := by rw [← a2]; exact hr.2.1 ▸ hi
  refine ⟨{ s6 with bestBbwt := s6.bestBbwt.set i c }, by rw [wr_ok l2, ok_bind, pure_ok],
    fun m hm => by cases m <;> first | rfl | exact absurd rfl hm, ?_⟩
  refine Sf.act .bestBwt (by simp [held]) fun s7 e7 => ?_
  have e7 : (s6.bestBwt, s6.bestBbwt.set i c, s6.bestText) = (s7.bestBwt, s7.bestBbwt, s7.bestText) :=
    e7 .bestBwt (by simp [locksOf])
  simp only [Prod.mk.injEq] at e7
  obtain ⟨b1, b2, b3⟩ := e7
  have l3 : i < s7.bestText.length := by rw [← b3, ← a3]; exact hr.2.2.1 ▸ hi
  refine ⟨{ s7 with bestText := s7.bestText.set i t }, by rw [wr_ok l3, ok_bind, pure_ok],
    fun m hm => by cases m <;> first | rfl | exact absurd rfl hm, ?_⟩
  have g8 : Good ws [(.text i, true), (.texts, true), (.bestBbwt, true), (.bestBwt, true)]
      { s7 with bestText := s7.bestText.set i t } := by
    intro m hm
    simp only [locksOf, List.map_cons, List.map_nil, List.mem_cons, List.not_mem_nil, or_false] at hm
    rcases hm with rfl | rfl | rfl | rfl
    · trivial
    · trivial
    · trivial
    · show RecInv ws (s7.bestBwt, s7.bestBbwt, s7.bestText.set i t)
      rw [← b1, ← b2, ← b3, ← a1, ← a2, ← a3]
      exact recInv_set hr hf hc hcb
  exact Sf.rel (by simp [locksOf]) g8 fun g => Sf.rel (by simp [locksOf]) g fun g =>
      Sf.rel (by simp [locksOf]) g fun g => Sf.rel (by simp [locksOf]) g fun _ => hk _

theorem needsChange_total {r : MShared} (hr : RecInv ws (comp .bestBwt r)) {i b c : Nat} (t : List UInt8)
    (hi : i < MAXW) (hcb : c ≤ b) : ∃ x, needsChange b c i t r = .ok x := by
  obtain ⟨h1, h2, h3, h4⟩ := hr
  have l1 : i < r.bestBwt.length := by rw [show r.bestBwt.length = MAXW from h1]; exact hi
  have l2 : i < r.bestBbwt.length := by rw [show r.bestBbwt.length = MAXW from h2]; exact hi
  have l3 : i < r.bestText.length := by rw [show r.bestText.length = MAXW from h3]; exact hi
  have hw : Witness ws i (r.bestBwt.getD i 0) (r.bestBbwt.getD i 0) (r.bestText.getD i []) := h4 i hi
  have hle : r.bestBbwt.getD i 0 ≤ r.bestBwt.getD i 0 := by
    rcases hw with ⟨a, b, _⟩ | ⟨_, _, _, _, _, _, h⟩ <;> omega
  have hle' : r.bestBbwt[i] ≤ r.bestBwt[i] := by
    simpa [List.getD_eq_getElem?_getD, l1, l2] using hle
  unfold needsChange
  rw [usub_ok hcb, ok_bind, rd_ok l1, ok_bind, rd_ok l2, ok_bind, usub_ok hle', ok_bind]
  split
  · exact ⟨_, rfl⟩
  · split
    · rw [rd_ok l3, ok_bind]; exact ⟨_, rfl⟩
    · exact ⟨_, rfl⟩

theorem sf_considerBest {i b c : Nat} {t : List UInt8} (hi : i < MAXW) (hf : Fits ws i b t)
    (hc : c = bbwtRuns t) (hk : ∀ s, Sf ws k [] s) (s : MShared) :
    Sf ws (considerBest b c i t k) [] s := by
  unfold considerBest
  split
  · rename_i hcb
    refine Sf.acq (by simp [locksOf]) good_nil fun s1 _ g1 => ?_
    refine Sf.acq (by simp [locksOf, rank]) g1 fun s2 _ g2 => ?_
    refine Sf.acq (by simp [locksOf, rank]) g2 fun s3 _ g3 => ?_
    refine Sf.acq (by simp [locksOf, rank]) g3 fun s4 _ g4 => ?_
    refine Sf.look fun s5 e5 => ?_
    have g5 := g4.same e5
    obtain ⟨x, hx⟩ := needsChange_total (g5 .bestBwt (by simp [locksOf])) t hi (Nat.le_of_lt hcb)
    refine ⟨by rw [hx, ok_bind, pure_ok], ?_⟩
    refine Sf.rel (by simp [locksOf]) g5 fun g => Sf.rel (by simp [locksOf]) g fun g =>
      Sf.rel (by simp [locksOf]) g fun g => Sf.rel (by simp [locksOf]) g fun _ => ?_
    rw [hx]
    cases x
    · exact hk _
    · exact sf_storeBest hi hf hc hcb hk _
  · exact hk s

theorem sf_conjugateBlock {i b : Nat} {t : List UInt8} (hi : i < MAXW) (hf : Fits ws i b t) (ht : t ≠ [])
    (hk : ∀ s, Sf ws k [] s) (s : MShared) : Sf ws (conjugateBlock b i t k) [] s := by
  obtain ⟨bt, hb⟩ := bbwt_total ht
  have hbr : bbwtRuns t = numberOfRuns (sliceReader bt) := by rw [bbwtRuns, hb]; rfl
  unfold conjugateBlock
  simp only [hb, ← hbr]
  refine Sf.acq (by simp [locksOf]) good_nil fun s1 _ g1 => ?_
  refine Sf.acq (by simp [locksOf, rank]) g1 fun s2 _ g2 => ?_
  refine Sf.acq (by simp [locksOf, rank]) g2 fun s3 _ g3 => ?_
  have hend : ∀ s, Good ws [(.tie, true), (.bbwtWin, true), (.bwtWin, true)] s →
      Sf ws (.rel .tie true <| .rel .bbwtWin true <| .rel .bwtWin true <| considerBest b (bbwtRuns t) i t k)
        [(.tie, true), (.bbwtWin, true), (.bwtWin, true)] s := fun s g =>
    Sf.rel (by simp [locksOf]) g fun g => Sf.rel (by simp [locksOf]) g fun g =>
      Sf.rel (by simp [locksOf]) g fun _ => sf_considerBest hi hf rfl hk _
  intro s4 e4
  have g4 := g3.same (agree_same e4)
  have h1 : s4.bwtWin.length = MAXW := g4 .bwtWin (by simp [locksOf])
  have h2 : s4.bbwtWin.length = MAXW := g4 .bbwtWin (by simp [locksOf])
  have h3 : s4.tie.length = MAXW := g4 .tie (by simp [locksOf])
  unfold winUpdate
  split
  · rw [incAt_ok (by rw [h1]; exact hi), ok_bind, pure_ok]
    refine ⟨_, rfl, fun m hm => by cases m <;> first | rfl | exact absurd (by simp [held]) hm, hend _ ?_⟩
    intro m hm
    simp only [locksOf, List.map_cons, List.map_nil, List.mem_cons, List.not_mem_nil, or_false] at hm
    rcases hm with rfl | rfl | rfl
    · exact h3
    · exact h2
    · show (s4.bwtWin.set i _).length = MAXW; rw [List.length_set, h1]
  · split
    · rw [incAt_ok (by rw [h2]; exact hi), ok_bind, pure_ok]
      refine ⟨_, rfl, fun m hm => by cases m <;> first | rfl | exact absurd (by simp [held]) hm, hend _ ?_⟩
      intro m hm
      simp only [locksOf, List.map_cons, List.map_nil, List.mem_cons, List.not_mem_nil, or_false] at hm
      rcases hm with rfl | rfl | rfl
      · exact h3
      · show (s4.bbwtWin.set i _).length = MAXW; rw [List.length_set, h2]
      · exact h1
    · rw [incAt_ok (by rw [h3]; exact hi), ok_bind, pure_ok]
      refine ⟨_, rfl, fun m hm => by cases m <;> first | rfl | exact absurd (by simp [held]) hm, hend _ ?_⟩
      intro m hm
      simp only [locksOf, List.map_cons, List.map_nil, List.mem_cons, List.not_mem_nil, or_false] at hm
      rcases hm with rfl | rfl | rfl
      · show (s4.tie.set i _).length = MAXW; rw [List.length_set, h3]
      · exact h2
      · exact h1

theorem sf_conjugateLoop {i b : Nat} (hi : i < MAXW) (hk : ∀ s, Sf ws k [] s) {us : List (List UInt8)} :
    ∀ {it : ConjugateIterator UInt8} {fuel : Nat}, Yields ConjugateIterator.next it us →
      (∀ u ∈ us, u ≠ [] ∧ Fits ws i b u) → us.length < fuel → ∀ s,
      Sf ws (conjugateLoop b i fuel it k) [] s := by
  induction us with
  | nil =>
    intro it fuel hy _ hf s
    obtain ⟨it', hn, _⟩ := hy.nil
    obtain ⟨f, rfl⟩ : ∃ f, fuel = f + 1 := ⟨fuel - 1, by simp at hf; omega⟩
    simp only [conjugateLoop, hn]
    exact hk s
  | cons u us ih =>
    intro it fuel hy hne hf s
    obtain ⟨it', hn, hy'⟩ := hy.cons
    simp only [List.length_cons] at hf
    obtain ⟨f, rfl⟩ : ∃ f, fuel = f + 1 := ⟨fuel - 1, by omega⟩
    simp only [conjugateLoop, hn]
    exact sf_conjugateBlock hi (hne u (by simp)).2 (hne u (by simp)).1
      (ih hy' (fun v hv => hne v (by simp [hv])) (by omega)) s

theorem sf_processWord {w : List Nat} (hw : w ∈ ws) (hne : w ≠ []) (hl : w.length ≤ MAXW) (s : MShared) :
    Sf ws (processWord w) [] s := by
  have hn := List.length_pos_iff.2 hne
  rw [processWord_eq hne hl]
  exact sf_conjugateLoop (by omega) (sf_countWord (by omega) sf_checkReport) (conj_yields _)
    (fun u hu => ⟨conjs_ne hne u hu, w, hw, by omega, hu, rfl⟩) (by simp) s

theorem sf_mworker (hws : ∀ w ∈ ws, w ≠ [] ∧ w.length ≤ MAXW) (s : MShared) : Sf ws mworker [] s := by
  unfold mworker
  refine Sf.acq (by simp [locksOf]) good_nil fun s1 _ g1 => ?_
  refine Sf.act .iter (by simp [held]) fun s2 e2 => ?_
  obtain ⟨done, rest, hsp, hy⟩ : inv ws .iter (comp .iter s2) := (g1.same e2) .iter (by simp [locksOf])
  have hy : Yields LyndonWordGenerator.next s2.iter rest := hy
  match rest, hsp, hy with
  | [], hsp, hy =>
    obtain ⟨it, hn, hy'⟩ := hy.nil
    refine ⟨{ s2 with iter := it }, by simp only [hn, ok_bind, pure_ok],
      fun m hm => by cases m <;> first | rfl | exact absurd rfl hm, ?_⟩
    refine Sf.rel (by simp [locksOf]) (fun m hm => ?_) fun _ => ?_
    · simp only [locksOf, List.map_cons, List.map_nil, List.mem_singleton] at hm
      subst hm
      exact ⟨done, [], hsp, hy'⟩
    · simp only [hn]
      exact fun _ => rfl
  | w :: rest, hsp, hy =>
    obtain ⟨it, hn, hy'⟩ := hy.cons
    refine ⟨{ s2 with iter := it }, by simp only [hn, ok_bind, pure_ok],
      fun m hm => by cases m <;> first | rfl | exact absurd rfl hm, ?_⟩
    refine Sf.rel (by simp [locksOf]) (fun m hm => ?_) fun _ => ?_
    · simp only [locksOf, List.map_cons, List.map_nil, List.mem_singleton] at hm
      subst hm
      exact ⟨done ++ [w], rest, by rw [← hsp]; simp, hy'⟩
    · simp only [hn]
      have hw : w ∈ ws := by rw [← hsp]; simp
      exact sf_processWord hw (hws w hw).1 (hws w hw).2 _

theorem inv_init (hy : Yields LyndonWordGenerator.next (LyndonWordGenerator.new MAXW 2) ws) (l : MLock) :
    inv ws l (comp l MShared.init) := by
  cases l
  · exact ⟨[], ws, rfl, hy⟩
  · refine ⟨List.length_replicate, ?_, [], rfl, List.Pairwise.nil, by simp⟩
    show (List.replicate MAXW 0).sum = 0
    simp
  · exact List.length_replicate
  · exact List.length_replicate
  · exact List.length_replicate
  · refine ⟨List.length_replicate, List.length_replicate, List.length_replicate, fun i _ => Or.inl ⟨?_, ?_, ?_⟩⟩
    · simp [comp, MShared.init, List.getD_eq_getElem?_getD, List.getElem?_replicate]; split <;> rfl
    · simp [comp, MShared.init, List.getD_eq_getElem?_getD, List.getElem?_replicate]; split <;> rfl
    · simp [comp, MShared.init, List.getD_eq_getElem?_getD, List.getElem?_replicate]; split <;> rfl
  · trivial
  · trivial
  · trivial
  · trivial

theorem max_ginv {T : Nat} {st : MState T} (hws : ∀ w ∈ ws, w ≠ [] ∧ w.length ≤ MAXW)
    (hy : Yields LyndonWordGenerator.next (LyndonWordGenerator.new MAXW 2) ws) (h : FreeReachable st) :
    ∃ H K, GInv comp (inv ws) ord st H K :=
  GInv.reachable (fun s => sf_mworker hws s) (inv_init hy) h

end Verif.Max
