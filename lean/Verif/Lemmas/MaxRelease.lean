import Verif.Model.MaxRelease
import Verif.Lemmas.PoisonEnd
import Verif.Props.ReleaseTools
import Verif.Lemmas.MaxReport
import Verif.Spec.MaxRelease

/-! # The release build of `max_lyndon_word` in lockstep with the program without overflow -/

namespace Verif.Max

open Verif Spec Model Par

/-- Related lines: the counters are printed as `i32`, everything else is the same. -/
def LineRel (x y : List UInt8) : Prop :=
  (∀ l n a b c, x = countsLine l n a b c → y = countsLineI32 l n a b c) ∧ ((∀ l n a b c, x ≠ countsLine l n a b c) → y = x)

theorem lineRel_counts (l n a b c : Nat) : LineRel (countsLine l n a b c) (countsLineI32 l n a b c) :=
  ⟨fun l' n' a' b' c' h => by obtain ⟨rfl, rfl, rfl, rfl, rfl⟩ := countsLine_inj h; rfl, fun h => absurd rfl (h l n a b c)⟩

theorem lineRel_text (l : Nat) (t : List UInt8) (b c : Nat) : LineRel (textLine l t b c) (textLine l t b c) :=
  ⟨fun _ _ _ _ _ h => absurd h.symm countsLine_ne_text, fun _ => rfl⟩

theorem lineRel_total (n : Nat) : LineRel (ascii "total_count=" ++ decimal n ++ [10]) (ascii "total_count=" ++ decimal n ++ [10]) :=
  ⟨fun _ _ _ _ _ h => absurd h.symm countsLine_ne_total, fun _ => rfl⟩

theorem LineRel.unique {x y z : List UInt8} (h : LineRel x y) (h' : LineRel x z) : y = z := by
  by_cases hx : ∃ l n a b c, x = countsLine l n a b c
  · obtain ⟨l, n, a, b, c, e⟩ := hx
    rw [h.1 _ _ _ _ _ e, h'.1 _ _ _ _ _ e]
  · push Not at hx
    rw [h.2 hx, h'.2 hx]

theorem lines_unique : ∀ {x y z : List (List UInt8)}, List.Forall₂ LineRel x y → List.Forall₂ LineRel x z → y = z := by
  intro x
  induction x with
  | nil => intro y z h h'; cases h; cases h'; rfl
  | cons a x ih =>
    intro y z h h'
    cases h with
    | cons h1 h2 => cases h' with
      | cons g1 g2 => rw [h1.unique g1, ih h2 g2]

theorem lines_report (r : Snapshot) : List.Forall₂ LineRel r.lines r.linesI32 := by
  refine List.Forall₂.cons (lineRel_total _) ?_
  generalize List.range' 21 20 = ns
  induction ns with
  | nil => exact .nil
  | cons n ns ih =>
    rw [List.flatMap_cons, List.flatMap_cons]
    exact List.rel_append (.cons (lineRel_counts _ _ _ _ _) (.cons (lineRel_text _ _ _ _) .nil)) ih

theorem lines_reports (rs : List Snapshot) : List.Forall₂ LineRel (rs.flatMap Snapshot.lines) (rs.flatMap Snapshot.linesI32) := by
  induction rs with
  | nil => exact .nil
  | cons r rs ih =>
    rw [List.flatMap_cons, List.flatMap_cons]
    exact List.rel_append (lines_report r) ih

theorem i32Value_mod (n : Nat) : i32Value (n % 4294967296) = asI32 n := by
  unfold i32Value asI32 Int.bmod
  have h2 : ((n : Int) % ((2 ^ 32 : Nat) : Int)) = ((n % 4294967296 : Nat) : Int) := by norm_cast
  rw [h2]
  dsimp only
  split <;> split <;> push_cast at * <;> omega

theorem i32Text_mod (n : Nat) : i32Text (n % 4294967296) = intText (asI32 n) := by
  rw [← i32Value_mod]
  have hlt : n % 4294967296 < 4294967296 := Nat.mod_lt _ (by omega)
  generalize n % 4294967296 = x at *
  unfold i32Text intText i32Value
  by_cases h : x < 2147483648
  · rw [if_pos h, if_pos h, if_neg (by omega)]; rfl
  · rw [if_neg h, if_neg h, if_pos (by omega)]
    congr 2
    omega

/-- The bit patterns of an array of counters. -/
def wrapL (v : List Nat) : List Nat := v.map (· % 4294967296)

structure SRel (a b : MShared) : Prop where
  iter : b.iter = a.iter
  num : b.num = wrapL a.num
  bwtWin : b.bwtWin = wrapL a.bwtWin
  bbwtWin : b.bbwtWin = wrapL a.bbwtWin
  tie : b.tie = wrapL a.tie
  bestBwt : b.bestBwt = a.bestBwt
  bestBbwt : b.bestBbwt = a.bestBbwt
  bestText : b.bestText = a.bestText
  total : b.total = a.total
  out : List.Forall₂ LineRel a.out b.out

/-- `q` does in the release build what `p` does without overflow, as long as `p` does not panic. -/
def PRel : MProg → MProg → Prop
  | .acq l w k, q => ∃ k', q = .acq l w k' ∧ PRel k k'
  | .rel l w k, q => ∃ k', q = .rel l w k' ∧ PRel k k'
  | .act g k, q => ∃ g' k', q = .act g' k' ∧ ∀ a b a', SRel a b → g a = .ok a' →
      ∃ b', g' b = .ok b' ∧ SRel a' b' ∧ PRel (k a) (k' b)
  | .again, q => q = .again
  | .stop, q => q = .stop
  | .panic, _ => True

theorem PRel.acq {l : MLock} {w : Bool} {k k' : MProg} (h : PRel k k') : PRel (.acq l w k) (.acq l w k') := ⟨k', rfl, h⟩
theorem PRel.rel {l : MLock} {w : Bool} {k k' : MProg} (h : PRel k k') : PRel (.rel l w k) (.rel l w k') := ⟨k', rfl, h⟩
theorem PRel.act {g g' : MShared → Res MShared} {k k' : MShared → MProg}
    (h : ∀ a b a', SRel a b → g a = .ok a' → ∃ b', g' b = .ok b' ∧ SRel a' b' ∧ PRel (k a) (k' b)) :
    PRel (.act g k) (.act g' k') := ⟨g', k', rfl, h⟩

theorem rd_wrapL {v : List Nat} {i x : Nat} (h : rd v i = .ok x) : rd (wrapL v) i = .ok (x % 4294967296) := by
  have hi := rd_inv h
  rw [rd_ok hi] at h
  injection h with h
  rw [rd_ok (by simpa [wrapL] using hi)]
  simp [wrapL, ← h]

theorem incAt_wrapL {v v' : List Nat} {i : Nat} (h : incAt v i = .ok v') : incAtW (wrapL v) i = .ok (wrapL v') := by
  by_cases hi : i < v.length
  · rw [incAt_ok hi] at h
    injection h with h
    subst h
    have hi' : i < (wrapL v).length := by simpa [wrapL] using hi
    rw [incAtW, rd_ok hi', ok_bind, wr_ok hi']
    congr 1
    simp [wrapL, List.map_set]
  · exfalso
    simp [incAt, rd, List.getElem?_eq_none (Nat.le_of_not_lt hi)] at h

theorem usubB_ok {m : Build} {a b d : Nat} (h : usub a b = .ok d) : usubB m a b = .ok d := by
  unfold usub at h
  unfold usubB
  split at h
  · rename_i hle; rw [if_pos hle]; exact h
  · cases h

theorem srel_init : SRel MShared.init MShared.init :=
  ⟨rfl, by simp [wrapL, MShared.init], by simp [wrapL, MShared.init], by simp [wrapL, MShared.init], by simp [wrapL, MShared.init],
    rfl, rfl, rfl, rfl, List.Forall₂.nil⟩

theorem winUpdate_rel {a b a' : MShared} (h : SRel a b) {x y i : Nat} (hg : winUpdate x y i a = .ok a') :
    ∃ b', winUpdateW x y i b = .ok b' ∧ SRel a' b' := by
  unfold winUpdate at hg
  unfold winUpdateW
  split at hg
  · rename_i hc
    rw [if_pos hc]
    cases hv : incAt a.bwtWin i with
    | error e => rw [hv] at hg; cases hg
    | ok v =>
      rw [hv, ok_bind, pure_ok] at hg
      injection hg with hg; subst hg
      rw [h.bwtWin, incAt_wrapL hv]
      exact ⟨_, rfl, h.iter, h.num, rfl, h.bbwtWin, h.tie, h.bestBwt, h.bestBbwt, h.bestText, h.total, h.out⟩
  · rename_i hc
    rw [if_neg hc]
    split at hg
    · rename_i hc
      rw [if_pos hc]
      cases hv : incAt a.bbwtWin i with
      | error e => rw [hv] at hg; cases hg
      | ok v =>
        rw [hv, ok_bind, pure_ok] at hg
        injection hg with hg; subst hg
        rw [h.bbwtWin, incAt_wrapL hv]
        exact ⟨_, rfl, h.iter, h.num, h.bwtWin, rfl, h.tie, h.bestBwt, h.bestBbwt, h.bestText, h.total, h.out⟩
    · rename_i hc
      rw [if_neg hc]
      cases hv : incAt a.tie i with
      | error e => rw [hv] at hg; cases hg
      | ok v =>
        rw [hv, ok_bind, pure_ok] at hg
        injection hg with hg; subst hg
        rw [h.tie, incAt_wrapL hv]
        exact ⟨_, rfl, h.iter, h.num, h.bwtWin, h.bbwtWin, rfl, h.bestBwt, h.bestBbwt, h.bestText, h.total, h.out⟩

theorem needsChange_rel {a b : MShared} (h : SRel a b) {x y i : Nat} {t : List UInt8} {r : Bool}
    (hg : needsChange x y i t a = .ok r) : needsChangeW x y i t b = .ok r := by
  unfold needsChange at hg
  unfold needsChangeW
  rw [h.bestBwt, h.bestBbwt, h.bestText]
  cases h1 : usub x y with
  | error e => rw [h1] at hg; cases hg
  | ok d =>
    rw [h1, ok_bind] at hg
    rw [usubB_ok h1, ok_bind]
    cases h2 : rd a.bestBwt i with
    | error e => rw [h2] at hg; cases hg
    | ok u =>
      rw [h2, ok_bind] at hg
      rw [ok_bind]
      cases h3 : rd a.bestBbwt i with
      | error e => rw [h3] at hg; cases hg
      | ok v =>
        rw [h3, ok_bind] at hg
        rw [ok_bind]
        cases h4 : usub u v with
        | error e => rw [h4] at hg; cases hg
        | ok e =>
          rw [h4, ok_bind] at hg
          rw [usubB_ok h4, ok_bind]
          exact hg

section progs

variable {k k' : MProg}

theorem prel_storeBest (x y i : Nat) (t : List UInt8) (h : PRel k k') : PRel (storeBest x y i t k) (storeBest x y i t k') := by
  unfold storeBest
  refine .acq <| .acq <| .acq <| .acq <| .act fun a b a' hr hg => ?_
  beta_reduce at hg
  cases hv : wr a.bestBwt i x with
  | error e => rw [hv] at hg; cases hg
  | ok v =>
    rw [hv, ok_bind, pure_ok] at hg
    injection hg with hg; subst hg
    refine ⟨{ b with bestBwt := v }, by rw [hr.bestBwt, hv]; rfl,
      ⟨hr.iter, hr.num, hr.bwtWin, hr.bbwtWin, hr.tie, rfl, hr.bestBbwt, hr.bestText, hr.total, hr.out⟩, .act fun a b a' hr hg => ?_⟩
    beta_reduce at hg
    cases hv : wr a.bestBbwt i y with
    | error e => rw [hv] at hg; cases hg
    | ok v =>
      rw [hv, ok_bind, pure_ok] at hg
      injection hg with hg; subst hg
      refine ⟨{ b with bestBbwt := v }, by rw [hr.bestBbwt, hv]; rfl,
        ⟨hr.iter, hr.num, hr.bwtWin, hr.bbwtWin, hr.tie, hr.bestBwt, rfl, hr.bestText, hr.total, hr.out⟩, .act fun a b a' hr hg => ?_⟩
      beta_reduce at hg
      cases hv : wr a.bestText i t with
      | error e => rw [hv] at hg; cases hg
      | ok v =>
        rw [hv, ok_bind, pure_ok] at hg
        injection hg with hg; subst hg
        exact ⟨{ b with bestText := v }, by rw [hr.bestText, hv]; rfl,
          ⟨hr.iter, hr.num, hr.bwtWin, hr.bbwtWin, hr.tie, hr.bestBwt, hr.bestBbwt, rfl, hr.total, hr.out⟩,
          .rel <| .rel <| .rel <| .rel h⟩

theorem prel_considerBest (x y i : Nat) (t : List UInt8) (h : PRel k k') :
    PRel (considerBest x y i t k) (considerBestW x y i t k') := by
  unfold considerBest considerBestW
  split
  · refine .acq <| .acq <| .acq <| .acq <| .act fun a b a' hr hg => ?_
    beta_reduce at hg
    cases hv : needsChange x y i t a with
    | error e => rw [hv] at hg; cases hg
    | ok r =>
      rw [hv, ok_bind, pure_ok] at hg
      injection hg with hg; subst hg
      have hw := needsChange_rel hr hv
      refine ⟨b, by rw [hw]; rfl, hr, .rel <| .rel <| .rel <| .rel ?_⟩
      rw [hw]
      cases r with
      | true => exact prel_storeBest _ _ _ _ h
      | false => exact h
  · exact h

theorem prel_conjugateBlock (x i : Nat) (t : List UInt8) (h : PRel k k') :
    PRel (conjugateBlock x i t k) (conjugateBlockW x i t k') := by
  unfold conjugateBlock conjugateBlockW
  rw [(Props.C124_texts t).2.2.2.2.2.1]
  cases bbwtNaive t with
  | error e => trivial
  | ok bt =>
    dsimp only
    refine .acq <| .acq <| .acq <| .act fun a b a' hr hg => ?_
    obtain ⟨b', h1, h2⟩ := winUpdate_rel hr hg
    exact ⟨b', h1, h2, .rel <| .rel <| .rel <| prel_considerBest _ _ _ _ h⟩

theorem prel_conjugateLoop (x i : Nat) (h : PRel k k') (fuel : Nat) : ∀ it,
    PRel (conjugateLoop x i fuel it k) (conjugateLoopW x i fuel it k') := by
  induction fuel with
  | zero => intro it; trivial
  | succ fuel ih =>
    intro it
    unfold conjugateLoop conjugateLoopW
    match it.next with
    | .error e => trivial
    | .ok (none, _) => exact h
    | .ok (some c, it) => exact prel_conjugateBlock _ _ _ (ih _)

theorem out_snoc {x y : List (List UInt8)} {u v : List UInt8} (h : List.Forall₂ LineRel x y) (hl : LineRel u v) :
    List.Forall₂ LineRel (x ++ [u]) (y ++ [v]) := List.rel_append h (List.Forall₂.cons hl List.Forall₂.nil)

theorem printCounts_rel {a b a' : MShared} (h : SRel a b) {l : Nat} (hg : printCounts l a = .ok a') :
    ∃ b', printCountsW l b = .ok b' ∧ SRel a' b' := by
  unfold printCounts at hg
  unfold printCountsW
  rw [h.num, h.bwtWin, h.bbwtWin, h.tie]
  cases h1 : rd a.num l with
  | error e => rw [h1] at hg; cases hg
  | ok n =>
    cases h2 : rd a.bwtWin l with
    | error e => rw [h1, h2] at hg; cases hg
    | ok x =>
      cases h3 : rd a.bbwtWin l with
      | error e => rw [h1, h2, h3] at hg; cases hg
      | ok y =>
        cases h4 : rd a.tie l with
        | error e => rw [h1, h2, h3, h4] at hg; cases hg
        | ok z =>
          rw [h1, h2, h3, h4] at hg
          injection hg with hg; subst hg
          rw [rd_wrapL h1, rd_wrapL h2, rd_wrapL h3, rd_wrapL h4]
          exact ⟨_, rfl, h.iter, rfl, rfl, rfl, rfl, h.bestBwt, h.bestBbwt, h.bestText, h.total,
            out_snoc h.out (by rw [i32Text_mod, i32Text_mod, i32Text_mod, i32Text_mod]; exact lineRel_counts l n x y z)⟩

theorem printText_rel {a b a' : MShared} (h : SRel a b) {l : Nat} (hg : printText l a = .ok a') :
    ∃ b', printText l b = .ok b' ∧ SRel a' b' := by
  unfold printText at hg ⊢
  rw [h.bestBwt, h.bestBbwt, h.bestText]
  cases h1 : rd a.bestText l with
  | error e => rw [h1] at hg; cases hg
  | ok n =>
    cases h2 : rd a.bestBwt l with
    | error e => rw [h1, h2] at hg; cases hg
    | ok x =>
      cases h3 : rd a.bestBbwt l with
      | error e => rw [h1, h2, h3] at hg; cases hg
      | ok y =>
        rw [h1, h2, h3] at hg
        injection hg with hg; subst hg
        exact ⟨_, rfl, h.iter, h.num, h.bwtWin, h.bbwtWin, h.tie, rfl, rfl, rfl, h.total,
          out_snoc h.out (lineRel_text l n x y)⟩

theorem prel_reportTexts (h : PRel k k') (ls : List Nat) : PRel (reportTexts k ls) (reportTextsW k' ls) := by
  induction ls with
  | nil => exact h
  | cons l ls ih =>
    refine .acq <| .act fun a b a' hr hg => ?_
    obtain ⟨b', h1, h2⟩ := printCounts_rel hr hg
    refine ⟨b', h1, h2, .act fun a b a' hr hg => ?_⟩
    obtain ⟨b', h1, h2⟩ := printText_rel hr hg
    exact ⟨b', h1, h2, .rel ih⟩

theorem prel_report (h : PRel k k') : PRel (Model.report k) (reportW k') := by
  unfold Model.report reportW
  refine .acq <| .acq <| .acq <| .acq <| .acq <| .acq <| .acq <| .act fun a b a' hr hg => ?_
  injection hg with hg; subst hg
  refine ⟨_, rfl, ⟨hr.iter, hr.num, hr.bwtWin, hr.bbwtWin, hr.tie, hr.bestBwt, hr.bestBbwt, hr.bestText, hr.total, ?_⟩,
    prel_reportTexts (.rel <| .rel <| .rel <| .rel <| .rel <| .rel <| .rel h) _⟩
  rw [hr.total]
  exact out_snoc hr.out (lineRel_total _)

theorem prel_checkReport : PRel checkReport checkReportW := by
  unfold checkReport checkReportW
  refine .acq <| .act fun a b a' hr hg => ?_
  injection hg with hg; subst hg
  refine ⟨b, rfl, hr, ?_⟩
  rw [hr.total]
  split
  · exact prel_report (.rel rfl)
  · exact .rel rfl

theorem prel_countWord (i : Nat) (h : PRel k k') : PRel (countWord i k) (countWordW i k') := by
  unfold countWord countWordW
  refine .acq <| .act fun a b a' hr hg => ?_
  beta_reduce at hg
  cases hv : incAt a.num i with
  | error e => rw [hv] at hg; cases hg
  | ok v =>
    rw [hv, ok_bind, pure_ok] at hg
    injection hg with hg; subst hg
    refine ⟨{ b with num := wrapL v }, by rw [hr.num, incAt_wrapL hv]; rfl,
      ⟨hr.iter, rfl, hr.bwtWin, hr.bbwtWin, hr.tie, hr.bestBwt, hr.bestBbwt, hr.bestText, hr.total, hr.out⟩,
      .acq <| .act fun a b a' hr hg => ?_⟩
    injection hg with hg; subst hg
    refine ⟨_, rfl, ⟨hr.iter, hr.num, hr.bwtWin, hr.bbwtWin, hr.tie, hr.bestBwt, hr.bestBbwt, hr.bestText, ?_, hr.out⟩,
      .rel <| .rel h⟩
    show b.total + 1 = a.total + 1
    rw [hr.total]

theorem prel_processWord (w : List Nat) : PRel (processWord w) (processWordW w) := by
  unfold processWord processWordW
  dsimp only
  rw [(Props.C124_texts (w.map UInt8.ofNat)).2.2.2.2.1]
  cases bwtByMatrixNaive (w.map UInt8.ofNat) with
  | error e => trivial
  | ok bt =>
    dsimp only
    split
    · exact prel_conjugateLoop _ _ (prel_countWord _ prel_checkReport) _ _
    · trivial

end progs

theorem nextB_ok {g : LyndonWordGenerator} {r : Option (List Nat) × LyndonWordGenerator} (h : g.next = .ok r) :
    g.nextB .wrapping = .ok r := by
  have := Res.Le.lwgNextB g
  rw [lwgNextB_checked, h] at this
  exact this _ rfl

theorem prel_worker : PRel mworker relWorker := by
  unfold mworker relWorker
  refine .acq <| .act fun a b a' hr hg => ?_
  beta_reduce at hg
  cases hv : a.iter.next with
  | error e => rw [hv] at hg; cases hg
  | ok r =>
    obtain ⟨o, it⟩ := r
    rw [hv] at hg
    injection hg with hg; subst hg
    have hn := nextB_ok hv
    refine ⟨{ b with iter := it }, by rw [hr.iter, hn]; rfl,
      ⟨rfl, hr.num, hr.bwtWin, hr.bbwtWin, hr.tie, hr.bestBwt, hr.bestBbwt, hr.bestText, hr.total, hr.out⟩, .rel ?_⟩
    rw [hr.iter, hn]
    cases o with
    | none => rfl
    | some w => exact prel_processWord w

/-- One step of both. -/
theorem prel_step {a b a' : MShared} {lk lk' : MLock → Holds} {p p' q : MProg} (hp : PRel p q) (hr : SRel a b)
    (h : Prog.step mworker (a, lk, p) = some (a', lk', p')) (hnp : p' ≠ .panic) :
    ∃ b' q', Prog.step relWorker (b, lk, q) = some (b', lk', q') ∧ SRel a' b' ∧ PRel p' q' := by
  match p with
  | .acq l w k =>
    obtain ⟨k', rfl, hk⟩ := hp
    cases w <;> simp only [Prog.step] at h ⊢ <;> split at h
    · rename_i hc; injection h with h; cases h; rw [if_pos hc]; exact ⟨_, _, rfl, hr, hk⟩
    · cases h
    · rename_i hc; injection h with h; cases h; rw [if_pos hc]; exact ⟨_, _, rfl, hr, hk⟩
    · cases h
  | .rel l w k =>
    obtain ⟨k', rfl, hk⟩ := hp
    cases w <;> simp only [Prog.step] at h ⊢ <;> injection h with h <;> cases h <;> exact ⟨_, _, rfl, hr, hk⟩
  | .act g k =>
    obtain ⟨g', k', rfl, hk⟩ := hp
    simp only [Prog.step] at h ⊢
    cases hg : g a with
    | error e => rw [hg] at h; injection h with h; cases h; exact absurd rfl hnp
    | ok s =>
      rw [hg] at h; injection h with h; cases h
      obtain ⟨b', h1, h2, h3⟩ := hk a b _ hr hg
      rw [h1]
      exact ⟨_, _, rfl, h2, h3⟩
  | .again =>
    obtain rfl : q = .again := hp
    injection h with h; cases h
    exact ⟨_, _, rfl, hr, prel_worker⟩
  | .stop => cases h
  | .panic => cases h

theorem prel_none {a b : MShared} {lk : MLock → Holds} {p q : MProg} (hp : PRel p q) (hnp : p ≠ .panic)
    (h : Prog.step mworker (a, lk, p) = none) : Prog.step relWorker (b, lk, q) = none := by
  match p with
  | .acq l w k =>
    obtain ⟨k', rfl, hk⟩ := hp
    cases w <;> simp only [Prog.step] at h ⊢ <;> split at h
    · cases h
    · rename_i hc; rw [if_neg hc]
    · cases h
    · rename_i hc; rw [if_neg hc]
  | .rel l w k => cases w <;> simp [Prog.step] at h
  | .act g k => simp only [Prog.step] at h; split at h <;> cases h
  | .again => cases h
  | .stop => obtain rfl : q = .stop := hp; rfl
  | .panic => exact absurd rfl hnp

variable {T : Nat} {ws : List (List Nat)}

structure TRel (a b : MState T) : Prop where
  sh : SRel a.sh b.sh
  locks : b.locks = a.locks
  prog : ∀ t, PRel (a.prog t) (b.prog t)

theorem free_noPanic (hws : ∀ w ∈ ws, w ≠ [] ∧ w.length ≤ MAXW)
    (hy : Yields LyndonWordGenerator.next (LyndonWordGenerator.new MAXW 2) ws) {st : MState T} (h : FreeReachable st) (t : Fin T) :
    st.prog t ≠ .panic := fun e => by
  obtain ⟨H, K, g⟩ := max_ginv hws hy h
  have := g.safe t
  rw [e] at this
  exact this

theorem rel_stepOf (hws : ∀ w ∈ ws, w ≠ [] ∧ w.length ≤ MAXW)
    (hy : Yields LyndonWordGenerator.next (LyndonWordGenerator.new MAXW 2) ws) {a b : MState T} (ha : FreeReachable a)
    (h : TRel a b) (t : Fin T) :
    (∀ a', a.stepOf mworker t = some a' → ∃ b', b.stepOf relWorker t = some b' ∧ TRel a' b') ∧
    (a.stepOf mworker t = none → b.stepOf relWorker t = none) := by
  constructor
  · intro a' hs
    have hnp := free_noPanic hws hy (ha.tail ⟨t, hs⟩) t
    simp only [TState.stepOf] at hs ⊢
    cases hc : Prog.step mworker (a.sh, a.locks, a.prog t) with
    | none => rw [hc] at hs; cases hs
    | some c =>
      obtain ⟨x, lk, p⟩ := c
      rw [hc] at hs
      injection hs with hs; subst hs
      simp only [Function.update_self] at hnp
      obtain ⟨y, q, h1, h2, h3⟩ := prel_step (h.prog t) h.sh hc hnp
      rw [h.locks, h1]
      refine ⟨_, rfl, h2, rfl, fun u => ?_⟩
      by_cases hu : u = t
      · subst hu; simpa using h3
      · simpa [hu] using h.prog u
  · intro hs
    simp only [TState.stepOf] at hs ⊢
    cases hc : Prog.step mworker (a.sh, a.locks, a.prog t) with
    | some c => rw [hc] at hs; cases hs
    | none => rw [h.locks, prel_none (h.prog t) (free_noPanic hws hy ha t) hc]

theorem rel_back (hws : ∀ w ∈ ws, w ≠ [] ∧ w.length ≤ MAXW)
    (hy : Yields LyndonWordGenerator.next (LyndonWordGenerator.new MAXW 2) ws) {b0 b : MState T}
    (hs : Relation.ReflTransGen (TState.Step relWorker) b0 b) : ∀ {a0 : MState T}, FreeReachable a0 → TRel a0 b0 →
    ∃ a, Steps a0 a ∧ TRel a b := by
  induction hs with
  | refl => intro a0 _ h; exact ⟨a0, .refl, h⟩
  | tail _ hs ih =>
    intro a0 h0 h
    obtain ⟨a, h1, h2⟩ := ih h0 h
    obtain ⟨t, ht⟩ := hs
    have ha : FreeReachable a := h0.trans h1
    obtain ⟨g1, g2⟩ := rel_stepOf hws hy ha h2 t
    cases hc : a.stepOf mworker t with
    | none => rw [g2 hc] at ht; cases ht
    | some a' =>
      obtain ⟨b', h3, h4⟩ := g1 a' hc
      rw [ht] at h3
      injection h3 with h3; subst h3
      exact ⟨a', h1.tail ⟨t, hc⟩, h4⟩

theorem rel_forth (hws : ∀ w ∈ ws, w ≠ [] ∧ w.length ≤ MAXW)
    (hy : Yields LyndonWordGenerator.next (LyndonWordGenerator.new MAXW 2) ws) {a0 a : MState T}
    (hs : Steps a0 a) : ∀ {b0 : MState T}, FreeReachable a0 → TRel a0 b0 →
    ∃ b, Relation.ReflTransGen (TState.Step relWorker) b0 b ∧ TRel a b := by
  induction hs with
  | refl => intro b0 _ h; exact ⟨b0, .refl, h⟩
  | tail hab hs ih =>
    intro b0 h0 h
    obtain ⟨b, h1, h2⟩ := ih h0 h
    obtain ⟨t, ht⟩ := hs
    obtain ⟨b', h3, h4⟩ := (rel_stepOf hws hy (h0.trans hab) h2 t).1 _ ht
    exact ⟨b', h1.tail ⟨t, h3⟩, h4⟩

theorem trel_init : TRel (TState.init mworker MShared.init : MState T) (TState.init relWorker MShared.init) :=
  ⟨srel_init, rfl, fun _ => prel_worker⟩

theorem rel_down (hws : ∀ w ∈ ws, w ≠ [] ∧ w.length ≤ MAXW)
    (hy : Yields LyndonWordGenerator.next (LyndonWordGenerator.new MAXW 2) ws) {b : MState T} (h : RelReachable b) :
    ∃ a, FreeReachable a ∧ TRel a b := rel_back hws hy h .refl trel_init

theorem rel_up (hws : ∀ w ∈ ws, w ≠ [] ∧ w.length ≤ MAXW)
    (hy : Yields LyndonWordGenerator.next (LyndonWordGenerator.new MAXW 2) ws) {a : MState T} (h : FreeReachable a) :
    ∃ b, RelReachable b ∧ TRel a b := rel_forth hws hy h .refl trel_init

end Verif.Max
