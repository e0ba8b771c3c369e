import Verif.Model.AttractorLog
import Verif.Lemmas.SuffixTree
import Verif.Lemmas.ToolLogs
import Verif.Lemmas.Utf8

/-! # The run of `is_attractor` with its messages -/

namespace Verif

open Spec Model

theorem forEachL_snd {β σ : Type} {body : β → σ → LogR σ} {body' : β → σ → Res σ} (h : ∀ x s, (body x s).2 = body' x s) :
    ∀ (l : List β) (s : σ), (forEachL l s body).2 = forEach l s body'
  | [], _ => rfl
  | x :: l, s => by
    rw [forEachL, LogR.bind_snd, h]
    rw [show forEach (x :: l) s body' = body' x s >>= fun s => forEach l s body' from by simp [forEach]]
    congr 1
    funext s'
    exact forEachL_snd h l s'

theorem checkEdgeL_snd (level : Nat) (text : List UInt8) (sa d : List Nat) (nodes : List LCPInterval) (e : SuffixEdge)
    (st : Bool × List (List UInt8)) : (checkEdgeL level text sa d nodes e st).2 = checkEdge text sa d nodes e st := by
  rw [checkEdgeL, LogR.bind_snd, quiet_snd]
  rw [checkEdge]
  cases hc : rd nodes e.child with
  | error x =>
    cases hp : rd nodes e.parent with
    | error y =>
      rw [rd] at hc hp
      split at hc <;> split at hp <;> simp_all [bind, Except.bind]
    | ok y => rfl
  | ok c =>
    rw [ok_bind, LogR.bind_snd, logR_snd, ok_bind, quiet_snd]

theorem attractorReportL_snd (level : Nat) (sufsort : List UInt8 → List Nat) (text : List UInt8) (attr : List Nat) :
    (attractorReportL level sufsort text attr).2 = attractorReport sufsort text attr := by
  rw [attractorReportL, attractorReport]
  simp only [LogR.bind_snd, quiet_snd]
  congr 1; funext _
  simp only [forEachL_snd (fun e st => checkEdgeL_snd level text _ _ _ e st)]
  cases text.getLast? <;> rfl

/-- the message of an interval -/
def intervalMsgs (level : Nat) (x : TreeEdge UInt8) : List Message :=
  logMsg level .info (intervalText ⟨x.lower.length, x.first, x.last⟩)

open Classical in
theorem edges_run (level : Nat) {T : List UInt8} {sa d : List Nat} {nodes : List LCPInterval} {attr : List Nat} {S : List UInt8} :
    ∀ (E : List SuffixEdge)
      (_ : ∀ e ∈ E, e.child < nodes.length ∧ sa.getD (ndAt nodes e.child).begin 0 + (ndAt nodes e.child).depth ≤ T.length)
      (_ : ∀ e ∈ E, ∀ st, (¬ Uncovered T attr (treeEdge T sa nodes e).stem ∧ checkEdge S sa d nodes e st = .ok st) ∨
        (Uncovered T attr (treeEdge T sa nodes e).stem ∧ checkEdge S sa d nodes e st =
            if utf8Valid (treeEdge T sa nodes e).stem then .ok (false, st.2 ++ [(treeEdge T sa nodes e).stem]) else .error .unwrap))
      (rest : List SuffixEdge) (st : Bool × List (List UInt8)),
      forEachL (E ++ rest) st (checkEdgeL level S sa d nodes) =
        if ∃ x ∈ E.map (treeEdge T sa nodes), Uncovered T attr x.stem ∧ ¬ IsUtf8 x.stem then
          ((throughFirst (fun x => Uncovered T attr x.stem ∧ ¬ IsUtf8 x.stem) (E.map (treeEdge T sa nodes))).flatMap
            (intervalMsgs level), .error .unwrap)
        else
          ((E.map (treeEdge T sa nodes)).flatMap (intervalMsgs level) ++
            (forEachL rest (st.1 && decide (∀ x ∈ E.map (treeEdge T sa nodes), ¬ Uncovered T attr x.stem),
              st.2 ++ ((E.map (treeEdge T sa nodes)).filter (fun x => decide (Uncovered T attr x.stem))).map TreeEdge.stem)
              (checkEdgeL level S sa d nodes)).1,
           (forEachL rest (st.1 && decide (∀ x ∈ E.map (treeEdge T sa nodes), ¬ Uncovered T attr x.stem),
              st.2 ++ ((E.map (treeEdge T sa nodes)).filter (fun x => decide (Uncovered T attr x.stem))).map TreeEdge.stem)
              (checkEdgeL level S sa d nodes)).2)
  | [], _, _, rest, st => by
    rw [if_neg (by simp)]
    simp
    rfl
  | e :: E, hb, hc, rest, st => by
    have ih := edges_run level (T := T) (sa := sa) (d := d) (nodes := nodes) (attr := attr) (S := S) E
      (fun e he => hb e (List.mem_cons_of_mem _ he)) (fun e he => hc e (List.mem_cons_of_mem _ he)) rest
    obtain ⟨b1, b2⟩ := hb e (by simp)
    have hrd : rd nodes e.child = .ok (ndAt nodes e.child) := by
      rw [rd, ndAt]
      simp [b1]
    have hmsg : logMsg level .info (intervalText (ndAt nodes e.child)) = intervalMsgs level (treeEdge T sa nodes e) := by
      rw [intervalMsgs]
      congr 2
      rw [treeEdge]
      dsimp only
      rw [List.length_take, List.length_drop, Nat.min_eq_left (by omega)]
    have hck : checkEdgeL level S sa d nodes e st =
        (intervalMsgs level (treeEdge T sa nodes e), checkEdge S sa d nodes e st) := by
      apply Prod.ext
      · rw [checkEdgeL, quiet_bind_fst hrd, logR_bind_fst, quiet_fst, List.append_nil, hmsg]
      · exact checkEdgeL_snd level S sa d nodes e st
    rw [List.cons_append, forEachL, hck, List.map_cons]
    set x := treeEdge T sa nodes e with hx
    have hbind : ∀ (m : List Message) (s : Bool × List (List UInt8)) (f : Bool × List (List UInt8) → LogR (Bool × List (List UInt8))),
        Bind.bind (m := LogR) (m, .ok s) f = (m ++ (f s).1, (f s).2) := fun _ _ _ => rfl
    rcases hc e (by simp) st with ⟨c1, c2⟩ | ⟨c1, c2⟩
    · rw [c2, hbind, ih]
      have hx1 : ¬ (Uncovered T attr x.stem ∧ ¬ IsUtf8 x.stem) := fun h => c1 h.1
      by_cases hex : ∃ y ∈ E.map (treeEdge T sa nodes), Uncovered T attr y.stem ∧ ¬ IsUtf8 y.stem
      · rw [if_pos hex, if_pos (by obtain ⟨y, hy, h⟩ := hex; exact ⟨y, List.mem_cons_of_mem _ hy, h⟩)]
        rw [throughFirst, if_neg hx1, List.flatMap_cons]
      · rw [if_neg hex, if_neg (by
          rintro ⟨y, hy, h⟩
          rcases List.mem_cons.1 hy with rfl | hy
          · exact hx1 h
          · exact hex ⟨y, hy, h⟩)]
        rw [List.flatMap_cons, List.filter_cons_of_neg (by simpa using c1)]
        have hd : decide (∀ y ∈ x :: E.map (treeEdge T sa nodes), ¬ Uncovered T attr y.stem) =
            decide (∀ y ∈ E.map (treeEdge T sa nodes), ¬ Uncovered T attr y.stem) := by
          rw [decide_eq_decide]
          simp only [List.mem_cons, forall_eq_or_imp, and_iff_right_iff_imp]
          exact fun _ => c1
        rw [hd, List.append_assoc]
    · by_cases hu : utf8Valid x.stem = true
      · rw [c2, if_pos hu, hbind, ih]
        have hx1 : ¬ (Uncovered T attr x.stem ∧ ¬ IsUtf8 x.stem) := fun h => h.2 ((utf8Valid_iff _).1 hu)
        by_cases hex : ∃ y ∈ E.map (treeEdge T sa nodes), Uncovered T attr y.stem ∧ ¬ IsUtf8 y.stem
        · rw [if_pos hex, if_pos (by obtain ⟨y, hy, h⟩ := hex; exact ⟨y, List.mem_cons_of_mem _ hy, h⟩)]
          rw [throughFirst, if_neg hx1, List.flatMap_cons]
        · rw [if_neg hex, if_neg (by
            rintro ⟨y, hy, h⟩
            rcases List.mem_cons.1 hy with rfl | hy
            · exact hx1 h
            · exact hex ⟨y, hy, h⟩)]
          rw [List.flatMap_cons, List.filter_cons_of_pos (by simpa using c1)]
          have hd : (st.1 && decide (∀ y ∈ x :: E.map (treeEdge T sa nodes), ¬ Uncovered T attr y.stem)) = false := by
            rw [decide_eq_false (by intro h; exact h x (by simp) c1), Bool.and_false]
          rw [hd, List.append_assoc, Bool.false_and, List.map_cons, List.append_assoc, List.singleton_append]
      · have hx1 : Uncovered T attr x.stem ∧ ¬ IsUtf8 x.stem := ⟨c1, fun h => hu ((utf8Valid_iff _).2 h)⟩
        rw [c2, if_neg hu, if_pos ⟨x, by simp, hx1⟩, throughFirst, if_pos hx1]
        simp only [List.flatMap_cons, List.flatMap_nil, List.append_nil]
        rfl

open Classical in
theorem attractorReportL_run (level : Nat) {sufsort : List UInt8 → List Nat} (hsort : SortsSuffixes sufsort)
    {T : List UInt8} (hT : ∀ x ∈ T, x ≠ 0) (hlen : T.length < 2147483647) {attr : List Nat}
    (hattr : ∀ p ∈ attr, p ≤ T.length) :
    ∃ L, IsSuffixTree T (sufsort (T ++ [0])) L ∧ PostOrder L ∧ attractorReportL level sufsort (T ++ [0]) attr =
      if ∃ x ∈ L, Uncovered T attr x.stem ∧ ¬ IsUtf8 x.stem then
        ((throughFirst (fun x => Uncovered T attr x.stem ∧ ¬ IsUtf8 x.stem) L).flatMap (intervalMsgs level), .error .unwrap)
      else (L.flatMap (intervalMsgs level) ++ logMsg level .info (intervalText ⟨0, 0, T.length⟩),
        .ok (decide ((∀ x ∈ L, ¬ Uncovered T attr x.stem) ∧ attr ≠ []),
          (L.filter (fun x => decide (Uncovered T attr x.stem))).map TreeEdge.stem ++ (if attr = [] then [[0]] else []))) := by
  obtain ⟨phi, plcp, lcp, nodes, E, lbl, bits, d, s1, s2, s3, s4, s5, s6, s7, s8, F, hpo, hn, h1, -, hE, hlast⟩ :=
    attractor_steps hsort hT hlen hattr
  refine ⟨E.map (treeEdge T (sufsort (T ++ [0])) nodes), F.tree, hpo, ?_⟩
  have key : attractorReportL level sufsort (T ++ [0]) attr =
      forEachL (E ++ [⟨0, lbl, 1⟩]) (true, []) (checkEdgeL level (T ++ [0]) (sufsort (T ++ [0])) d nodes) := by
    have q : ∀ {β : Type} {r : Res β} {a : β} (_ : r = .ok a) (f : β → LogR (Bool × List (List UInt8))), (quiet r >>= f) = f a := by
      rintro β r a rfl f
      rfl
    rw [attractorReportL]
    dsimp only
    rw [q s1]
    rw [show (T ++ [(0 : UInt8)]).getLast? = some 0 by simp]
    dsimp only
    rw [q (show assertR (decide ((0 : UInt8) = 0)) = .ok () from rfl)]
    rw [q s2, q s3, q s4, q s5, q s6, q s7, q s8]
  rw [key, edges_run level E (fun e he => ⟨(F.bound e he).2.1, (F.bound e he).2.2.1⟩) hE]
  split
  · rfl
  · have hrd : rd nodes 1 = .ok ⟨0, 0, T.length⟩ := by
      rw [← h1, rd, ndAt]
      simp [show 1 < nodes.length by omega]
    have hck : ∀ st, forEachL [(⟨0, lbl, 1⟩ : SuffixEdge)] st (checkEdgeL level (T ++ [0]) (sufsort (T ++ [0])) d nodes) =
        (logMsg level .info (intervalText ⟨0, 0, T.length⟩), if attr = [] then .ok (false, st.2 ++ [[0]]) else .ok st) := by
      intro st
      have h0 : (checkEdgeL level (T ++ [0]) (sufsort (T ++ [0])) d nodes ⟨0, lbl, 1⟩ st).1 =
          logMsg level .info (intervalText ⟨0, 0, T.length⟩) := by
        rw [checkEdgeL, quiet_bind_fst hrd, logR_bind_fst, quiet_fst, List.append_nil]
      have h2 : (checkEdgeL level (T ++ [0]) (sufsort (T ++ [0])) d nodes ⟨0, lbl, 1⟩ st).2 =
          if attr = [] then .ok (false, st.2 ++ [[0]]) else .ok st := by
        rw [checkEdgeL_snd, hlast]
      rw [forEachL]
      by_cases ha : attr = []
      · rw [if_pos ha] at h2 ⊢
        apply Prod.ext
        · rw [LogR.bind_fst_ok h2, h0]; simp [forEachL, LogR.pure_fst]
        · rw [LogR.bind_snd, h2]; rfl
      · rw [if_neg ha] at h2 ⊢
        apply Prod.ext
        · rw [LogR.bind_fst_ok h2, h0]; simp [forEachL, LogR.pure_fst]
        · rw [LogR.bind_snd, h2]; rfl
    rw [hck]
    apply Prod.ext
    · rfl
    · dsimp only
      by_cases ha : attr = [] <;> simp [ha]

end Verif
