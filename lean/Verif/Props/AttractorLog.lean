import Verif.Props.AttractorReport
import Verif.Props.CliCommands
import Verif.Lemmas.TreeSize

/-! # C129: the log of `is_stringattractor` is the suffix tree

`IsSuffixTree`, `PostOrder` and `throughFirst` are in `Verif/Spec/SuffixTree.lean`. -/

namespace Verif.Props

open Verif Spec Model

/-- The log line of a node: the length of its word, and the first and the last entry of its interval. -/
def nodeLine (depth first last : Nat) : Message :=
  (.info, ascii "LCPInterval { depth: " ++ decimal depth ++ ascii ", begin: " ++ decimal first ++ ascii ", end: " ++ decimal last ++
    ascii " }")

/-- C129: logging changes neither the exit status nor the output of `is_stringattractor`, at no level and for no input. -/
theorem C129_logging_is_harmless (level : Nat) (sufsort : List UInt8 → List Nat) (positions : List Nat) (inn : Option String) (p : Nat)
    (stdin : List UInt8) (w : World) :
    (isStringattractorL level sufsort positions inn p stdin w).2 = isStringattractorRun sufsort positions inn p stdin w := by
  rw [isStringattractorL, isStringattractorRun, LogR.bind_snd, logR_snd, ok_bind, LogR.bind_snd, quiet_snd]
  congr 1
  funext input
  dsimp only
  rw [LogR.ite_snd]
  split
  · rfl
  · rw [LogR.bind_snd, attractorReportL_snd]
    congr 1
    funext r
    rw [LogR.ite_snd]
    rfl

/-- C129: there is one list of the edges of the suffix tree in postorder. -/
theorem C129_one_tree (T : List UInt8) (sa : List Nat) (L L' : List (TreeEdge UInt8)) (h : IsSuffixTree T sa L) (p : PostOrder L)
    (h' : IsSuffixTree T sa L') (p' : PostOrder L') : L = L' := suffixTree_unique h h' p p'

open Classical in
/-- C129: for every zero-free text, with the info level on, `is_stringattractor` logs the prefix length and then one line for every edge of
the suffix tree of the text, in postorder, up to the first whose stem is uncovered and not UTF-8, at which it panics.  If there is no such
edge, a last line names the root as the interval of the empty suffix, and the substrings printed are the uncovered stems in this order.
If a position lies behind the sentinel there is only the line with the prefix length. -/
theorem C129_log (level : Nat) (h3 : 3 ≤ level) (sufsort : List UInt8 → List Nat) (hs : SortsSuffixes sufsort) (positions : List Nat)
    (inn : Option String) (p : Nat) (stdin : List UInt8) (w : World) (T : List UInt8) (hin : Input inn p stdin w T) (hT : ∀ x ∈ T, x ≠ 0)
    (hlen : T.length < 2147483647) :
    ((∃ x ∈ positions, T.length < x) → isStringattractorL level sufsort positions inn p stdin w =
      ([(.info, ascii "prefixlength: " ++ decimal p)], .ok (1, []))) ∧
    ((∀ x ∈ positions, x ≤ T.length) → ∃ sa L, IsSuffixArray (T ++ [0]) sa ∧ IsSuffixTree T sa L ∧ PostOrder L ∧
      isStringattractorL level sufsort positions inn p stdin w =
        if ∃ x ∈ L, Uncovered T positions x.stem ∧ ¬ IsUtf8 x.stem then
          ((.info, ascii "prefixlength: " ++ decimal p) ::
            (throughFirst (fun x => Uncovered T positions x.stem ∧ ¬ IsUtf8 x.stem) L).map
              (fun x => nodeLine x.lower.length x.first x.last), .error .unwrap)
        else
          ((.info, ascii "prefixlength: " ++ decimal p) :: L.map (fun x => nodeLine x.lower.length x.first x.last) ++
            [nodeLine 0 0 T.length],
           .ok (if (∀ x ∈ L, ¬ Uncovered T positions x.stem) ∧ positions ≠ [] then (0, ascii "valid attractor\n") else
            (2, ((L.filter (fun x => decide (Uncovered T positions x.stem))).flatMap fun x =>
                ascii "substring '" ++ x.stem ++ ascii "' not covered!\n") ++
              (if positions = [] then ascii "substring '" ++ [0] ++ ascii "' not covered!\n" else []) ++
              ascii "not a valid attractor\n")))) := by
  have hr := readVector_input hin
  have hlog : ∀ m, logMsg level .info m = [(.info, m)] := by
    intro m
    simp [logMsg, Level.rank, h3]
  have hpre : ∀ (P : LogR (Nat × List UInt8)), (logR level .info (ascii "prefixlength: " ++ decimal p) >>= fun _ => P) =
      ((.info, ascii "prefixlength: " ++ decimal p) :: P.1, P.2) := by
    intro P
    show (logMsg level .info _ ++ P.1, P.2) = _
    rw [hlog]; rfl
  have hq : ∀ (f : List UInt8 → LogR (Nat × List UInt8)), (quiet (readVector inn p stdin w) >>= f) = f T := by
    intro f
    rw [hr]; rfl
  rw [isStringattractorL, hpre, hq]
  dsimp only
  constructor
  · rintro ⟨x, h1, h2⟩
    rw [if_pos]
    · rfl
    · rw [List.any_eq_true]
      exact ⟨x, h1, by simp; omega⟩
  · intro hp
    have hany : ¬ positions.any (fun p => decide (p ≥ (T ++ [(0 : UInt8)]).length)) = true := by
      rw [List.any_eq_true]
      rintro ⟨p, h1, h2⟩
      have := hp p h1
      simp at h2
      omega
    obtain ⟨L, l1, l2, l3⟩ := attractorReportL_run level hs hT hlen hp
    refine ⟨_, L, hs (T ++ [0]) (by simp; omega), l1, l2, ?_⟩
    rw [if_neg hany, l3]
    have hm : ∀ L : List (TreeEdge UInt8), L.flatMap (intervalMsgs level) = L.map (fun x => nodeLine x.lower.length x.first x.last) := by
      intro L
      induction L with
      | nil => rfl
      | cons x L ih =>
        rw [List.flatMap_cons, List.map_cons, ih, intervalMsgs, hlog]
        rfl
    split
    · rw [hm]
      rfl
    · rw [hm, hlog]
      by_cases hv : (∀ x ∈ L, ¬ Uncovered T positions x.stem) ∧ positions ≠ []
      · rw [if_pos hv]
        have hf : L.filter (fun x => decide (Uncovered T positions x.stem)) = [] := by
          rw [List.filter_eq_nil_iff]
          intro x hx
          simpa using hv.1 x hx
        rw [hf, if_neg hv.2, decide_eq_true hv]
        refine Prod.ext ?_ rfl
        show _ :: ((_ ++ _) ++ []) = _
        rw [List.append_nil]
        rfl
      · rw [if_neg hv, decide_eq_false hv]
        refine Prod.ext ?_ ?_
        · show _ :: ((_ ++ _) ++ []) = _
          rw [List.append_nil]
          rfl
        · show Except.ok (2, _) = _
          congr 2
          dsimp only
          rw [List.flatMap_append, List.flatMap_map]
          congr 2
          split <;> rfl

example (w : World) := C129_log 3 (by decide) naiveSufsort naiveSufsort_sorts [2] none 0 [97, 98, 97, 97, 98] w [97, 98, 97, 97, 98]
  ⟨by decide, rfl⟩ (by decide) (by decide)

/-- Concrete case: the log on the file `aab`. -/
example : exampleWorld.files "f" = some [97, 97, 98] ∧
    (isStringattractorL 3 naiveSufsort [1] (some "f") 0 [] exampleWorld).1 =
      [(.info, ascii "prefixlength: 0"), nodeLine 3 1 1, nodeLine 2 2 2, nodeLine 1 1 2, nodeLine 1 3 3, nodeLine 0 0 3] := by
  decide +kernel

example : nodeLine 3 1 1 = (.info, ascii "LCPInterval { depth: 3, begin: 1, end: 1 }") := by decide +kernel

/-- C129: the suffix tree of a non-empty text has at least as many edges as the text has letters and less than twice as many. -/
theorem C129_size (T : List UInt8) (h0 : T ≠ []) (hT : ∀ x ∈ T, x ≠ 0) (sa : List Nat) (hs : IsSuffixArray (T ++ [0]) sa)
    (L : List (TreeEdge UInt8)) (h : IsSuffixTree T sa L) : T.length ≤ L.length ∧ L.length < 2 * T.length :=
  ⟨tree_lower_bound h, (tree_upper_bound h hT hs).resolve_right h0⟩

theorem throughFirst_length_le {α : Type} (p : α → Prop) [DecidablePred p] (L : List α) : (throughFirst p L).length ≤ L.length := by
  induction L with
  | nil => exact le_rfl
  | cons x L ih =>
    rw [throughFirst]
    split
    · simp
    · simpa using ih

/-- C129: so the log of `is_stringattractor` on a non-empty text of `n` letters never has more than `2n + 1` lines, and at least `n + 2` if
the program reports a verdict. -/
theorem C129_log_size (level : Nat) (h3 : 3 ≤ level) (sufsort : List UInt8 → List Nat) (hs : SortsSuffixes sufsort) (positions : List Nat)
    (inn : Option String) (p : Nat) (stdin : List UInt8) (w : World) (T : List UInt8) (hin : Input inn p stdin w T) (h0 : T ≠ [])
    (hT : ∀ x ∈ T, x ≠ 0) (hlen : T.length < 2147483647) :
    (isStringattractorL level sufsort positions inn p stdin w).1.length ≤ 2 * T.length + 1 ∧
      ((∀ x ∈ positions, x ≤ T.length) → (∃ r, isStringattractorRun sufsort positions inn p stdin w = .ok r) →
        T.length + 2 ≤ (isStringattractorL level sufsort positions inn p stdin w).1.length) := by
  classical
  obtain ⟨c1, c2⟩ := C129_log level h3 sufsort hs positions inn p stdin w T hin hT hlen
  have hpos : 0 < T.length := List.length_pos_iff.2 h0
  by_cases hp : ∀ x ∈ positions, x ≤ T.length
  · obtain ⟨sa, L, g1, g2, g3, g4⟩ := c2 hp
    obtain ⟨b1, b2⟩ := C129_size T h0 hT sa g1 L g2
    rw [← C129_logging_is_harmless level, g4]
    split
    · refine ⟨?_, fun _ hr => ?_⟩
      · have := throughFirst_length_le (fun x : TreeEdge UInt8 => Uncovered T positions x.stem ∧ ¬ IsUtf8 x.stem) L
        simp only [List.length_cons, List.length_map]
        omega
      · obtain ⟨r, hr⟩ := hr
        cases hr
    · simp only [List.length_append, List.length_cons, List.length_map, List.length_nil]
      exact ⟨by omega, fun _ _ => by omega⟩
  · obtain ⟨x, hx⟩ := not_forall.1 hp
    obtain ⟨hx, hlt⟩ := Classical.not_imp.1 hx
    rw [c1 ⟨x, hx, by omega⟩]
    exact ⟨by simp, fun hp' => absurd hp' hp⟩

example (w : World) := C129_log_size 3 (by decide) naiveSufsort naiveSufsort_sorts [2] none 0 [97, 98, 97, 97, 98] w [97, 98, 97, 97, 98]
  ⟨by decide, rfl⟩ (by decide) (by decide) (by decide)

end Verif.Props
