import Verif.Lemmas.Utf8
import Verif.Lemmas.AttractorLog
import Verif.Props.Mains

/-! # C83: what `is_stringattractor` prints

`Uncovered T positions v` (`v` is a non-empty substring of `T` none of whose occurrences contains a position) is in
`Verif/Spec/Attractor.lean`, `Forks` in `Verif/Spec/SuffixTree.lean`, `IsUtf8` in `Verif/Spec/Utf8.lean`. -/

namespace Verif.Props

open Verif Spec Model

theorem isUtf8_zero : IsUtf8 [0] := (utf8Valid_iff _).1 (by decide)

/-- every uncovered substring starts with one at which the text forks -/
theorem uncovered_fork {T : List UInt8} {positions : List Nat} {u : List UInt8} (hu : Uncovered T positions u) :
    ∃ v, v <+: u ∧ Uncovered T positions v ∧ ∃ w a, v = w ++ [a] ∧ Forks T w a := by
  induction u using List.reverseRecOn with
  | nil => exact absurd rfl hu.1
  | append_singleton w a ih =>
    by_cases hf : Forks T w a
    · exact ⟨w ++ [a], List.prefix_refl _, hu, w, a, rfl, hf⟩
    · have hall : ∀ j, OccursAt w T j → OccursAt (w ++ [a]) T j := by
        intro j hj
        by_contra hn
        exact hf ⟨hu.2.1, j, hj, hn⟩
      have hw : w ≠ [] := by
        rintro rfl
        have := (hall T.length ⟨by simp, by simp⟩).1
        simp at this
      obtain ⟨v, h1, h2⟩ := ih ⟨hw, (List.prefix_append w [a]).isInfix.trans hu.2.1, fun j hj p hp hc =>
        hu.2.2 j (hall j hj) p hp ⟨hc.1, by rw [List.length_append, List.length_singleton]; omega⟩⟩
      exact ⟨v, h1.trans (List.prefix_append _ _), h2⟩

/-- C83: for every zero-free text and all positions up to the sentinel, the substrings `is_attractor` names are exactly the uncovered
substrings `u a` at which the text forks (it contains `u a`, and another occurrence of `u` goes on differently or ends the text), each
once; every uncovered substring starts with one of them (and, only if there is no position at all, the sentinel is named after them).
If all of them are UTF-8, the function ends and returns whether it named none; otherwise it panics while printing the first one that is
not. -/
theorem C83_reported_substrings (sufsort : List UInt8 → List Nat) (hs : SortsSuffixes sufsort)
    (T : List UInt8) (hT : ∀ x ∈ T, x ≠ 0) (hlen : T.length < 2147483647)
    (positions : List Nat) (hp : ∀ p ∈ positions, p ≤ T.length) :
    ∃ bad : List (List UInt8), (∀ v, v ∈ bad ↔ Uncovered T positions v ∧ ∃ u a, v = u ++ [a] ∧ Forks T u a) ∧ bad.Nodup ∧
      (∀ u, Uncovered T positions u → ∃ v ∈ bad, v <+: u) ∧
      ((∀ v ∈ bad, IsUtf8 v) → attractorReport sufsort (T ++ [0]) positions =
        .ok (decide (bad = [] ∧ positions ≠ []), bad ++ (if positions = [] then [[0]] else []))) ∧
      ((∃ v ∈ bad, ¬ IsUtf8 v) → attractorReport sufsort (T ++ [0]) positions = .error .unwrap) := by
  classical
  obtain ⟨L, l1, -, l3⟩ := attractorReportL_run 0 hs hT hlen hp
  have hrun := congrArg Prod.snd l3
  rw [attractorReportL_snd] at hrun
  have hmem : ∀ v, v ∈ (L.filter (fun x => decide (Uncovered T positions x.stem))).map TreeEdge.stem ↔
      Uncovered T positions v ∧ ∃ u a, v = u ++ [a] ∧ Forks T u a := by
    intro v
    simp only [List.mem_map, List.mem_filter, decide_eq_true_eq]
    constructor
    · rintro ⟨x, ⟨hx, hu⟩, rfl⟩
      exact ⟨hu, x.upper, x.letter, rfl, (l1.forks _ _).1 ⟨x, hx, rfl, rfl⟩⟩
    · rintro ⟨hu, u, a, rfl, hf⟩
      obtain ⟨x, hx, rfl, rfl⟩ := (l1.forks u a).2 hf
      exact ⟨x, ⟨hx, hu⟩, rfl⟩
  have hbad : (∃ x ∈ L, Uncovered T positions x.stem ∧ ¬ IsUtf8 x.stem) ↔
      ∃ v ∈ (L.filter (fun x => decide (Uncovered T positions x.stem))).map TreeEdge.stem, ¬ IsUtf8 v := by
    simp only [List.mem_map, List.mem_filter, decide_eq_true_eq]
    constructor
    · rintro ⟨x, hx, hu, hn⟩
      exact ⟨_, ⟨x, ⟨hx, hu⟩, rfl⟩, hn⟩
    · rintro ⟨_, ⟨x, ⟨hx, hu⟩, rfl⟩, hn⟩
      exact ⟨x, hx, hu, hn⟩
  refine ⟨_, hmem, ?_, ?_, fun hu => ?_, fun hu => ?_⟩
  · exact l1.once.sublist (List.filter_sublist.map _)
  · intro u hu
    obtain ⟨v, h1, h2, h3⟩ := uncovered_fork hu
    exact ⟨v, (hmem v).2 ⟨h2, h3⟩, h1⟩
  · rw [hrun, if_neg (by rw [hbad]; push Not; exact hu)]
    dsimp only
    congr 3
    simp [List.filter_eq_nil_iff]
  · rw [hrun, if_pos (hbad.2 hu)]

example := C83_reported_substrings naiveSufsort naiveSufsort_sorts [97, 98, 97, 97, 98] (by decide) (by decide) [2] (by decide)

/-- C83: so a panic of `is_attractor` shows an uncovered substring that is not UTF-8, and it answers exactly if all
the uncovered substrings are UTF-8. -/
theorem C83_panics (sufsort : List UInt8 → List Nat) (hs : SortsSuffixes sufsort)
    (T : List UInt8) (h0 : T ≠ []) (hT : ∀ x ∈ T, x ≠ 0) (hlen : T.length < 2147483647)
    (positions : List Nat) (hp : ∀ p ∈ positions, p ≤ T.length) :
    (∀ e, isAttractor sufsort (T ++ [0]) positions = .error e →
      e = .unwrap ∧ ∃ v, Uncovered T positions v ∧ ¬ IsUtf8 v) ∧
    ((∀ v, Uncovered T positions v → IsUtf8 v) →
      isAttractor sufsort (T ++ [0]) positions = .ok (open Classical in decide (IsAttractor T positions))) := by
  obtain ⟨bad, hb, -, h2, h3, h4⟩ := C83_reported_substrings sufsort hs T hT hlen positions hp
  have h1 : ∀ v ∈ bad, Uncovered T positions v := fun v hv => ((hb v).1 hv).1
  unfold isAttractor
  constructor
  · intro e he
    by_cases hu : ∀ v ∈ bad, IsUtf8 v
    · rw [h3 hu] at he; simp [ok_bind, pure_ok] at he
    · push Not at hu
      rw [h4 hu] at he
      obtain ⟨v, hv, hn⟩ := hu
      have : Panic.unwrap = e := by injection he
      exact ⟨this.symm, v, h1 v hv, hn⟩
  · intro hall
    rw [h3 (fun v hv => hall v (h1 v hv)), ok_bind, pure_ok]
    congr 1
    dsimp only
    rw [decide_eq_decide, isAttractor_iff_uncovered]
    constructor
    · rintro ⟨rfl, -⟩ v hv
      obtain ⟨x, hx, -⟩ := h2 v hv
      simp at hx
    · intro hno
      constructor
      · rw [List.eq_nil_iff_forall_not_mem]
        exact fun v hv => hno v (h1 v hv)
      · rintro rfl
        obtain ⟨c, T', rfl⟩ := List.exists_cons_of_ne_nil h0
        exact hno [c] ⟨by simp, ⟨[], T', by simp⟩, by simp⟩

example := C83_panics naiveSufsort naiveSufsort_sorts [97, 200, 97] (by decide) (by decide) (by decide) [0] (by decide)

/-- C83: the exit status and the exact output of the tool on a zero-free file: nothing and 1 if a position lies behind
the sentinel; otherwise one line per named substring, then the verdict, with status 0 or 2. -/
theorem C83_output (sufsort : List UInt8 → List Nat) (hs : SortsSuffixes sufsort) (i : String) (stdin : List UInt8)
    (w : World) (T : List UInt8) (hi : w.files i = some T) (hT : ∀ x ∈ T, x ≠ 0)
    (hlen : T.length < 2147483647) (positions : List Nat) :
    ((∃ p ∈ positions, T.length < p) → isStringattractorRun sufsort positions (some i) 0 stdin w = .ok (1, [])) ∧
    ((∀ p ∈ positions, p ≤ T.length) →
      ∃ bad : List (List UInt8), (∀ v, v ∈ bad ↔ Uncovered T positions v ∧ ∃ u a, v = u ++ [a] ∧ Forks T u a) ∧ bad.Nodup ∧
      (∀ u, Uncovered T positions u → ∃ v ∈ bad, v <+: u) ∧
      ((∀ v ∈ bad, IsUtf8 v) → isStringattractorRun sufsort positions (some i) 0 stdin w =
        .ok (if bad = [] ∧ positions ≠ [] then (0, ascii "valid attractor\n") else
          (2, (bad.flatMap fun v => ascii "substring '" ++ v ++ ascii "' not covered!\n") ++
            (if positions = [] then ascii "substring '" ++ [0] ++ ascii "' not covered!\n" else []) ++
            ascii "not a valid attractor\n"))) ∧
      ((∃ v ∈ bad, ¬ IsUtf8 v) →
        isStringattractorRun sufsort positions (some i) 0 stdin w = .error .unwrap)) := by
  have hrd := readVector_file hi 0 stdin (by omega)
  rw [if_pos rfl] at hrd
  constructor
  · rintro ⟨p, h1, h2⟩
    rw [isStringattractorRun, hrd, ok_bind]
    dsimp only
    rw [if_pos]
    · rfl
    · rw [List.any_eq_true]
      exact ⟨p, h1, by simp; omega⟩
  · intro hp
    obtain ⟨bad, h1, hnd, h2, h3, h4⟩ := C83_reported_substrings sufsort hs T hT hlen positions hp
    have hany : ¬ positions.any (fun p => decide (p ≥ (T ++ [(0 : UInt8)]).length)) = true := by
      rw [List.any_eq_true]
      rintro ⟨p, h1, h2⟩
      have := hp p h1
      simp at h2
      omega
    refine ⟨bad, h1, hnd, h2, fun hu => ?_, fun hu => ?_⟩
    · rw [isStringattractorRun, hrd, ok_bind]
      dsimp only
      rw [if_neg hany, h3 hu, ok_bind]
      dsimp only
      by_cases hv : bad = [] ∧ positions ≠ []
      · obtain ⟨rfl, hne⟩ := hv
        simp [hne, pure_ok]
      · rw [if_neg hv]
        simp only [hv, decide_false, Bool.not_false, if_true, pure_ok]
        congr 2
        rw [List.flatMap_append]
        congr 2
        split <;> rfl
    · rw [isStringattractorRun, hrd, ok_bind]
      dsimp only
      rw [if_neg hany, h4 hu]
      rfl

example (w : World) (hw : w.files "f" = some [97, 98, 97, 97, 98]) :=
  C83_output naiveSufsort naiveSufsort_sorts "f" [] w [97, 98, 97, 97, 98] hw (by decide) (by decide) [2]

/-- Concrete cases, on the file `f` of `exampleWorld`: position 1 alone leaves a substring uncovered, which is printed. -/
example : exampleWorld.files "f" = some [97, 97, 98] ∧
    isStringattractorRun naiveSufsort [1, 2] (some "f") 0 [] exampleWorld = .ok (0, ascii "valid attractor\n") ∧
    isStringattractorRun naiveSufsort [1] (some "f") 0 [] exampleWorld =
      .ok (2, ascii "substring 'b' not covered!\n" ++ ascii "not a valid attractor\n") := by
  decide +kernel

/-- `é` in UTF-8; a lone continuation byte and an encoded surrogate are not UTF-8. -/
example : IsUtf8 [0xC3, 0xA9] ∧ ¬ IsUtf8 [0xA9] ∧ ¬ IsUtf8 [0xED, 0xA0, 0x80] := by
  refine ⟨(utf8Valid_iff _).1 (by decide), ?_, ?_⟩ <;> · rw [← utf8Valid_iff]; decide

end Verif.Props
