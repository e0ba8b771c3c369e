import Verif.Lemmas.MaxRecord
import Verif.Props.MaxLyndon

/-!
# Which text a single worker of `max_lyndon_word` keeps (C58)

`second_criteria` (src/unfinished/parallel.rs:15-18) is meant to prefer, among texts with the same difference,
the one with fewer zeros.  It counts bytes `'0'`, but the texts consist of the bytes 0 and 1, so it never
applies: the record is the first of the best.
-/

namespace Verif.Props

open Verif Spec Model Verif.Max Par

/-- The rotations of the words of length `n`, word by word and shift by shift. -/
def rotations (n : Nat) (done : List (List Nat)) : List (List Nat × List UInt8) :=
  (done.filter (fun w => decide (w.length = n))).flatMap fun w =>
    (List.range n).map fun j => (w, rot j (w.map UInt8.ofNat))

/-- The measured rotation. -/
def measured (p : List Nat × List UInt8) : Rec := (bwtRuns (p.1.map UInt8.ofNat), bbwtRuns p.2, p.2)

theorem tries_eq {n : Nat} (hn : 1 ≤ n) (done : List (List Nat)) :
    tries done (n - 1) = (rotations n done).map measured := by
  have e : n - 1 + 1 = n := by omega
  rw [tries, rotations, e, List.map_flatMap]
  have : ∀ w ∈ done.filter (fun w => decide (w.length = n)), wordTries w =
      ((List.range n).map fun j => (w, rot j (w.map UInt8.ofNat))).map measured := by
    intro w hw
    have hl : w.length = n := by simpa using (List.mem_filter.1 hw).2
    simp [wordTries, conjs, hl, measured, Function.comp_def]
  rw [List.flatMap_congr this]

theorem candidate_measured {n : Nat} {w : List Nat} {u : List UInt8} {b c : Nat} (h : Candidate n w u b c) :
    measured (w, u) = (b, c, u) := by
  obtain ⟨_, _, _, _, ⟨t, ht, rfl⟩, ⟨t', ht', rfl⟩⟩ := h
  rw [measured, bwtRuns, bbwtRuns]
  simp only [ht, ht']
  rfl

/-- C58, which text a single worker keeps: between two words, the record for length `n` is the *first*, in the
order of the enumeration, among the rotations whose difference is the largest so far; rotations with the same
difference never replace it.  As long as no rotation of that length had fewer runs in its bijective BWT, the
record is the initial one. -/
theorem C58_first_best_partial (s : TState MShared MLock 1) (h : MaxReachable s) (hag : s.prog 0 = .again) :
    ∃ ws done rest : List (List Nat), done ++ rest = ws ∧
      ws.Pairwise (· < ·) ∧ (∀ w, w ∈ ws ↔ IsLyndon w ∧ w.length ≤ 40 ∧ ∀ c ∈ w, c < 2) ∧
      done.length = s.sh.total ∧
      ∀ n, 1 ≤ n → n ≤ 40 → ∃ b c u, s.sh.bestBwt.getD (n - 1) 0 = b ∧ s.sh.bestBbwt.getD (n - 1) 0 = c ∧
        s.sh.bestText.getD (n - 1) [] = u ∧
        ((b = 0 ∧ c = 0 ∧ u = [] ∧
            ∀ p ∈ rotations n done, ∀ b' c', Candidate n p.1 p.2 b' c' → b' ≤ c') ∨
         (∃ w pre post, rotations n done = pre ++ (w, u) :: post ∧ Candidate n w u b c ∧ c < b ∧
            (∀ p ∈ pre, ∀ b' c', Candidate n p.1 p.2 b' c' → b' - c' < b - c) ∧
            (∀ p ∈ post, ∀ b' c', Candidate n p.1 p.2 b' c' → b' - c' ≤ b - c))) := by
  obtain ⟨ws, hsort, hm, hy⟩ := lwg_all (n := MAXW) (s := 2) (by omega) (by omega)
  have hws : ∀ w ∈ ws, w ≠ [] ∧ w.length ≤ MAXW := fun w hw => ⟨((hm w).1 hw).1.1, ((hm w).1 hw).2.1⟩
  have hws' : ∀ w ∈ ws, w ≠ [] ∧ w.length ≤ MAXW ∧ ∀ c ∈ w, c < 2 := fun w hw =>
    ⟨((hm w).1 hw).1.1, ((hm w).1 hw).2.1, ((hm w).1 hw).2.2⟩
  obtain ⟨st0, hr, hd⟩ := max_down hws hy h
  have hs := Seq.reachable (lonely_rec hws') (betweenRec_init hy) hr
  have hp : st0.prog 0 = .again := by
    rcases hd.prog 0 with hp | ⟨hp, _⟩
    · rw [hag] at hp; exact guard_again hp.symm
    · rw [hag] at hp; cases hp
  rw [hp] at hs
  obtain ⟨done, rest, hsp, _, htot, hrec⟩ := hs
  refine ⟨ws, done, rest, hsp, hsort, hm, by rw [hd.sh]; exact htot.symm, fun n hn hn' => ?_⟩
  refine ⟨_, _, _, rfl, rfl, rfl, ?_⟩
  have hk := hrec.kept (n - 1)
  simp only [record, ← hd.sh, tries_eq hn] at hk
  rcases foldl_pick ((rotations n done).map measured) (0, 0, []) with ⟨e, hall⟩ | ⟨pre, x, post, hsplit, e, hpos, h1, h2⟩
  · left
    rw [e] at hk
    injection hk with k1 k2
    injection k2 with k2 k3
    refine ⟨k1, k2, k3, fun p hp b' c' hc => ?_⟩
    have := hall _ (List.mem_map_of_mem hp)
    rw [candidate_measured hc] at this
    simp only [adv] at this
    omega
  · right
    rw [e] at hk
    obtain ⟨pre', rest', hl, hpre, hrest⟩ := List.map_eq_append_iff.1 hsplit
    obtain ⟨p, post', hpp, hx, hpost⟩ := List.map_eq_cons_iff.1 hrest
    subst hpp hpre hpost
    have hpm : p ∈ rotations n done := by rw [hl]; simp
    simp only [rotations, List.mem_flatMap, List.mem_filter, List.mem_map, List.mem_range] at hpm
    obtain ⟨w, ⟨hwd, hwl⟩, j, hj, rfl⟩ := hpm
    have hwl' : w.length = n := by simpa using hwl
    have hw := (hm w).1 (show w ∈ ws by rw [← hsp]; simp [hwd])
    obtain ⟨t, ht, -⟩ := bwtByMatrixNaive_ok (w.map UInt8.ofNat)
    have hmem : rot j (w.map UInt8.ofNat) ∈ conjs w := mem_conjs (by omega)
    obtain ⟨t', ht'⟩ := bbwt_total (conjs_ne hw.1.1 _ hmem)
    have hcand : Candidate n w (rot j (w.map UInt8.ofNat)) (bwtRuns (w.map UInt8.ofNat))
        (bbwtRuns (rot j (w.map UInt8.ofNat))) :=
      ⟨hw.1, hw.2.2, hwl', ⟨j, hj, rfl⟩, ⟨t, ht, by rw [bwtRuns, ht]; rfl⟩, ⟨t', ht', by rw [bbwtRuns, ht']; rfl⟩⟩
    rw [← hx, measured] at hk hpos
    injection hk with k1 k2
    injection k2 with k2 k3
    simp only [adv] at hpos
    rw [k1, k2, k3]
    refine ⟨w, pre', post', hl, hcand, by simp at hpos; omega, fun q hq b' c' hc => ?_, fun q hq b' c' hc => ?_⟩
    · have := h1 _ (List.mem_map_of_mem hq)
      rw [candidate_measured hc, ← hx] at this
      exact this
    · have := h2 _ (List.mem_map_of_mem hq)
      rw [candidate_measured hc, ← hx] at this
      exact this

example := C58_first_best_partial _ C58_single_worker_runs.choose_spec.1 C58_single_worker_runs.choose_spec.2.1

/-- The hypotheses are met, for example after the first word. -/
example : ∃ s : TState MShared MLock 1, MaxReachable s ∧ s.prog 0 = .again ∧ s.sh.total = 1 :=
  C58_single_worker_runs

end Verif.Props
