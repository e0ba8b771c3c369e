import Verif.Props.MaxLyndon
import Verif.Lemmas.MaxReport

/-!
# The reports printed by `max_lyndon_word` (C94)

The claim is false in two points: the lines labelled `length=l` are about the words of length `l + 1`
(`C94_label_refuted`), and with two or more workers a report can be skipped (`C94_missed_refuted`).  The theorems with
the suffix `_partial` say what does hold for every interleaving.
-/

namespace Verif.Props

open Verif Spec Model Verif.Max Par

/-- A report of a run with `T` workers is right: its total is a multiple of 10000, the numbers of words of all lengths
add up to it, and for each length `n` that is shown every one of the counted words contributes the outcomes of its `n`
rotations, while each of the other workers contributes at most the outcomes of one more word; the text is missing, or it
is a rotation of a binary Lyndon word of length `n` that has the numbers of runs that are shown, fewer in its bijective
BWT than in the BWT. -/
structure RightReport (T : Nat) (r : Snapshot) : Prop where
  mult : r.total % 10000 = 0
  sum : ((List.range' 1 40).map r.words).sum = r.total
  counts : ∀ n, 21 ≤ n → n ≤ 40 →
    n * r.words n ≤ r.bwtWins n + r.bbwtWins n + r.ties n ∧
    r.bwtWins n + r.bbwtWins n + r.ties n ≤ n * (r.words n + (T - 1))
  text : ∀ n, 21 ≤ n → n ≤ 40 → (r.text n = [] ∧ r.bwtRuns n = 0 ∧ r.bbwtRuns n = 0) ∨
    (r.bbwtRuns n < r.bwtRuns n ∧ ∃ w, Candidate n w (r.text n) (r.bwtRuns n) (r.bbwtRuns n))

theorem sum_getD : ∀ (v : List Nat) (k : Nat), v.length = k → ((List.range' 1 k).map fun n => v.getD (n - 1) 0).sum = v.sum := by
  intro v
  induction v using List.reverseRecOn with
  | nil => intro k hk; simp at hk; subst hk; rfl
  | append_singleton v x ih =>
    intro k hk
    simp at hk
    subst hk
    rw [List.range'_1_concat, List.map_append, List.sum_append, List.sum_append]
    congr 1
    · rw [← ih v.length rfl]
      congr 1
      refine List.map_congr_left fun n hn => ?_
      have := List.mem_range'_1.1 hn
      rw [List.getD_eq_getElem?_getD, List.getD_eq_getElem?_getD, List.getElem?_append_left (by omega)]
    · simp [Nat.add_comm 1]

theorem candidate_of {ws : List (List Nat)} (hm : ∀ w, w ∈ ws ↔ IsLyndon w ∧ w.length ≤ MAXW ∧ ∀ c ∈ w, c < 2)
    {i b c : Nat} {t : List UInt8} (h : Witness ws i b c t) : (t = [] ∧ b = 0 ∧ c = 0) ∨
    (c < b ∧ ∃ w, Candidate (i + 1) w t b c) := by
  have hws : ∀ w ∈ ws, w ≠ [] ∧ w.length ≤ MAXW := fun w hw => ⟨((hm w).1 hw).1.1, ((hm w).1 hw).2.1⟩
  rcases h with ⟨h1, h2, h3⟩ | ⟨w, hw, hl, ht, hb, hc, hlt⟩
  · exact Or.inl ⟨h3, h1, h2⟩
  · refine Or.inr ⟨hlt, w, ((hm w).1 hw).1, ((hm w).1 hw).2.2, hl, ?_, ?_, ?_⟩
    · simp only [conjs, List.mem_map, List.mem_range, List.length_map] at ht
      obtain ⟨j, hj, e⟩ := ht
      exact ⟨j, by omega, e.symm⟩
    · obtain ⟨t, ht, -⟩ := bwtByMatrixNaive_ok (w.map UInt8.ofNat)
      exact ⟨t, ht, by rw [hb, bwtRuns, ht]; rfl⟩
    · obtain ⟨t', ht'⟩ := bbwt_total (conjs_ne (hws w hw).1 _ ht)
      exact ⟨t', ht', by rw [hc, bbwtRuns, ht']; rfl⟩

/-- C94, what holds for every interleaving of any number of workers: whenever nobody holds the lock of the numbers of
words, the output consists of complete reports, which are right, and whose totals do not decrease. -/
theorem C94_reports_partial (T : Nat) (s : TState MShared MLock T) (h : MaxReachable s)
    (hw : (s.locks .num).2 = false) : ∃ rs : List Snapshot, s.sh.out = rs.flatMap Snapshot.lines ∧
      rs.Pairwise (fun r r' => r.total ≤ r'.total) ∧ ∀ r ∈ rs, RightReport T r ∧ r.total ≤ s.sh.total := by
  obtain ⟨ws, hm, hy⟩ := all_words
  have hws : ∀ w ∈ ws, w ≠ [] ∧ w.length ≤ MAXW := fun w hw => ⟨((hm w).1 hw).1.1, ((hm w).1 hw).2.1⟩
  obtain ⟨st0, hr, hd⟩ := max_down hws hy h
  obtain ⟨H, K, g⟩ := max_ginv hws hy hr
  obtain ⟨_, _, rs, ho, hp, hrs⟩ : inv ws .num (comp .num st0.sh) :=
    g.data .num (g.noWriter (by rw [← hd.locks]; exact hw))
  replace ho : st0.sh.out = rs.flatMap reportLines := ho
  rw [hd.sh]
  have hbal := lines_balanced hws hy hr
  refine ⟨rs.map snap, ?_, ?_, ?_⟩
  · rw [ho, List.flatMap_map]
    exact List.flatMap_congr fun r _ => snap_lines r
  · exact List.pairwise_map.2 hp
  · intro r' hr'
    obtain ⟨r, hrm, rfl⟩ := List.mem_map.1 hr'
    obtain ⟨⟨g1, g2, g3, g4⟩, hle⟩ := hrs r hrm
    refine ⟨⟨g1, ?_, fun n hn hn' => ?_, fun n hn hn' => ?_⟩, hle⟩
    · rw [show (snap r).total = r.total from rfl, ← g3]
      exact sum_getD r.num 40 g2
    · have := report_balanced (T := T) (r := r) (fun x hx => hbal x (by
        rw [ho]; exact List.mem_flatMap.2 ⟨r, hrm, hx⟩)) (l := n - 1) (by omega) (by omega)
      rw [Max.Balanced, show n - 1 + 1 = n by omega] at this
      exact this
    · have := candidate_of hm (g4.2.2.2 (n - 1) (by have : MAXW = 40 := rfl; omega))
      rw [show n - 1 + 1 = n by omega] at this
      exact this

/-- C94, what holds for a single worker: between two words it has printed exactly one report for each multiple of 10000
up to the number of words so far. -/
theorem C94_single_worker_partial (s : TState MShared MLock 1) (h : MaxReachable s) (hag : s.prog 0 = .again) :
    ∃ rs : List Snapshot, s.sh.out = rs.flatMap Snapshot.lines ∧
      rs.map (·.total) = (List.range' 1 s.sh.total).filter (fun n => decide (n % 10000 = 0)) := by
  obtain ⟨ws, hm, hy⟩ := all_words
  have hws : ∀ w ∈ ws, w ≠ [] ∧ w.length ≤ MAXW := fun w hw => ⟨((hm w).1 hw).1.1, ((hm w).1 hw).2.1⟩
  obtain ⟨st0, hr, hd⟩ := max_down hws hy h
  have h0 : BetweenOut ws MShared.init := ⟨shape_init, [], ws, rfl, hy, rfl, [], rfl, rfl⟩
  have hs := Seq.reachable (lonely_out hws) h0 hr
  have hp : st0.prog 0 = .again := by
    rcases hd.prog 0 with hp | ⟨hp, _⟩
    · rw [hag] at hp; exact guard_again hp.symm
    · rw [hag] at hp; cases hp
  rw [hp] at hs
  obtain ⟨_, done, rest, _, _, _, rs, ho, hrs⟩ := hs
  rw [hd.sh]
  refine ⟨rs.map snap, ?_, ?_⟩
  · rw [ho, List.flatMap_map]
    exact List.flatMap_congr fun r _ => snap_lines r
  · rw [List.map_map]
    have : mults 0 st0.sh.total = (List.range' 1 st0.sh.total).filter (fun n => decide (n % 10000 = 0)) := by
      rw [mults, Nat.zero_add]
    rw [← this, ← hrs]
    rfl

example := C94_single_worker_partial _ C58_single_worker_runs.choose_spec.1 C58_single_worker_runs.choose_spec.2.1

/-- C94 is false, first part: there is a run, of any number of workers, in which a line `length=39 text=...` with a text
of length 40 is printed. -/
theorem C94_label_refuted (T : Nat) (hT : 1 ≤ T) : ∃ s : TState MShared MLock T, MaxReachable s ∧ NoLocks s ∧
    ∃ (t : List UInt8) (b c : Nat), textLine 39 t b c ∈ s.sh.out ∧ t.length = 40 := by
  obtain ⟨ws, hm, hy⟩ := all_words
  have hws : ∀ w ∈ ws, w ≠ [] ∧ w.length ≤ MAXW := fun w hw => ⟨((hm w).1 hw).1.1, ((hm w).1 hw).2.1⟩
  obtain ⟨s, r, hr, hl, ht, ho, e1, e2, e3, _, hdiff, rest, hyr, hlen⟩ := report40 hT hm hy
  refine ⟨_, up hws hy hr (fits_few hws (cinv_steps hws (cinv_init hy) hr) hyr hlen), fun l => ?_,
    r.bestText.getD 39 [], r.bestBwt.getD 39 0, r.bestBbwt.getD 39 0, ?_, ?_⟩
  · show s.locks l = _; rw [hl]; rfl
  · show _ ∈ s.sh.out
    rw [ho]
    exact mem_reportLines (l := 39) (by decide) (List.mem_cons_of_mem _ List.mem_cons_self)
  · obtain ⟨H, K, g⟩ := max_ginv hws hy hr
    have hrec : RecInv ws (comp .bestBwt s.sh) := g.data .bestBwt (g.noWriter (by rw [hl]; rfl))
    rcases hrec.2.2.2 39 (by decide) with ⟨h1, h2, _⟩ | ⟨w, hw, hwl, htx, _⟩
    · have h1' : s.sh.bestBwt.getD 39 0 = 0 := h1
      rw [diff, h1'] at hdiff
      omega
    · have htx' : s.sh.bestText.getD 39 [] ∈ conjs w := htx
      rw [e1] at htx'
      simp only [conjs, List.mem_map] at htx'
      obtain ⟨j, _, e⟩ := htx'
      rw [← e, rot_length]
      simpa using hwl

example := C94_label_refuted 1 (by decide)

/-- C94 is false, second part: with two or more workers, 10001 words can be counted and looked at without any report. -/
theorem C94_missed_refuted (T : Nat) (hT : 2 ≤ T) : ∃ s : TState MShared MLock T, MaxReachable s ∧ NoLocks s ∧
    (∀ t, s.prog t = maxWorker ∨ s.prog t = .again) ∧ s.sh.total = 10001 ∧ s.sh.out = [] := by
  obtain ⟨ws, hm, hy⟩ := all_words
  have hws : ∀ w ∈ ws, w ≠ [] ∧ w.length ≤ MAXW := fun w hw => ⟨((hm w).1 hw).1.1, ((hm w).1 hw).2.1⟩
  obtain ⟨s, hr, hl, ht, ho, hp, rest, hyr, hlen⟩ := missed_report hT hm hy
  refine ⟨_, up hws hy hr (fits_few hws (cinv_steps hws (cinv_init hy) hr) hyr hlen), fun l => ?_, fun t => ?_, ht, ho⟩
  · show s.locks l = _; rw [hl]; rfl
  · show (s.prog t).guard i32Fits = _ ∨ (s.prog t).guard i32Fits = _
    rcases hp t with h | h
    · left; rw [h]; rfl
    · right; rw [h]; rfl

example := C94_missed_refuted 2 (by decide)

/-- The hypotheses of `C94_reports_partial` are met with a non-empty output. -/
theorem C94_report_happens (T : Nat) (hT : 1 ≤ T) : ∃ s : TState MShared MLock T, MaxReachable s ∧
    (s.locks .num).2 = false ∧ ∃ r : Snapshot, r.total = 10000 ∧ s.sh.out = r.lines := by
  obtain ⟨ws, hm, hy⟩ := all_words
  have hws : ∀ w ∈ ws, w ≠ [] ∧ w.length ≤ MAXW := fun w hw => ⟨((hm w).1 hw).1.1, ((hm w).1 hw).2.1⟩
  obtain ⟨s, r, hr, hl, ht, ho, _, _, _, hrt, _, rest, hyr, hlen⟩ := report40 hT hm hy
  refine ⟨_, up hws hy hr (fits_few hws (cinv_steps hws (cinv_init hy) hr) hyr hlen), ?_, snap r, hrt, ?_⟩
  · show (s.locks .num).2 = false
    rw [hl]; rfl
  · show s.sh.out = _
    rw [ho, snap_lines]

example := C94_reports_partial 3 _ (C94_report_happens 3 (by decide)).choose_spec.1 (C94_report_happens 3 (by decide)).choose_spec.2.1

end Verif.Props
