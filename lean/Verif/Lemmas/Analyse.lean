import Verif.Lemmas.Threads
import Verif.Lemmas.Distinct
import Verif.Lemmas.BbwtInj
import Verif.Lemmas.Generators2
import Verif.Lemmas.LyndonGen
import Verif.Lemmas.Streams
import Mathlib.Order.Bounds.Basic
import Mathlib.Data.Set.Card

/-! # The per-word computation of the workers -/

namespace Verif.Par

open Verif Spec Model

theorem forIter_eq {σ ι τ : Type} {next : σ → Res (Option ι × σ)} {it : σ} {ws : List ι}
    (h : Yields next it ws) (acc : τ) (body : ι → τ → Res τ) {fuel : Nat} (hf : ws.length < fuel) :
    forIter next fuel it acc body = forEach ws acc body := by
  induction ws generalizing it acc fuel with
  | nil =>
    obtain ⟨f, rfl⟩ : ∃ f, fuel = f + 1 := ⟨fuel - 1, by omega⟩
    obtain ⟨it', hn, _⟩ := h.nil
    simp [forIter, hn, forEach_nil, pure_ok]
  | cons w ws ih =>
    simp only [List.length_cons] at hf
    obtain ⟨f, rfl⟩ : ∃ f, fuel = f + 1 := ⟨fuel - 1, by omega⟩
    obtain ⟨it', hn, hy⟩ := h.cons
    rw [forEach_cons]
    simp only [forIter, hn, ok_bind]
    cases hb : body w acc with
    | error e => simp
    | ok acc' => simp only [ok_bind]; exact ih hy acc' (by omega)

theorem conj_yields (t : List UInt8) :
    Yields ConjugateIterator.next (ConjugateIterator.new t) ((List.range t.length).map (rot · t)) := by
  intro k
  rw [ConjugateIterator.new, conj_runIter t k 0 (by omega), Nat.sub_zero, List.range_eq_range',
    List.map_map]
  rfl

theorem numberDistinct_total (t : List UInt8) : ∃ r, numberDistinctLyndonFactors t = .ok r := by
  obtain ⟨fs, h⟩ := exists_factorization t
  match fs, h with
  | [], h =>
    have : t = [] := by rw [← h.1]; simp
    exact ⟨0, by simp [numberDistinctLyndonFactors, this, pure_ok]⟩
  | [f], h => exact ⟨_, numberDistinct_one h⟩
  | u :: v :: rest, h => exact ⟨_, numberDistinct_two h⟩

theorem delivered_slice (b : List UInt8) : delivered (sliceReader b) = b := by
  induction b with
  | nil => rfl
  | cons c b ih => simp [sliceReader, delivered] at ih ⊢; exact ih

/-- the number of maximal runs -/
def runCount (b : List UInt8) : Nat := numberOfRuns (sliceReader b)

theorem runCount_le (b : List UInt8) : runCount b ≤ b.length := by
  rw [runCount, numberOfRuns_ok, delivered_slice]
  by_cases hb : b = []
  · subst hb; simp [runsOf]
  · rw [runsOf_length hb, changes]
    have := List.length_filter_le (fun i => decide (b[i]? ≠ b[i + 1]?)) (List.range (b.length - 1))
    rw [List.length_range] at this
    have := List.length_pos_iff.2 hb
    omega

/-- the runs of the bijective transform -/
def bbwtRuns (u : List UInt8) : Nat :=
  match bbwtNaive u with
  | .ok b => runCount b
  | .error _ => 0

theorem bbwtRuns_le {u : List UInt8} (hu : u ≠ []) : bbwtRuns u ≤ u.length := by
  obtain ⟨b, hb⟩ := bbwt_total hu
  rw [bbwtRuns, hb, ← (bbwt_perm hu hb).length_eq]
  exact runCount_le b

/-- the line printed for a rotation, if one is -/
def lineOf (u : List UInt8) : List (List UInt8) :=
  match bbwtNaive u, numberDistinctLyndonFactors u with
  | .ok b, .ok r => if runCount b ≤ r + 1 then [conjugateLine b u (runCount b) r] else []
  | _, _ => []

theorem conjugateRound_ok {u : List UInt8} (hu : u ≠ []) (best : Nat) (ls : List (List UInt8)) :
    conjugateRound u (best, ls) = .ok (min best (bbwtRuns u), ls ++ lineOf u) := by
  obtain ⟨b, hb⟩ := bbwt_total hu
  obtain ⟨r, hr⟩ := numberDistinct_total u
  rw [conjugateRound, hb, ok_bind, hr, ok_bind, pure_ok]
  have : bbwtRuns u = numberOfRuns (sliceReader b) := by rw [bbwtRuns, hb]; rfl
  have hl : lineOf u = if numberOfRuns (sliceReader b) ≤ r + 1 then
      [conjugateLine b u (numberOfRuns (sliceReader b)) r] else [] := by
    unfold lineOf; rw [hb, hr]; rfl
  rw [this, hl]
  congr 2
  · by_cases h : best > numberOfRuns (sliceReader b)
    · simp [h]; omega
    · simp [h]; omega
  · split <;> simp

theorem rounds_ok (us : List (List UInt8)) (hus : ∀ u ∈ us, u ≠ []) (best : Nat) (ls : List (List UInt8)) :
    forEach us (best, ls) conjugateRound =
      .ok (us.foldl (fun b u => min b (bbwtRuns u)) best, ls ++ us.flatMap lineOf) := by
  induction us generalizing best ls with
  | nil => simp [forEach_nil]
  | cons u us ih =>
    rw [forEach_cons, conjugateRound_ok (hus u (by simp)), ok_bind, ih (fun v hv => hus v (by simp [hv]))]
    simp

theorem foldl_min (f : List UInt8 → Nat) (us : List (List UInt8)) (b : Nat) :
    (∀ u ∈ us, us.foldl (fun b u => min b (f u)) b ≤ f u) ∧
    us.foldl (fun b u => min b (f u)) b ≤ b ∧
    (us.foldl (fun b u => min b (f u)) b = b ∨
      ∃ u ∈ us, us.foldl (fun b u => min b (f u)) b = f u) := by
  induction us generalizing b with
  | nil => simp
  | cons v us ih =>
    obtain ⟨h1, h2, h3⟩ := ih (min b (f v))
    simp only [List.foldl_cons]
    refine ⟨?_, by omega, ?_⟩
    · intro u hu
      rcases List.mem_cons.1 hu with rfl | hu
      · omega
      · exact h1 u hu
    · rcases h3 with h3 | ⟨u, hu, h3⟩
      · by_cases hle : b ≤ f v
        · left; omega
        · right; exact ⟨v, by simp, by omega⟩
      · right; exact ⟨u, by simp [hu], h3⟩

/-- the least number of runs of the bijective transforms of the rotations -/
def bestRuns (t : List UInt8) : Nat :=
  ((List.range t.length).map (rot · t)).foldl (fun b u => min b (bbwtRuns u)) MAX_LENGTH

theorem bestRuns_least {t : List UInt8} (ht : t ≠ []) (hl : t.length ≤ MAX_LENGTH) :
    IsLeast {r | ∃ u, Conj u t ∧ r = bbwtRuns u} (bestRuns t) := by
  have hn := List.length_pos_iff.2 ht
  obtain ⟨h1, h2, h3⟩ := foldl_min bbwtRuns ((List.range t.length).map (rot · t)) MAX_LENGTH
  have hself : bbwtRuns t ≤ MAX_LENGTH := le_trans (bbwtRuns_le ht) hl
  constructor
  · rcases h3 with h3 | ⟨u, hu, h3⟩
    · have := h1 (rot 0 t) (List.mem_map.2 ⟨0, by simpa using hn, rfl⟩)
      rw [rot_zero] at this
      exact ⟨t, ⟨0, by omega, (rot_zero t).symm⟩, by rw [bestRuns]; omega⟩
    · obtain ⟨i, hi, rfl⟩ := List.mem_map.1 hu
      rw [List.mem_range] at hi
      exact ⟨_, ⟨i, by omega, rfl⟩, h3⟩
  · rintro r ⟨u, ⟨i, hi, rfl⟩, rfl⟩
    by_cases hlt : i < t.length
    · exact h1 _ (List.mem_map.2 ⟨i, by simpa using hlt, rfl⟩)
    · have : i = t.length := by omega
      rw [this, rot_self]
      have := h1 (rot 0 t) (List.mem_map.2 ⟨0, by simpa using hn, rfl⟩)
      rw [rot_zero] at this
      exact this

/-- the runs of the matrix BWT -/
def bwtRuns (t : List UInt8) : Nat :=
  match bwtByMatrixNaive t with
  | .ok b => runCount b
  | .error _ => 0

theorem bwtRuns_le (t : List UInt8) : bwtRuns t ≤ t.length := by
  obtain ⟨b, h1, h2⟩ := bwtByMatrixNaive_ok t
  rw [bwtRuns, h1, ← (matrix_last_perm h2).length_eq]
  exact runCount_le b

/-- the cell of a word -/
def cell (L : Nat) (w : List Nat) : Option (Nat × Nat) :=
  if w.length = L then some (bwtRuns (w.map UInt8.ofNat), bestRuns (w.map UInt8.ofNat)) else none

/-- the lines printed for a word -/
def cellLines (L : Nat) (w : List Nat) : List (List UInt8) :=
  if w.length = L then ((List.range w.length).map (rot · (w.map UInt8.ofNat))).flatMap lineOf else []

theorem analyseWord_ok {L : Nat} {w : List Nat} (hne : w ≠ []) (hl : w.length ≤ MAX_LENGTH) :
    analyseWord L w = .ok ((cell L w).map fun p => (cellLines L w, p)) := by
  unfold analyseWord cell cellLines
  have hn := List.length_pos_iff.2 hne
  simp only [List.length_map]
  by_cases h : w.length = L
  · rw [if_pos h, if_pos h, if_pos h]
    set t := w.map UInt8.ofNat with ht
    have htl : t.length = w.length := by simp [ht]
    have htne : t ≠ [] := by rw [← List.length_pos_iff]; omega
    obtain ⟨b, h1, h2⟩ := bwtByMatrixNaive_ok t
    rw [h1, ok_bind]
    have ha : assertR (decide (w.length > 0)) = .ok () := by
      rw [assertR, if_pos (decide_eq_true hn)]
    rw [ha, ok_bind, usub_ok hn, ok_bind]
    have hb : assertR (decide (w.length - 1 < MAX_LENGTH)) = .ok () := by
      rw [assertR, if_pos (decide_eq_true (by omega))]
    rw [hb, ok_bind, forIter_eq (conj_yields t) _ _ (by simp; omega), rounds_ok, ok_bind, pure_ok]
    · have : bwtRuns t = numberOfRuns (sliceReader b) := by rw [bwtRuns, h1]; rfl
      rw [this, List.nil_append, ← htl]; rfl
    · intro u hu
      obtain ⟨i, hi, rfl⟩ := List.mem_map.1 hu
      rw [← List.length_pos_iff, rot_length]; omega
  · rw [if_neg h, if_neg h, if_neg h, pure_ok]; rfl

/-- all binary words of a length -/
def words2 : Nat → List (List Nat)
  | 0 => [[]]
  | n + 1 => (words2 n).map (0 :: ·) ++ (words2 n).map (1 :: ·)

theorem words2_length (n : Nat) : (words2 n).length = 2 ^ n := by
  induction n with
  | zero => rfl
  | succ n ih => simp [words2, ih]; omega

theorem mem_words2 {w : List Nat} (h : ∀ c ∈ w, c < 2) : w ∈ words2 w.length := by
  induction w with
  | nil => simp [words2]
  | cons c w ih =>
    have := ih (fun d hd => h d (by simp [hd]))
    have hc := h c (by simp)
    have : c = 0 ∨ c = 1 := by omega
    rcases this with rfl | rfl <;> simp [words2, this]

theorem binary_count {ws : List (List Nat)} (hn : ws.Nodup) (h : ∀ w ∈ ws, ∀ c ∈ w, c < 2) (L : Nat) :
    ws.countP (fun w => decide (w.length = L)) ≤ 2 ^ L := by
  rw [List.countP_eq_length_filter, ← words2_length L]
  have hsub : ws.filter (fun w => decide (w.length = L)) ⊆ words2 L := by
    intro w hw
    rw [List.mem_filter] at hw
    have hl : w.length = L := by simpa using hw.2
    rw [← hl]
    exact mem_words2 (h w hw.1)
  exact (List.Nodup.subperm (hn.filter _) hsub).length_le

theorem countP_ncard {β : Type} {ws : List β} (hn : ws.Nodup) (p : β → Prop) [DecidablePred p] :
    ws.countP (fun w => decide (p w)) = Set.ncard {w | w ∈ ws ∧ p w} := by
  classical
  rw [List.countP_eq_length_filter, ← List.toFinset_card_of_nodup (hn.filter _), ← Set.ncard_coe_finset]
  congr 1
  ext w
  simp

end Verif.Par
