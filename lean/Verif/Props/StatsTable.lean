import Verif.Model.StatsTable
import Verif.Spec.Table
import Verif.Props.Parallel
import Verif.Lemmas.ResultLine
import Mathlib.Data.Nat.Digits.Lemmas
import Mathlib.Algebra.BigOperators.Intervals

/-! # C92: the table printed by `main` of `src/unfinished/parallel.rs` -/

namespace Verif.Props

open Verif Spec Model Par

theorem terminated_block {sep : UInt8} {b : List UInt8} (h : sep ∉ b) (l : List UInt8) :
    terminated sep (b ++ sep :: l) = b :: terminated sep l := by
  induction b with
  | nil => simp [terminated]
  | cons c b ih =>
    rw [List.mem_cons, not_or] at h
    rw [List.cons_append, terminated, if_neg (fun e => h.1 e.symm), ih h.2]

theorem terminated_blocks {sep : UInt8} (bs : List (List UInt8)) (h : ∀ b ∈ bs, sep ∉ b) :
    terminated sep (bs.flatMap (· ++ [sep])) = bs := by
  induction bs with
  | nil => rfl
  | cons b bs ih =>
    rw [List.flatMap_cons, List.append_assoc, List.singleton_append, terminated_block (h b (by simp)),
      ih (fun b hb => h b (by simp [hb]))]

theorem forRange_append {lo hi : Nat} {body : Nat → List UInt8 → Res (List UInt8)} {f : Nat → List UInt8}
    (hle : lo ≤ hi) (h : ∀ i out, lo ≤ i → i < hi → body i out = .ok (out ++ f i)) (out : List UInt8) :
    forRange lo hi out body = .ok (out ++ (List.range' lo (hi - lo)).flatMap f) := by
  obtain ⟨s, h1, h2⟩ := forRange_inv (fun i s => s = out ++ (List.range' lo (i - lo)).flatMap f) hle
    (s := out) (body := body) (by simp) (by
      intro i s h1 h2 hs
      refine ⟨_, h i s h1 h2, ?_⟩
      rw [hs, show i + 1 - lo = (i - lo) + 1 by omega, List.range'_concat, List.flatMap_append, List.append_assoc]
      congr 2
      simp only [List.flatMap_cons, List.flatMap_nil, List.append_nil]
      congr 1
      omega)
  rw [h1, h2]

theorem decimal_length_le {n k : Nat} (hk : 1 ≤ k) : (decimal n).length ≤ k ↔ n < 10 ^ k := by
  unfold decimal
  split
  · rename_i h
    subst h
    simp only [List.length_singleton, hk, true_iff]
    positivity
  · rw [List.length_map, List.length_reverse, Nat.digits_length_le_iff (by omega)]

theorem decimal_length_mono {a b : Nat} (h : a ≤ b) : (decimal a).length ≤ (decimal b).length := by
  have hpos : 1 ≤ (decimal b).length := List.length_pos_iff.2 (decimal_ne_nil b)
  rw [decimal_length_le hpos]
  exact lt_of_le_of_lt h ((decimal_length_le hpos).1 (le_refl _))

/-- The number in row `r` and column `c` of the printed table. -/
def shown (stats : List (List Nat)) (r c : Nat) : Nat := if r = 0 then c else if c = 0 then r else entry stats r c

theorem entry_rd {M : Nat} {stats : List (List Nat)} (hs : Square M stats) {i j : Nat} (hi : i < M) (hj : j < M) :
    ∃ row, rd stats i = .ok row ∧ rd row j = .ok (entry stats i j) := by
  have h1 : i < stats.length := by rw [hs.1]; exact hi
  have h2 : j < stats[i].length := by rw [hs.2 _ (List.getElem_mem h1)]; exact hj
  exact ⟨_, rd_ok h1, by rw [rd_ok h2]; simp [entry, h1, h2]⟩

theorem maxVal_ok {stats : List (List Nat)} (hs : Square (MAX_LENGTH + 1) stats) :
    ∃ m, maxVal stats = .ok m ∧ ∀ i j, i < MAX_LENGTH → j < MAX_LENGTH → entry stats i j ≤ m := by
  unfold maxVal
  obtain ⟨m, h1, h2⟩ := forRange_inv
    (fun i m => ∀ a b, a < i → b < MAX_LENGTH → entry stats a b ≤ m) (Nat.zero_le MAX_LENGTH) (s := 0)
    (body := fun br m => forRange 0 MAX_LENGTH m (fun bbr m => do
      let row ← rd stats br
      let x ← rd row bbr
      pure (if m < x then x else m))) (by intro a b h; omega) (by
      intro i m _ hi hm
      obtain ⟨m', g1, g2, g3⟩ := forRange_inv
        (fun j m' => m ≤ m' ∧ ∀ b, b < j → entry stats i b ≤ m') (Nat.zero_le MAX_LENGTH) (s := m)
        (body := fun bbr m => do
          let row ← rd stats i
          let x ← rd row bbr
          pure (if m < x then x else m)) ⟨le_refl _, by intro b h; omega⟩ (by
          rintro j m' _ hj ⟨e1, e2⟩
          obtain ⟨row, r1, r2⟩ := entry_rd hs (show i < MAX_LENGTH + 1 by omega) (show j < MAX_LENGTH + 1 by omega)
          refine ⟨_, by rw [r1, ok_bind, r2, ok_bind, pure_ok], ?_, ?_⟩
          · split <;> omega
          · intro b hb
            rcases Nat.lt_succ_iff_lt_or_eq.1 hb with hb | rfl
            · have := e2 b hb
              split <;> omega
            · split <;> omega)
      refine ⟨m', g1, ?_⟩
      intro a b ha hb
      rcases Nat.lt_succ_iff_lt_or_eq.1 ha with ha | rfl
      · exact le_trans (hm a b ha hb) g2
      · exact g3 b hb)
  exact ⟨m, h1, h2⟩

theorem range24 : List.range MAX_LENGTH = 0 :: List.range' 1 (MAX_LENGTH - 1) := by decide

theorem statsTable_ok (L total : Nat) {stats : List (List Nat)} (hs : Square (MAX_LENGTH + 1) stats) :
    ∃ width, 2 ≤ width ∧ (∀ i j, i < MAX_LENGTH → j < MAX_LENGTH → (decimal (entry stats i j)).length ≤ width) ∧
      statsTable L total stats = .ok (([ascii "binary string length: " ++ decimal L ++ ascii " ",
        ascii "bwt \\ bbwt : #= " ++ decimal total] ++
        (List.range MAX_LENGTH).map (fun r => ((List.range MAX_LENGTH).map
          (fun c => padLeft width (decimal (shown stats r c)))).flatMap (· ++ [124]))).flatMap (· ++ [10])) := by
  obtain ⟨m, h1, h2⟩ := maxVal_ok hs
  refine ⟨max 2 (decimal m).length, le_max_left _ _, fun i j hi hj =>
    le_trans (decimal_length_mono (h2 i j hi hj)) (le_max_right _ _), ?_⟩
  unfold statsTable
  rw [h1, ok_bind]
  set width := max 2 (decimal m).length
  simp only []
  rw [forRange_append (body := fun br out => pure (out ++ tableCell width br)) (f := fun c => tableCell width c)
    (Nat.zero_le _) (fun i out _ _ => rfl), ok_bind]
  rw [forRange_append (f := fun r => tableCell width r ++
    ((List.range' 1 (MAX_LENGTH - 1)).flatMap (fun c => tableCell width (entry stats r c))) ++ [10]) (by decide) (by
      intro r out hr hr'
      rw [forRange_append (f := fun c => tableCell width (entry stats r c)) (by decide) (by
        intro c out hc hc'
        obtain ⟨row, r1, r2⟩ := entry_rd hs (show r < MAX_LENGTH + 1 by omega) (show c < MAX_LENGTH + 1 by omega)
        rw [r1, ok_bind, r2, ok_bind, pure_ok]), ok_bind, pure_ok]
      simp)]
  congr 1
  have e0 : List.range' 0 (MAX_LENGTH - 0) = List.range MAX_LENGTH := by decide
  rw [e0]
  have hrow0 : ((List.range MAX_LENGTH).map (fun c => padLeft width (decimal (shown stats 0 c)))).flatMap (· ++ [124]) =
      (List.range MAX_LENGTH).flatMap (fun c => tableCell width c) := by
    simp [List.flatMap_map, shown, tableCell]
  have hrow : ∀ r ∈ List.range' 1 (MAX_LENGTH - 1),
      ((List.range MAX_LENGTH).map (fun c => padLeft width (decimal (shown stats r c)))).flatMap (· ++ [124]) =
      tableCell width r ++ (List.range' 1 (MAX_LENGTH - 1)).flatMap (fun c => tableCell width (entry stats r c)) := by
    intro r hr
    have hr0 : r ≠ 0 := by
      have := (List.mem_range'_1.1 hr).1
      omega
    rw [range24, List.flatMap_map, List.flatMap_cons]
    simp only [shown, hr0, if_false, if_true, tableCell]
    congr 1
  have hrows : ((List.range MAX_LENGTH).map (fun r => ((List.range MAX_LENGTH).map
      (fun c => padLeft width (decimal (shown stats r c)))).flatMap (· ++ [124]))).flatMap (· ++ [10]) =
      ((List.range MAX_LENGTH).flatMap (fun c => tableCell width c)) ++ [10] ++
      (List.range' 1 (MAX_LENGTH - 1)).flatMap (fun r => tableCell width r ++
        ((List.range' 1 (MAX_LENGTH - 1)).flatMap (fun c => tableCell width (entry stats r c))) ++ [10]) := by
    rw [List.flatMap_map]
    conv_lhs => rw [range24, List.flatMap_cons, ← range24, hrow0]
    congr 1
  rw [List.flatMap_append, hrows]
  have e1 : ascii " \n" = ascii " " ++ [10] := by decide
  rw [e1]
  simp only [List.flatMap_cons, List.flatMap_nil, List.append_assoc, List.append_nil]

theorem decimal_no {n : Nat} {x : UInt8} (hx : isDigit x = false) : x ∉ decimal n := by
  intro h
  rw [decimal_isDigit n x h] at hx
  exact absurd hx (by decide)

theorem unpad_padLeft (width n : Nat) : unpad (padLeft width (decimal n)) = decimal n := by
  have h : ∀ k, (List.replicate k (32 : UInt8) ++ decimal n).dropWhile (· = 32) = decimal n := by
    intro k
    induction k with
    | zero =>
      have hd := decimal_isDigit n
      have hne := decimal_ne_nil n
      cases hc : decimal n with
      | nil => exact absurd hc hne
      | cons d ds =>
        rw [hc] at hd
        have : d ≠ 32 := fun e => absurd (hd d (by simp)) (by rw [e]; decide)
        simp [this]
    | succ k ih => rw [List.replicate_succ, List.cons_append, List.dropWhile_cons]; simpa using ih
  exact h _

theorem padLeft_length {width n : Nat} (h : (decimal n).length ≤ width) : (padLeft width (decimal n)).length = width := by
  simp only [padLeft, List.length_append, List.length_replicate]
  omega

theorem runCount_pos {b : List UInt8} (h : b ≠ []) : 1 ≤ runCount b := by
  have := (C28_number_of_runs (sliceReader b)).2.2 (by rw [delivered_slice]; exact h)
  rw [runCount, this]; omega

theorem bwtRuns_pos {t : List UInt8} (h : t ≠ []) : 1 ≤ bwtRuns t := by
  obtain ⟨b, h1, h2⟩ := bwtByMatrixNaive_ok t
  rw [bwtRuns, h1]
  refine runCount_pos ?_
  rw [← List.length_pos_iff, (matrix_last_perm h2).length_eq]
  exact List.length_pos_iff.2 h

theorem bbwtRuns_pos {u : List UInt8} (hu : u ≠ []) : 1 ≤ bbwtRuns u := by
  obtain ⟨b, hb⟩ := bbwt_total hu
  rw [bbwtRuns, hb]
  refine runCount_pos ?_
  rw [← List.length_pos_iff, (bbwt_perm hu hb).length_eq]
  exact List.length_pos_iff.2 hu

/-- The cells of words shorter than `MAX_LENGTH` are printed cells. -/
theorem cell_range {L : Nat} (hL : L < MAX_LENGTH) {w : List Nat} (hne : w ≠ []) {i j : Nat}
    (h : cell L w = some (i, j)) : (1 ≤ i ∧ i < MAX_LENGTH) ∧ 1 ≤ j ∧ j < MAX_LENGTH := by
  have hne' : w.map UInt8.ofNat ≠ [] := by simpa using hne
  unfold cell at h
  split at h
  · rename_i hl
    simp only [Option.some.injEq, Prod.mk.injEq] at h
    have hl' : (w.map UInt8.ofNat).length = L := by simpa using hl
    have hb := bwtRuns_le (w.map UInt8.ofNat)
    have hb' := bwtRuns_pos hne'
    have hx := bestRuns_least hne' (by omega)
    have hj := hx.2 ⟨_, ⟨0, by omega, (rot_zero _).symm⟩, rfl⟩
    have hj' := bbwtRuns_le hne'
    obtain ⟨u, ⟨k, hk, hr⟩, he⟩ := hx.1
    have hu : u ≠ [] := by
      rw [← List.length_pos_iff, hr, rot_length]; exact List.length_pos_iff.2 hne'
    have := bbwtRuns_pos hu
    omega
  · simp at h

theorem sum_cells {W : Type} (val : W → Option (Nat × Nat)) (a b : Nat) (ws : List W)
    (h : ∀ w ∈ ws, ∀ i j, val w = some (i, j) → (a ≤ i ∧ i < b) ∧ a ≤ j ∧ j < b) :
    ∑ i ∈ Finset.Ico a b, ∑ j ∈ Finset.Ico a b, ws.countP (fun w => decide (val w = some (i, j))) =
      ws.countP (fun w => (val w).isSome) := by
  induction ws with
  | nil => simp
  | cons w ws ih =>
    simp only [List.countP_cons, Finset.sum_add_distrib]
    rw [ih (fun w hw => h w (by simp [hw]))]
    congr 1
    cases hv : val w with
    | none => simp
    | some p =>
      obtain ⟨i, j⟩ := p
      obtain ⟨hi, hj⟩ := h w (by simp) i j hv
      rw [Finset.sum_eq_single i, Finset.sum_eq_single j]
      · simp
      · intro b _ hb; simp [Ne.symm hb]
      · intro hn; exact absurd (Finset.mem_Ico.2 hj) hn
      · intro b _ hb; simp [Ne.symm hb]
      · intro hn; exact absurd (Finset.mem_Ico.2 hi) hn

/-- C92: for each `pattern_length` (16 to 23 in the code), whatever the schedule of the workers was, the printed text
consists of 26 lines: two lines with the length and the number of binary Lyndon words of this length; a line with the
column labels 0 to 23; and for `r` from 1 to 23 a line with the label `r` and then in column `c` the number of Lyndon
words whose BWT has `r` runs and whose rotations have a bijective BWT with `c` runs, but no fewer.  All cells have the
same width, so the columns are aligned.  No word is missing in the table: its cells add up to the printed total. -/
theorem C92_printed_table (T L : Nat) (hT : 0 < T) (hL : L ≤ 23)
    (s : PState LyndonWordGenerator (List Nat) T) (hr : MainReachable L s) (hstop : ∀ t, s.pc t = .stopped) :
    let count := fun r c => Set.ncard {w | LyndonOfLength L w ∧ InCell w r c}
    ∃ out width, statsTable L s.total s.stats = .ok out ∧
      (terminated 10 out).length = 26 ∧
      (terminated 10 out).flatMap (· ++ [10]) = out ∧
      (terminated 10 out)[0]? = some (ascii "binary string length: " ++ decimal L ++ ascii " ") ∧
      (terminated 10 out)[1]? = some (ascii "bwt \\ bbwt : #= " ++ decimal (Set.ncard {w | LyndonOfLength L w})) ∧
      (∀ r ≤ 23, ∃ line, (terminated 10 out)[2 + r]? = some line ∧ (terminated 124 line).length = 24 ∧
        (terminated 124 line).flatMap (· ++ [124]) = line ∧
        (∀ x ∈ terminated 124 line, x.length = width) ∧
        ∀ c ≤ 23, ((terminated 124 line)[c]?).map unpad =
          some (decimal (if r = 0 then c else if c = 0 then r else count r c))) ∧
      ∑ r ∈ Finset.Icc 1 23, ∑ c ∈ Finset.Icc 1 23, count r c = Set.ncard {w | LyndonOfLength L w} := by
  intro count
  obtain ⟨htot, hcells⟩ := C57_schedule_independent T L hT s hr hstop
  obtain ⟨ws, hn, hm, hy, hg⟩ := main_good L
  obtain ⟨taken, rest, hi⟩ := reach_inv hy hg hr
  obtain ⟨hsq, hc, ht, -⟩ := hi.final hT hstop
  have hentry : ∀ i j, i ≤ MAX_LENGTH → j ≤ MAX_LENGTH → entry s.stats i j = count i j := by
    intro i j h1 h2
    obtain ⟨row, e1, e2⟩ := hcells i j h1 h2
    simp [entry, e1, e2, count]
  obtain ⟨width, h2, hw, hout⟩ := statsTable_ok L s.total hsq
  have hM : MAX_LENGTH = 24 := rfl
  have hdec : ∀ n, (10 : UInt8) ∉ decimal n := fun n => decimal_no (by decide)
  have hdec' : ∀ n, (124 : UInt8) ∉ decimal n := fun n => decimal_no (by decide)
  have hpad : ∀ n, (10 : UInt8) ∉ padLeft width (decimal n) ∧ (124 : UInt8) ∉ padLeft width (decimal n) := by
    intro n
    have h1 := hdec n
    have h2 := hdec' n
    simp [padLeft, h1, h2]
  have hlines := terminated_blocks (sep := 10) ([ascii "binary string length: " ++ decimal L ++ ascii " ",
        ascii "bwt \\ bbwt : #= " ++ decimal s.total] ++
        (List.range MAX_LENGTH).map (fun r => ((List.range MAX_LENGTH).map
          (fun c => padLeft width (decimal (shown s.stats r c)))).flatMap (· ++ [124]))) (by
      intro b hb
      rw [List.mem_append] at hb
      rcases hb with hb | hb
      · have a1 : (10 : UInt8) ∉ ascii "binary string length: " := by decide
        have a2 : (10 : UInt8) ∉ ascii " " := by decide
        have a3 : (10 : UInt8) ∉ ascii "bwt \\ bbwt : #= " := by decide
        simp only [List.mem_cons, List.not_mem_nil, or_false] at hb
        rcases hb with rfl | rfl
        · simp only [List.mem_append, not_or]; exact ⟨⟨a1, hdec _⟩, a2⟩
        · simp only [List.mem_append, not_or]; exact ⟨a3, hdec _⟩
      · obtain ⟨r, -, rfl⟩ := List.mem_map.1 hb
        rw [List.mem_flatMap]
        rintro ⟨x, hx, h10⟩
        obtain ⟨c, -, rfl⟩ := List.mem_map.1 hx
        rw [List.mem_append] at h10
        rcases h10 with h10 | h10
        · exact (hpad _).1 h10
        · exact absurd h10 (by decide))
  refine ⟨_, width, hout, ?_⟩
  rw [hlines]
  refine ⟨by simp [hM], rfl, by simp, by simp [htot], ?_, ?_⟩
  · intro r hr
    have hcl := terminated_blocks (sep := 124) ((List.range MAX_LENGTH).map
        (fun c => padLeft width (decimal (shown s.stats r c)))) (by
      intro x hx
      obtain ⟨c, -, rfl⟩ := List.mem_map.1 hx
      exact (hpad _).2)
    refine ⟨((List.range MAX_LENGTH).map (fun c => padLeft width (decimal (shown s.stats r c)))).flatMap (· ++ [124]),
      ?_, ?_⟩
    · rw [List.getElem?_append_right (by simp)]
      simp only [List.length_cons, List.length_nil]
      rw [show 2 + r - (0 + 1 + 1) = r by omega, List.getElem?_map, List.getElem?_range (by omega)]
      rfl
    · rw [hcl]
      refine ⟨by simp [hM], rfl, ?_, ?_⟩
      · intro x hx
        obtain ⟨c, hc, rfl⟩ := List.mem_map.1 hx
        rw [List.mem_range] at hc
        apply padLeft_length
        have h24 : ∀ n, n < 24 → (decimal n).length ≤ width := fun n hn =>
          le_trans ((decimal_length_le (by omega)).2 (by omega)) h2
        unfold shown
        split
        · exact h24 _ (by omega)
        · split
          · exact h24 _ (by omega)
          · exact hw _ _ (by omega) hc
      · intro c hc
        rw [List.getElem?_map, List.getElem?_range (by omega), Option.map_some, Option.map_some, unpad_padLeft]
        unfold shown
        rw [hentry r c (by omega) (by omega)]
  · have := sum_cells (cell L) 1 MAX_LENGTH ws (by
      intro w hw i j h
      exact cell_range (by omega) ((hm w).1 hw).1.1 h)
    rw [← ht, htot] at this
    rw [← this]
    have e : Finset.Ico 1 MAX_LENGTH = Finset.Icc 1 23 := by ext; simp [hM]; omega
    rw [e]
    refine Finset.sum_congr rfl fun r hr => Finset.sum_congr rfl fun c hc' => ?_
    rw [Finset.mem_Icc] at hr hc'
    rw [← hc, hentry r c (by omega) (by omega)]

example := C92_printed_table 3 6 (by decide) (by decide) _ (C57_finishes 3 6).choose_spec.1 (C57_finishes 3 6).choose_spec.2

end Verif.Props
