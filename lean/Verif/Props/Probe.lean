import Verif.Model.Probe
import Verif.Lemmas.Analyse
import Verif.Props.Bbwt

/-! # C75: what `probe_main` prints -/

namespace Verif.Props

open Verif Spec Model Par

theorem map_ofNat_lt {u v : List Nat} (hu : ∀ c ∈ u, c < 256) (hv : ∀ c ∈ v, c < 256) :
    u.map UInt8.ofNat < v.map UInt8.ofNat ↔ u < v := by
  induction u generalizing v with
  | nil => cases v <;> simp
  | cons a u ih =>
    cases v with
    | nil => simp
    | cons b v =>
      have ha := hu a (by simp)
      have hb := hv b (by simp)
      rw [List.map_cons, List.map_cons, List.cons_lt_cons_iff, List.cons_lt_cons_iff,
        ih (fun c hc => hu c (by simp [hc])) (fun c hc => hv c (by simp [hc])), UInt8.lt_iff_toNat_lt,
        ← UInt8.toNat_inj]
      simp only [UInt8.toNat_ofNat']
      rw [Nat.mod_eq_of_lt (by omega), Nat.mod_eq_of_lt (by omega)]

theorem lyndon_map_ofNat {w : List Nat} (hw : IsLyndon w) (h : ∀ c ∈ w, c < 256) : IsLyndon (w.map UInt8.ofNat) := by
  rw [isLyndon_iff_drop] at hw ⊢
  refine ⟨by simpa using hw.1, fun i h1 h2 => ?_⟩
  rw [← List.map_drop, map_ofNat_lt h (fun c hc => h c (List.mem_of_mem_drop hc))]
  exact hw.2 i (by simpa using h1) h2

theorem probe_rounds (r : Nat) (us : List (List UInt8)) (hus : ∀ u ∈ us, u ≠ []) (s : ProbeState) :
    ∃ s', forEach us s (probeConjugate r) = .ok s' ∧ s.wins ≤ s'.wins ∧
      (s'.wins = s.wins ↔ ∀ u ∈ us, r ≤ bbwtRuns u) ∧
      (s.runs = r → (∀ u ∈ us, r ≤ bbwtRuns u) → s'.runs = r ∧ s'.conj = s.conj) := by
  induction us generalizing s with
  | nil => exact ⟨s, rfl, le_refl _, by simp, fun h _ => ⟨h, rfl⟩⟩
  | cons u us ih =>
    obtain ⟨b, hb⟩ := bbwt_total (hus u (by simp))
    have hbr : bbwtRuns u = numberOfRuns (sliceReader b) := by rw [bbwtRuns, hb]; rfl
    obtain ⟨s', h1, h2, h3, h4⟩ := ih (fun v hv => hus v (by simp [hv]))
      (if s.runs > bbwtRuns u then ⟨if bbwtRuns u < r then s.wins + 1 else s.wins, u, bbwtRuns u⟩
        else { s with wins := if bbwtRuns u < r then s.wins + 1 else s.wins })
    have hw : (if s.runs > bbwtRuns u then
        (⟨if bbwtRuns u < r then s.wins + 1 else s.wins, u, bbwtRuns u⟩ : ProbeState)
        else { s with wins := if bbwtRuns u < r then s.wins + 1 else s.wins }).wins =
        if bbwtRuns u < r then s.wins + 1 else s.wins := by split <;> rfl
    rw [hw] at h2 h3
    refine ⟨s', ?_, ?_, ?_, ?_⟩
    · rw [forEach_cons, probeConjugate, hb, ok_bind]
      rw [hbr] at h1
      exact h1
    · split at h2 <;> omega
    · simp only [List.mem_cons, forall_eq_or_imp]
      by_cases hlt : bbwtRuns u < r
      · rw [if_pos hlt] at h2
        constructor
        · intro h; omega
        · intro h; omega
      · rw [if_neg hlt] at h3
        rw [h3]
        constructor
        · intro h; exact ⟨by omega, h⟩
        · intro h; exact h.2
    · intro hr hall
      have hu := hall u (by simp)
      have hng : ¬ s.runs > bbwtRuns u := by omega
      rw [if_neg hng] at h4
      exact h4 hr (fun v hv => hall v (by simp [hv]))

/-- The line printed for a word `w` over `0`, `1` whose BWT has `r` runs. -/
def probeLine (w : List Nat) (r : Nat) : List UInt8 :=
  let text := w.map fun c => if c = 0 then (97 : UInt8) else 98
  ascii "text=" ++ text ++ ascii " conj=" ++ text ++ ascii " rbwt=" ++ decimal r ++ ascii " rbbwt=" ++ decimal r ++ [10]

theorem probeWord_ok {M : Nat} {w : List Nat} (hw : IsLyndon w) (hl : w.length ≤ M) (h2 : ∀ c ∈ w, c < 2)
    (out : List UInt8) :
    probeWord M w out = .ok (out ++
      if 10 ≤ bwtRuns (w.map UInt8.ofNat) ∧
          ∀ i, i < w.length → bwtRuns (w.map UInt8.ofNat) ≤ bbwtRuns (rot i (w.map UInt8.ofNat)) then
        probeLine w (bwtRuns (w.map UInt8.ofNat)) else []) := by
  have hn := hw.length_pos
  unfold probeWord
  simp only [List.length_map]
  set t := w.map UInt8.ofNat with ht
  have htl : t.length = w.length := by simp [ht]
  have htne : t ≠ [] := by rw [← List.length_pos_iff]; omega
  obtain ⟨b, h1, hb2⟩ := bwtByMatrixNaive_ok t
  have hbr : numberOfRuns (sliceReader b) = bwtRuns t := by rw [bwtRuns, h1]; rfl
  rw [h1, ok_bind]
  have ha : assertR (decide (w.length > 0)) = .ok () := by rw [assertR, if_pos (decide_eq_true hn)]
  have hb : assertR (decide (w.length - 1 < M)) = .ok () := by
    rw [assertR, if_pos (decide_eq_true (by omega))]
  simp only [ha, ok_bind, usub_ok (show 1 ≤ w.length by omega), hb, hbr]
  rw [forIter_eq (conj_yields t) _ _ (by simp; omega)]
  have hlyn : IsLyndon t := lyndon_map_ofNat hw (fun c hc => by have := h2 c hc; omega)
  have hself : bbwtRuns t = bwtRuns t := by
    obtain ⟨b', g1, g2, -⟩ := C18_bbwt_lyndon t hlyn
    rw [bbwtRuns, bwtRuns, g1, g2]
  have hus : ∀ u ∈ (List.range t.length).map (rot · t), u ≠ [] := by
    intro u hu
    obtain ⟨i, hi, rfl⟩ := List.mem_map.1 hu
    rw [← List.length_pos_iff, rot_length]; omega
  obtain ⟨m, hm⟩ : ∃ m, t.length = m + 1 := ⟨t.length - 1, by omega⟩
  have hlist : (List.range t.length).map (rot · t) = t :: (List.range' 1 m).map (rot · t) := by
    rw [hm, List.range_eq_range', List.range'_succ, List.map_cons, rot_zero]
  have hall : (∀ u ∈ (List.range t.length).map (rot · t), bwtRuns t ≤ bbwtRuns u) ↔
      ∀ i, i < w.length → bwtRuns t ≤ bbwtRuns (rot i t) := by
    rw [← htl]
    constructor
    · intro h i hi
      exact h _ (List.mem_map.2 ⟨i, List.mem_range.2 hi, rfl⟩)
    · intro h u hu
      obtain ⟨i, hi, rfl⟩ := List.mem_map.1 hu
      exact h i (List.mem_range.1 hi)
  obtain ⟨s, e1, -, e3, -⟩ := probe_rounds (bwtRuns t) _ hus ⟨0, t, M⟩
  have hstr : binaryVectorToStr t = w.map fun c => if c = 0 then (97 : UInt8) else 98 := by
    rw [binaryVectorToStr, ht, List.map_map]
    apply List.map_congr_left
    intro c hc
    have := h2 c hc
    have : c = 0 ∨ c = 1 := by omega
    rcases this with rfl | rfl <;> rfl
  have hbest : (∀ u ∈ (List.range t.length).map (rot · t), bwtRuns t ≤ bbwtRuns u) →
      s.runs = bwtRuns t ∧ s.conj = t := by
    intro h
    rw [hlist] at e1 h
    obtain ⟨bb, hbb⟩ := bbwt_total htne
    have hbbr : numberOfRuns (sliceReader bb) = bwtRuns t := by rw [← hself, bbwtRuns, hbb]; rfl
    have hle : bwtRuns t ≤ M := le_trans (bwtRuns_le t) (by omega)
    rw [forEach_cons, probeConjugate, hbb, ok_bind] at e1
    simp only [hbbr, lt_irrefl, if_false, pure_ok, ok_bind] at e1
    obtain ⟨s', f1, -, -, f4⟩ := probe_rounds (bwtRuns t) ((List.range' 1 m).map (rot · t))
      (fun u hu => hus u (by rw [hlist]; simp only [List.mem_cons]; right; exact hu))
      (if M > bwtRuns t then ⟨0, t, bwtRuns t⟩ else ⟨0, t, M⟩)
    rw [f1] at e1
    injection e1 with e1
    subst e1
    have hr : (if M > bwtRuns t then (⟨0, t, bwtRuns t⟩ : ProbeState) else ⟨0, t, M⟩).runs = bwtRuns t := by
      split
      · rfl
      · show M = _; omega
    have hc : (if M > bwtRuns t then (⟨0, t, bwtRuns t⟩ : ProbeState) else ⟨0, t, M⟩).conj = t := by
      split <;> rfl
    obtain ⟨k1, k2⟩ := f4 hr (fun v hv => h v (by simp only [List.mem_cons]; right; exact hv))
    exact ⟨k1, k2.trans hc⟩
  rw [e1, ok_bind]
  by_cases hcond : 10 ≤ bwtRuns t ∧ ∀ i, i < w.length → bwtRuns t ≤ bbwtRuns (rot i t)
  · obtain ⟨g1, g2⟩ := hbest (hall.2 hcond.2)
    have hw0 : s.wins = 0 := e3.2 (hall.2 hcond.2)
    rw [if_pos ⟨hw0, hcond.1⟩, if_pos hcond, g1, g2, hstr, pure_ok]
    simp only [probeLine, List.append_assoc]
  · rw [if_neg hcond, if_neg, pure_ok, List.append_nil]
    rintro ⟨k1, k2⟩
    exact hcond ⟨k2, hall.1 (e3.1 k1)⟩

/-- C75: `probe_main` ends without a panic, whatever the length bound `M` is, and prints exactly one line for each binary
Lyndon word of length at most `M` whose BWT has at least 10 runs and none of whose rotations has a bijective BWT with
fewer runs than that; the lines come in lexicographic order, and on every line the "best conjugate" is the word itself
and the two run numbers agree. -/
theorem C75_probe_output (M : Nat) :
    ∃ ws : List (List Nat), ws.Pairwise (· < ·) ∧
      (∀ w, w ∈ ws ↔ (IsLyndon w ∧ w.length ≤ M ∧ ∀ c ∈ w, c < 2) ∧
        ∃ b, bwtByMatrixNaive (w.map UInt8.ofNat) = .ok b ∧ 10 ≤ numberOfRuns (sliceReader b) ∧
          ∀ i, i < w.length → ∃ c, bbwtNaive ((w.drop i ++ w.take i).map UInt8.ofNat) = .ok c ∧
            numberOfRuns (sliceReader b) ≤ numberOfRuns (sliceReader c)) ∧
      ∃ F, ∀ fuel, F < fuel → probeMain M fuel = .ok (ws.flatMap fun w =>
        probeLine w (match bwtByMatrixNaive (w.map UInt8.ofNat) with
          | .ok b => numberOfRuns (sliceReader b)
          | .error _ => 0)) := by
  obtain ⟨ws, h1, h2, h3⟩ := lwg_all (n := M) (show 0 < 2 by omega) (show 2 ≤ 256 by omega)
  classical
  set P : List Nat → Prop := fun w => 10 ≤ bwtRuns (w.map UInt8.ofNat) ∧
    ∀ i, i < w.length → bwtRuns (w.map UInt8.ofNat) ≤ bbwtRuns (rot i (w.map UInt8.ofNat)) with hP
  refine ⟨ws.filter (fun w => decide (P w)), h1.filter _, fun w => ?_, ws.length, fun fuel hf => ?_⟩
  · rw [List.mem_filter, h2, decide_eq_true_iff]
    apply and_congr_right
    rintro ⟨hw, -, -⟩
    have hn := hw.length_pos
    obtain ⟨b, g1, -⟩ := bwtByMatrixNaive_ok (w.map UInt8.ofNat)
    have hbr : numberOfRuns (sliceReader b) = bwtRuns (w.map UInt8.ofNat) := by rw [bwtRuns, g1]; rfl
    have hrot : ∀ i, (w.drop i ++ w.take i).map UInt8.ofNat = rot i (w.map UInt8.ofNat) := by
      intro i; rw [List.map_append, List.map_drop, List.map_take]; rfl
    have hbb : ∀ i, ∃ c, bbwtNaive (rot i (w.map UInt8.ofNat)) = .ok c ∧
        numberOfRuns (sliceReader c) = bbwtRuns (rot i (w.map UInt8.ofNat)) := by
      intro i
      have hne : rot i (w.map UInt8.ofNat) ≠ [] := by
        rw [← List.length_pos_iff, rot_length, List.length_map]; exact hn
      obtain ⟨c, hc⟩ := bbwt_total hne
      exact ⟨c, hc, by rw [bbwtRuns, hc]; rfl⟩
    constructor
    · rintro ⟨k1, k2⟩
      refine ⟨b, g1, by omega, fun i hi => ?_⟩
      obtain ⟨c, c1, c2⟩ := hbb i
      have := k2 i hi
      exact ⟨c, by rw [hrot]; exact c1, by omega⟩
    · rintro ⟨b', k0, k1, k2⟩
      rw [g1] at k0
      injection k0 with k0
      subst k0
      refine ⟨by omega, fun i hi => ?_⟩
      obtain ⟨c, c1, c2⟩ := k2 i hi
      obtain ⟨c', d1, d2⟩ := hbb i
      rw [hrot, d1] at c1
      injection c1 with c1
      subst c1
      omega
  · rw [probeMain, forIter_eq h3 _ _ hf]
    have key : ∀ (us : List (List Nat)) (out : List UInt8), (∀ w ∈ us, w ∈ ws) →
        forEach us out (probeWord M) = .ok (out ++ (us.filter (fun w => decide (P w))).flatMap fun w =>
          probeLine w (match bwtByMatrixNaive (w.map UInt8.ofNat) with
          | .ok b => numberOfRuns (sliceReader b)
          | .error _ => 0)) := by
      intro us
      induction us with
      | nil => intro out _; simp [forEach_nil]
      | cons w us ih =>
        intro out hmem
        obtain ⟨k1, k2, k3⟩ := (h2 w).1 (hmem w (by simp))
        rw [forEach_cons, probeWord_ok k1 k2 k3, ok_bind, ih _ (fun v hv => hmem v (by simp [hv]))]
        by_cases hp : P w
        · rw [if_pos hp, List.filter_cons_of_pos (by simpa using hp), List.flatMap_cons, List.append_assoc]
          rfl
        · rw [if_neg hp, List.filter_cons_of_neg (by simpa using hp), List.append_nil]
    rw [key ws [] (fun _ h => h), List.nil_append]

/-- Concrete case: `aaababbbabaaabbb` is printed. -/
example : probeWord 16 [0, 0, 0, 1, 0, 1, 1, 1, 0, 1, 0, 0, 0, 1, 1, 1] [] =
    .ok (probeLine [0, 0, 0, 1, 0, 1, 1, 1, 0, 1, 0, 0, 0, 1, 1, 1] 10) ∧ probeMain 3 6 = .ok [] := by decide +kernel

end Verif.Props
