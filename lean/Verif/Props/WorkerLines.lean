import Verif.Lemmas.Conjugates
import Verif.Props.Parallel

/-! # C93: the lines printed by the workers of `main` of `src/unfinished/parallel.rs` -/

namespace Verif.Props

open Verif Spec Model Par

/-- The line reporting the word `u`, its bijective BWT `b` with `k` runs, and its `r` factors. -/
def workerLine (b u : List UInt8) (k r : Nat) : List UInt8 :=
  let letters (v : List UInt8) : List UInt8 := v.map fun c => if c = 0 then 97 else 98
  ascii "bbwt=" ++ letters b ++ ascii " conjugate=" ++ letters u ++ ascii " bbwt_runs=" ++ decimal k ++
    ascii " #factors=" ++ decimal r ++ [10]

/-- `x` is the line for the word `u`: the bijective BWT of `u` has `k` maximal runs, the factor counter reports `r`, and
`k ≤ r + 1`. -/
def LineFor (u x : List UInt8) : Prop :=
  ∃ b k r, bbwtNaive u = .ok b ∧ k = changes b + 1 ∧ numberDistinctLyndonFactors u = .ok r ∧ k ≤ r + 1 ∧
    x = workerLine b u k r

theorem mem_lineOf {u : List UInt8} (hu : u ≠ []) (x : List UInt8) : x ∈ lineOf u ↔ LineFor u x := by
  obtain ⟨b, hb⟩ := bbwt_total hu
  obtain ⟨r, hr⟩ := numberDistinct_total u
  have hbne : b ≠ [] := by
    have := (bbwt_perm hu hb).length_eq
    rw [← List.length_pos_iff] at hu ⊢
    omega
  have hk : runCount b = changes b + 1 := by
    rw [runCount, numberOfRuns_ok, delivered_slice, runsOf_length hbne, Nat.add_comm]
  unfold lineOf LineFor
  rw [hb, hr]
  simp only [hk]
  constructor
  · intro h
    split at h
    · rename_i hle
      rw [List.mem_singleton] at h
      exact ⟨b, _, r, rfl, rfl, rfl, hle, h⟩
    · simp at h
  · rintro ⟨b', k, r', hb', rfl, hr', hle, rfl⟩
    injection hb' with hb'
    injection hr' with hr'
    subst hb' hr'
    rw [if_pos hle]
    exact List.mem_singleton.2 rfl

theorem letters_inj {u v : List UInt8} (hu : ∀ c ∈ u, c < 2) (hv : ∀ c ∈ v, c < 2)
    (h : binaryVectorToStr u = binaryVectorToStr v) : u = v := by
  induction u generalizing v with
  | nil => cases v with
    | nil => rfl
    | cons b v => simp [binaryVectorToStr] at h
  | cons a u ih => cases v with
    | nil => simp [binaryVectorToStr] at h
    | cons b v =>
      simp only [binaryVectorToStr, List.map_cons, List.cons.injEq] at h
      have ha := hu a (by simp)
      have hb := hv b (by simp)
      rw [ih (fun c hc => hu c (by simp [hc])) (fun c hc => hv c (by simp [hc])) h.2]
      congr 1
      have h1 := h.1
      have two : ∀ c : UInt8, c < 2 → c = 0 ∨ c = 1 := by
        intro c hc
        rw [UInt8.lt_iff_toNat_lt] at hc
        have hc' : c.toNat < 2 := hc
        rw [← UInt8.toNat_inj, ← UInt8.toNat_inj]
        show c.toNat = 0 ∨ c.toNat = 1
        omega
      rcases two a ha with rfl | rfl <;> rcases two b hb with rfl | rfl <;> first | rfl | simp at h1

theorem lineFor_inj {u v x : List UInt8} (hu : u ≠ []) (hl : u.length = v.length) (hu2 : ∀ c ∈ u, c < 2)
    (hv2 : ∀ c ∈ v, c < 2) (h1 : LineFor u x) (h2 : LineFor v x) : u = v := by
  have hv : v ≠ [] := by rw [← List.length_pos_iff] at hu ⊢; omega
  obtain ⟨b, k, r, hb, -, -, -, rfl⟩ := h1
  obtain ⟨b', k', r', hb', -, -, -, e⟩ := h2
  have l1 := (bbwt_perm hu hb).length_eq
  have l2 := (bbwt_perm hv hb').length_eq
  simp only [workerLine, List.append_assoc] at e
  have e1 := List.append_cancel_left e
  have e2 := (List.append_inj e1 (by simp; omega)).2
  have e3 := List.append_cancel_left e2
  exact letters_inj hu2 hv2 (List.append_inj e3 (by simpa using hl)).1

/-- C93: whatever the interleaving of the workers, when all of them have left their loops they have printed, in some
order and each exactly once, the lines of the primitive binary words `u` of length `L` whose bijective BWT has at most
one run more than the reported number of factors, and nothing else. -/
theorem C93_worker_lines (T L : Nat) (hT : 0 < T) (hL : 1 ≤ L ∧ L ≤ MAX_LENGTH)
    (s : PState LyndonWordGenerator (List Nat) T) (hr : MainReachable L s)
    (hstop : ∀ t, s.pc t = .stopped) :
    s.out.Nodup ∧
    ∀ x, x ∈ s.out ↔ ∃ u : List UInt8, u.length = L ∧ (∀ c ∈ u, c < 2) ∧ IsPrimitive u ∧ LineFor u x := by
  obtain ⟨ws, hn, hm, hy, hg⟩ := main_good L
  obtain ⟨taken, rest, hi⟩ := reach_inv hy hg hr
  obtain ⟨-, -, -, hp⟩ := hi.final hT hstop
  have hby : ∀ w ∈ ws, ∀ c ∈ w.map UInt8.ofNat, c < 2 := by
    intro w hw c hc
    obtain ⟨d, hd, rfl⟩ := List.mem_map.1 hc
    have := ((hm w).1 hw).2.2 d hd
    have : d = 0 ∨ d = 1 := by omega
    rcases this with rfl | rfl <;> decide
  have hlyn : ∀ w ∈ ws, IsLyndon (w.map UInt8.ofNat) := fun w hw =>
    lyndon_map_ofNat ((hm w).1 hw).1 (fun c hc => by have := ((hm w).1 hw).2.2 c hc; omega)
  have hrot : ∀ w ∈ ws, ∀ k, ∀ c ∈ rot k (w.map UInt8.ofNat), c < 2 := fun w hw k c hc =>
    hby w hw c ((rot_perm k _).mem_iff.1 hc)
  have hne : ∀ w ∈ ws, ∀ k, rot k (w.map UInt8.ofNat) ≠ [] := fun w hw k => by
    rw [← List.length_pos_iff, rot_length, List.length_pos_iff]
    exact (hlyn w hw).1
  have hmem : ∀ w ∈ ws, ∀ x, x ∈ cellLines L w ↔
      w.length = L ∧ ∃ k, k < w.length ∧ LineFor (rot k (w.map UInt8.ofNat)) x := by
    intro w hw x
    unfold cellLines
    split
    · rename_i h
      simp only [List.mem_flatMap, List.mem_map, List.mem_range, h, true_and]
      constructor
      · rintro ⟨u, ⟨k, hk, rfl⟩, hx⟩
        exact ⟨k, hk, (mem_lineOf (hne w hw k) x).1 hx⟩
      · rintro ⟨k, hk, hx⟩
        exact ⟨_, ⟨k, hk, rfl⟩, (mem_lineOf (hne w hw k) x).2 hx⟩
    · rename_i h
      simp [h]
  have hinj : ∀ v ∈ ws, ∀ w ∈ ws, ∀ i j x, v.length = L → w.length = L → i < v.length → j < w.length →
      LineFor (rot i (v.map UInt8.ofNat)) x → LineFor (rot j (w.map UInt8.ofNat)) x → v = w ∧ i = j := by
    intro v hv w hw i j x lv lw hi hj h1 h2
    have e := lineFor_inj (hne v hv i) (by simp [rot_length, lv, lw]) (hrot v hv i) (hrot w hw j) h1 h2
    obtain ⟨e1, e2⟩ := rot_lyndon_inj (hlyn v hv) (hlyn w hw) (by simpa using hi) (by simpa using hj) e
    refine ⟨?_, e2⟩
    have back : ∀ w ∈ ws, (w.map UInt8.ofNat).map UInt8.toNat = w := by
      intro w hw
      rw [List.map_map]
      conv_rhs => rw [← List.map_id w]
      apply List.map_congr_left
      intro c hc
      have := ((hm w).1 hw).2.2 c hc
      simp only [Function.comp, UInt8.toNat_ofNat', id]
      omega
    rw [← back v hv, ← back w hw, e1]
  constructor
  · rw [hp.nodup_iff, List.nodup_flatMap]
    constructor
    · intro w hw
      unfold cellLines
      split
      · rename_i hl
        rw [List.nodup_flatMap]
        constructor
        · intro u _
          unfold lineOf
          split
          · split <;> simp
          · simp
        · rw [List.pairwise_map]
          refine List.nodup_range.imp_of_mem ?_
          intro i j hi' hj' hij
          rw [List.mem_range] at hi' hj'
          intro x h1 h2
          exact hij (hinj w hw w hw i j x hl hl hi' hj' ((mem_lineOf (hne w hw i) x).1 h1)
            ((mem_lineOf (hne w hw j) x).1 h2)).2
      · simp
    · refine hn.imp_of_mem ?_
      intro v w hv hw hvw x h1 h2
      obtain ⟨lv, i, hi', hx1⟩ := (hmem v hv x).1 h1
      obtain ⟨lw, j, hj', hx2⟩ := (hmem w hw x).1 h2
      exact hvw (hinj v hv w hw i j x lv lw hi' hj' hx1 hx2).1
  · intro x
    rw [hp.mem_iff, List.mem_flatMap]
    constructor
    · rintro ⟨w, hw, hx⟩
      obtain ⟨lw, k, hk, hx⟩ := (hmem w hw x).1 hx
      exact ⟨_, by simp [rot_length, lw], hrot w hw k, rot_lyndon_primitive (hlyn w hw) (by simpa using hk), hx⟩
    · rintro ⟨u, hul, hu2, hup, hx⟩
      have hune : u ≠ [] := by rw [← List.length_pos_iff]; omega
      obtain ⟨v, k, hv, hk, rfl⟩ := primitive_rot_lyndon hune hup
      rw [rot_length] at hul
      have hid : (v.map UInt8.toNat).map UInt8.ofNat = v := by
        rw [List.map_map]
        conv_rhs => rw [← List.map_id v]
        apply List.map_congr_left
        intro c _; simp
      have hw : v.map UInt8.toNat ∈ ws := by
        rw [hm]
        refine ⟨lyndon_map_toNat hv, by simp; omega, ?_⟩
        intro c hc
        obtain ⟨d, hd, rfl⟩ := List.mem_map.1 hc
        have := hu2 d ((rot_perm k v).mem_iff.2 hd)
        rw [UInt8.lt_iff_toNat_lt] at this
        exact this
      refine ⟨_, hw, (hmem _ hw x).2 ⟨by simpa using hul, k, by simpa using hk, ?_⟩⟩
      rw [hid]
      exact hx

example := C93_worker_lines 3 6 (by decide) (by decide) _ (C57_finishes 3 6).choose_spec.1 (C57_finishes 3 6).choose_spec.2

/-- C93: the lines printed do not depend on the number of workers or the interleaving, except for their order. -/
theorem C93_schedule_independent (T T' L : Nat) (hT : 0 < T) (hT' : 0 < T')
    (s : PState LyndonWordGenerator (List Nat) T) (hr : MainReachable L s)
    (hstop : ∀ t, s.pc t = .stopped)
    (s' : PState LyndonWordGenerator (List Nat) T') (hr' : MainReachable L s')
    (hstop' : ∀ t, s'.pc t = .stopped) : s.out.Perm s'.out := by
  obtain ⟨ws, hn, hm, hy, hg⟩ := main_good L
  obtain ⟨_, _, hi⟩ := reach_inv hy hg hr
  obtain ⟨_, _, hi'⟩ := reach_inv hy hg hr'
  exact (hi.final hT hstop).2.2.2.trans (hi'.final hT' hstop').2.2.2.symm

example : ∃ (s : PState LyndonWordGenerator (List Nat) 3) (s' : PState LyndonWordGenerator (List Nat) 2), s.out.Perm s'.out := by
  obtain ⟨s, h, hs⟩ := C57_finishes 3 6
  obtain ⟨s', h', hs'⟩ := C57_finishes 2 6
  exact ⟨s, s', C93_schedule_independent 3 2 6 (by decide) (by decide) s h hs s' h' hs'⟩

/-- The rotation `abb` of the Lyndon word itself is reported: its bijective BWT is `bba`, two runs, one factor. -/
example : LineFor [0, 1, 1] (ascii "bbwt=bba conjugate=abb bbwt_runs=2 #factors=1\n") :=
  (mem_lineOf (by simp) _).1 (by decide +kernel)
example : IsPrimitive ([0, 1, 1] : List UInt8) :=
  rot_zero ([0, 1, 1] : List UInt8) ▸ rot_lyndon_primitive (k := 0) (by
    rw [isLyndon_iff_drop]; decide) (by decide)

end Verif.Props
