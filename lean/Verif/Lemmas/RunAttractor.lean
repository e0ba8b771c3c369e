import Verif.Lemmas.FibBwt
import Verif.Spec.Attractor
import Verif.Spec.Streams

/-! # The borders of the runs of a Burrows-Wheeler transform form a string attractor -/

namespace Verif
open Spec

theorem prefix_between {α : Type} [LinearOrder α] {w x y z : List α} (hx : w <+: x) (hz : w <+: z)
    (h1 : x ≤ y) (h2 : y ≤ z) : w <+: y := by
  induction w generalizing x y z with
  | nil => exact List.nil_prefix
  | cons c w ih =>
    obtain ⟨x', rfl⟩ := hx
    obtain ⟨z', rfl⟩ := hz
    rw [List.cons_append] at h1 h2
    cases y with
    | nil => exact absurd (List.nil_lt_cons _ _) (not_lt.2 h1)
    | cons d y =>
      have a : ¬ (d < c ∨ d = c ∧ y < w ++ x') := by rw [← cons_lt_cons]; exact not_lt.2 h1
      have b : ¬ (c < d ∨ c = d ∧ w ++ z' < y) := by rw [← cons_lt_cons]; exact not_lt.2 h2
      push Not at a b
      have : d = c := le_antisymm b.1 a.1
      subst this
      rw [List.prefix_cons_inj]
      exact ih (List.prefix_append _ _) (List.prefix_append _ _) (a.2 rfl) (b.2 rfl)

/-- Index `i` is the first or the last one of a run of `b`. -/
def RunBorder (b : List UInt8) (i : Nat) : Prop :=
  i = 0 ∨ i + 1 = b.length ∨ b[i]? ≠ b[i - 1]? ∨ b[i]? ≠ b[i + 1]?

/-- The position of the letter a BWT entry stands for. -/
def bwtPos (n : Nat) (s : Nat) : Nat := if s = 0 then n - 1 else s - 1

section
variable {T : List UInt8} {sa : List Nat} {b : List UInt8}

theorem runAttractor_step (hsa : IsSuffixArray (T ++ [0]) sa)
    (hb : b.map some = sa.map (fun i => (rot i (T ++ [0])).getLast?)) {c : UInt8} {w : List UInt8} {j : Nat}
    (hj : j + (c :: w).length ≤ T.length + 1) (hocc : c :: w <+: (T ++ [0]).drop j) :
    (∃ i s : Nat, sa[i]? = some s ∧ RunBorder b i ∧ b[i]? = some c ∧ w <+: (T ++ [0]).drop s) ∨
    (∀ (i s : Nat), sa[i]? = some s → w <+: (T ++ [0]).drop s → b[i]? = some c) := by
  have hn : (T ++ [(0 : UInt8)]).length = T.length + 1 := by simp
  have hlen : sa.length = T.length + 1 := hsa.length.trans hn
  have hblen : b.length = T.length + 1 := by
    have := congrArg List.length hb
    rw [List.length_map, List.length_map] at this
    omega
  have hlast : (T ++ [(0 : UInt8)]).getLast? = some 0 := by simp
  have hbi : ∀ (i s : Nat), sa[i]? = some s → b[i]? = (0 :: (T ++ [0]))[s]? := by
    intro i s hs
    have h1 : (b.map some)[i]? = some ((rot s (T ++ [0])).getLast?) := by
      rw [hb, List.getElem?_map, hs]; rfl
    have hsn : s < (T ++ [(0 : UInt8)]).length := hsa.mem.1 (List.mem_of_getElem? hs)
    rw [rot_getLast_cons hlast hsn, List.getElem?_map] at h1
    cases hbb : b[i]? with
    | none => rw [hbb] at h1; simp at h1
    | some x => rw [hbb] at h1; simpa using h1
  -- an index whose suffix starts with `w` and is preceded by `c`
  have h0 : ∃ i s : Nat, sa[i]? = some s ∧ b[i]? = some c ∧ w <+: (T ++ [0]).drop s := by
    have hc : (T ++ [(0 : UInt8)])[j]? = some c := by
      obtain ⟨r, hr⟩ := hocc
      have : ((T ++ [(0 : UInt8)]).drop j)[0]? = some c := by rw [← hr]; rfl
      rwa [List.getElem?_drop, Nat.add_zero] at this
    by_cases hj1 : j + 1 < T.length + 1
    · obtain ⟨i, hi⟩ := List.mem_iff_getElem?.1 (hsa.mem.2 (show j + 1 < (T ++ [(0 : UInt8)]).length by omega))
      refine ⟨i, j + 1, hi, ?_, ?_⟩
      · rw [hbi i _ hi, List.getElem?_cons_succ, hc]
      · obtain ⟨r, hr⟩ := hocc
        refine ⟨r, ?_⟩
        have := congrArg List.tail hr
        rw [List.cons_append, List.tail_cons, List.tail_drop] at this
        exact this
    · have hw : w = [] := by
        rw [List.length_cons] at hj
        exact List.length_eq_zero_iff.1 (by omega)
      have hjT : j = T.length := by rw [List.length_cons] at hj; omega
      subst hw hjT
      obtain ⟨i, hi⟩ := List.mem_iff_getElem?.1 (hsa.mem.2 (show 0 < (T ++ [(0 : UInt8)]).length by omega))
      refine ⟨i, 0, hi, ?_, List.nil_prefix⟩
      rw [hbi i _ hi]
      simp at hc ⊢
      exact hc
  obtain ⟨i0, s0, g1, g2, g3⟩ := h0
  by_cases hex : ∃ i s : Nat, sa[i]? = some s ∧ RunBorder b i ∧ b[i]? = some c ∧ w <+: (T ++ [0]).drop s
  · exact Or.inl hex
  · right
    have hin : ∀ (i s : Nat), sa[i]? = some s → b[i]? = some c → w <+: (T ++ [0]).drop s →
        b[i - 1]? = some c ∧ b[i + 1]? = some c := by
      intro i s h1 h2 h3
      have : ¬ RunBorder b i := fun h => hex ⟨i, s, h1, h, h2, h3⟩
      unfold RunBorder at this
      push Not at this
      obtain ⟨-, -, h4, h5⟩ := this
      exact ⟨h4.symm.trans h2, h5.symm.trans h2⟩
    have hlt : ∀ (i i' s s' : Nat), i < i' → sa[i]? = some s → sa[i']? = some s' →
        (T ++ [(0 : UInt8)]).drop s ≤ (T ++ [0]).drop s' := by
      intro i i' s s' h h1 h2
      obtain ⟨p1, e1⟩ := List.getElem?_eq_some_iff.1 h1
      obtain ⟨p2, e2⟩ := List.getElem?_eq_some_iff.1 h2
      have := (List.pairwise_iff_getElem.1 hsa.2) i i' p1 p2 h
      rw [e1, e2] at this
      exact this.le
    have hget : ∀ i, i < sa.length → ∃ s, sa[i]? = some s := fun i hi => ⟨_, List.getElem?_eq_getElem hi⟩
    have up : ∀ d s, sa[i0 + d]? = some s → w <+: (T ++ [0]).drop s → b[i0 + d]? = some c := by
      intro d
      induction d with
      | zero => intro s _ _; exact g2
      | succ d ih =>
        intro s h1 h2
        obtain ⟨p1, -⟩ := List.getElem?_eq_some_iff.1 h1
        obtain ⟨s', hs'⟩ := hget (i0 + d) (by omega)
        have hpre : w <+: (T ++ [0]).drop s' := by
          rcases Nat.eq_zero_or_pos d with rfl | hd
          · rw [Nat.add_zero, g1, Option.some.injEq] at hs'
            rw [← hs']; exact g3
          · exact prefix_between g3 h2 (hlt _ _ _ _ (by omega) g1 hs') (hlt _ _ _ _ (by omega) hs' h1)
        exact (hin _ _ hs' (ih s' hs' hpre) hpre).2
    have down : ∀ d s, d ≤ i0 → sa[i0 - d]? = some s → w <+: (T ++ [0]).drop s → b[i0 - d]? = some c := by
      intro d
      induction d with
      | zero => intro s _ _ _; exact g2
      | succ d ih =>
        intro s hd h1 h2
        obtain ⟨p0, -⟩ := List.getElem?_eq_some_iff.1 g1
        obtain ⟨s', hs'⟩ := hget (i0 - d) (by omega)
        have hpre : w <+: (T ++ [0]).drop s' := by
          rcases Nat.eq_zero_or_pos d with rfl | hd
          · rw [Nat.sub_zero, g1, Option.some.injEq] at hs'
            rw [← hs']; exact g3
          · exact prefix_between h2 g3 (hlt _ _ _ _ (by omega) h1 hs') (hlt _ _ _ _ (by omega) hs' g1)
        have := (hin _ _ hs' (ih s' (by omega) hs' hpre) hpre).1
        rwa [show i0 - d - 1 = i0 - (d + 1) by omega] at this
    intro i s h1 h2
    rcases Nat.le_total i0 i with h | h
    · have := up (i - i0) s
      rw [show i0 + (i - i0) = i by omega] at this
      exact this h1 h2
    · have := down (i0 - i) s (by omega)
      rw [show i0 - (i0 - i) = i by omega] at this
      exact this h1 h2

theorem runAttractor_occ (h0 : ∀ x ∈ T, x ≠ 0) (hsa : IsSuffixArray (T ++ [0]) sa)
    (hb : b.map some = sa.map (fun i => (rot i (T ++ [0])).getLast?)) : ∀ (w : List UInt8) (j : Nat), w ≠ [] →
    j + w.length ≤ T.length + 1 → w <+: (T ++ [0]).drop j →
    ∃ j', OccursAt w (T ++ [0]) j' ∧ ∃ i s : Nat, sa[i]? = some s ∧ RunBorder b i ∧
      j' ≤ bwtPos (T.length + 1) s ∧ bwtPos (T.length + 1) s < j' + w.length := by
  have hn : (T ++ [(0 : UInt8)]).length = T.length + 1 := by simp
  have hlen : sa.length = T.length + 1 := hsa.length.trans hn
  have hlast : (T ++ [(0 : UInt8)]).getLast? = some 0 := by simp
  have hbi : ∀ (i s : Nat), sa[i]? = some s → b[i]? = (0 :: (T ++ [0]))[s]? := by
    intro i s hs
    have h1 : (b.map some)[i]? = some ((rot s (T ++ [0])).getLast?) := by
      rw [hb, List.getElem?_map, hs]; rfl
    have hsn : s < (T ++ [(0 : UInt8)]).length := hsa.mem.1 (List.mem_of_getElem? hs)
    rw [rot_getLast_cons hlast hsn, List.getElem?_map] at h1
    cases hbb : b[i]? with
    | none => rw [hbb] at h1; simp at h1
    | some x => rw [hbb] at h1; simpa using h1
  have hzero : ∀ (w : List UInt8) (j : Nat), (0 : UInt8) :: w <+: (T ++ [0]).drop j → j = T.length := by
    intro w j h
    have hc : (T ++ [(0 : UInt8)])[j]? = some 0 := by
      obtain ⟨r, hr⟩ := h
      have : ((T ++ [(0 : UInt8)]).drop j)[0]? = some 0 := by rw [← hr]; rfl
      rwa [List.getElem?_drop, Nat.add_zero] at this
    by_contra hne
    have hj : j < T.length := by
      obtain ⟨p, -⟩ := List.getElem?_eq_some_iff.1 hc
      omega
    rw [List.getElem?_append_left hj] at hc
    exact h0 0 (List.mem_of_getElem? hc) rfl
  intro w
  induction w with
  | nil => intro j h; exact absurd rfl h
  | cons c w ih =>
    intro j _ hj hocc
    -- an occurrence of `w` at a suffix-array entry preceded by `c`
    have back : ∀ (i s : Nat), sa[i]? = some s → b[i]? = some c → w <+: (T ++ [0]).drop s →
        (s = 0 → w = []) ∧ OccursAt (c :: w) (T ++ [0]) (bwtPos (T.length + 1) s) := by
      intro i s h1 h2 h3
      have hs : s < T.length + 1 := by rw [← hn]; exact hsa.mem.1 (List.mem_of_getElem? h1)
      rw [hbi i s h1] at h2
      rcases Nat.eq_zero_or_pos s with rfl | hpos
      · have hc : c = 0 := by simpa using h2.symm
        subst hc
        have := hzero w j hocc
        have hw : w = [] := by
          rw [List.length_cons] at hj
          exact List.length_eq_zero_iff.1 (by omega)
        subst hw
        refine ⟨fun _ => rfl, ?_, ?_⟩
        · simp [bwtPos]
        · simp [bwtPos]
      · refine ⟨fun h => by omega, ?_⟩
        rw [bwtPos, if_neg (by omega)]
        obtain ⟨s', rfl⟩ : ∃ s', s = s' + 1 := ⟨s - 1, by omega⟩
        rw [List.getElem?_cons_succ] at h2
        have hd : (T ++ [(0 : UInt8)]).drop s' = c :: (T ++ [0]).drop (s' + 1) := by
          obtain ⟨p, e⟩ := List.getElem?_eq_some_iff.1 h2
          rw [List.drop_eq_getElem_cons p, e]
        have hl := h3.length_le
        rw [List.length_drop, hn] at hl
        refine ⟨?_, ?_⟩
        · rw [hn, List.length_cons]; omega
        · rw [Nat.add_sub_cancel, hd, List.prefix_cons_inj]; exact h3
    have done : ∀ (i s : Nat), sa[i]? = some s → RunBorder b i → b[i]? = some c → w <+: (T ++ [0]).drop s →
        ∃ j', OccursAt (c :: w) (T ++ [0]) j' ∧ ∃ i s : Nat, sa[i]? = some s ∧ RunBorder b i ∧
      j' ≤ bwtPos (T.length + 1) s ∧ bwtPos (T.length + 1) s < j' + (c :: w).length := by
      intro i s h1 h2 h3 h4
      exact ⟨_, (back i s h1 h3 h4).2, i, s, h1, h2, le_rfl, by rw [List.length_cons]; omega⟩
    rcases runAttractor_step hsa hb hj hocc with ⟨i, s, h1, h2, h3, h4⟩ | hall
    · exact done i s h1 h2 h3 h4
    · by_cases hw : w = []
      · subst hw
        have h1 : sa[0]? = some (sa[0]'(by omega)) := List.getElem?_eq_getElem _
        exact done 0 _ h1 (Or.inl rfl) (hall 0 _ h1 List.nil_prefix) List.nil_prefix
      · have hocc' : w <+: (T ++ [0]).drop (j + 1) := by
          obtain ⟨r, hr⟩ := hocc
          refine ⟨r, ?_⟩
          have := congrArg List.tail hr
          rw [List.cons_append, List.tail_cons, List.tail_drop] at this
          exact this
        rw [List.length_cons] at hj
        obtain ⟨j', ⟨g1, g2⟩, i, s, g3, g4, g5, g6⟩ := ih (j + 1) hw (by omega) hocc'
        have hwpos := List.length_pos_iff.2 hw
        obtain ⟨i', hi'⟩ := List.mem_iff_getElem?.1 (hsa.mem.2 (show j' < (T ++ [(0 : UInt8)]).length by omega))
        obtain ⟨f1, f2⟩ := back i' j' hi' (hall i' j' hi' g2) g2
        have hj0 : j' ≠ 0 := fun h => hw (f1 h)
        rw [bwtPos, if_neg hj0] at f2
        refine ⟨j' - 1, f2, i, s, g3, g4, by omega, by rw [List.length_cons]; omega⟩

end

/-- The borders of the runs, each run contributing its first and its last index. -/
def runBorders (b : List UInt8) : List Nat :=
  0 :: (b.length - 1) ::
    ((List.range (b.length - 1)).filter (fun i => b[i]? ≠ b[i + 1]?)).flatMap (fun i => [i, i + 1])

theorem runBorders_length (b : List UInt8) : (runBorders b).length = 2 * (1 + changes b) := by
  unfold runBorders changes
  rw [List.length_cons, List.length_cons, List.length_flatMap]
  generalize (List.range (b.length - 1)).filter (fun i => b[i]? ≠ b[i + 1]?) = l
  have : (l.map fun i => [i, i + 1].length).sum = 2 * l.length := by
    induction l with
    | nil => rfl
    | cons a l ih =>
      rw [List.map_cons, List.sum_cons, ih]
      simp only [List.length_cons, List.length_nil]
      omega
  rw [this]
  omega

theorem mem_runBorders {b : List UInt8} {i : Nat} (hi : i < b.length) (h : RunBorder b i) : i ∈ runBorders b := by
  unfold runBorders
  rw [List.mem_cons, List.mem_cons, List.mem_flatMap]
  rcases h with h | h | h | h
  · exact Or.inl h
  · exact Or.inr (Or.inl (by omega))
  · rcases Nat.eq_zero_or_pos i with h0 | h0
    · exact Or.inl h0
    · refine Or.inr (Or.inr ⟨i - 1, ?_, by simp; omega⟩)
      rw [List.mem_filter, List.mem_range]
      refine ⟨by omega, ?_⟩
      rw [show i - 1 + 1 = i by omega]
      simpa using Ne.symm h
  · rcases Nat.lt_or_ge (i + 1) b.length with h1 | h1
    · refine Or.inr (Or.inr ⟨i, ?_, by simp⟩)
      rw [List.mem_filter, List.mem_range]
      exact ⟨by omega, by simpa using h⟩
    · exact Or.inr (Or.inl (by omega))

theorem runBorders_lt {b : List UInt8} (hb : b ≠ []) {i : Nat} (h : i ∈ runBorders b) : i < b.length := by
  have hp := List.length_pos_iff.2 hb
  unfold runBorders at h
  rw [List.mem_cons, List.mem_cons, List.mem_flatMap] at h
  rcases h with h | h | ⟨x, hx, h⟩
  · omega
  · omega
  · rw [List.mem_filter, List.mem_range] at hx
    simp at h
    omega

end Verif
