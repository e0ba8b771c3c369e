import Verif.Lemmas.BwtLaws
import Verif.Props.Bwt
import Verif.Props.Streams

/-! # C119: laws of the cyclic transform (`--use-matrix --no-dollar`) of `bwt` and of the number of runs `count_r` reports -/

namespace Verif.Props

open Verif Spec Model

theorem bw_perm {w : List UInt8} (hw : w ≠ []) : (bw w).Perm w :=
  matrix_last_perm (isMatrixBwt_iff.1 (bw_spec hw))

theorem bwtTool_cyclic {sufsort : List UInt8 → List Nat} (hs : SortsSuffixes sufsort) {t : List UInt8} (h0 : t ≠ [])
    (hz : ∀ x ∈ t, x ≠ 0) (hlen : t.length < 2147483647) :
    bwtTool sufsort true true t = .ok (bw t) ∧ countR sufsort true true t = .ok (t.length, nr (bw t)) := by
  have key : bwtTool sufsort true true t = .ok (bw t) := by
    have hb := isMatrixBwt_iff.1 (bw_spec h0)
    unfold bwtTool bwtToolTransform bwtToolText
    rw [if_pos rfl, if_pos rfl]
    split
    · obtain ⟨c, h3, h4⟩ := bwtByMatrixNaive_ok t
      rw [h3, map_some_inj (h4.trans hb.symm)]
    · obtain ⟨c, h3, h4⟩ := bwtByMatrix_ok hs h0 hz hlen
      rw [h3, map_some_inj (h4.trans hb.symm)]
  refine ⟨key, ?_⟩
  have key' : bwtToolTransform sufsort true (bwtToolText true t) = .ok (bw t) := key
  unfold countR
  rw [key', ok_bind, numberOfRuns_nr, bw_length]
  rfl

/-- C119, powers: the transform of a text repeated `k` times is the transform of the text with every letter repeated `k`
times; the number of runs is the same. -/
theorem C119_power (sufsort : List UInt8 → List Nat) (hs : SortsSuffixes sufsort) (w : List UInt8) (h0 : w ≠ [])
    (hz : ∀ x ∈ w, x ≠ 0) (k : Nat) (hk : 0 < k) (hlen : k * w.length < 2147483647) :
    ∃ b r, bwtTool sufsort true true w = .ok b ∧ countR sufsort true true w = .ok (w.length, r) ∧
      bwtTool sufsort true true (List.replicate k w).flatten = .ok (b.flatMap fun x => List.replicate k x) ∧
      countR sufsort true true (List.replicate k w).flatten = .ok (k * w.length, r) := by
  have hw := List.length_pos_iff.2 h0
  have h1 : w.length ≤ k * w.length := Nat.le_mul_of_pos_left _ hk
  have e : (List.replicate k w).flatten = pw k w := rfl
  obtain ⟨a1, a2⟩ := bwtTool_cyclic hs h0 hz (by omega)
  obtain ⟨b1, b2⟩ := bwtTool_cyclic (t := pw k w) hs (by rw [← List.length_pos_iff, pw_length]; omega)
    (fun x hx => by
      obtain ⟨l, hl, hxl⟩ := List.mem_flatten.1 hx
      rw [List.eq_of_mem_replicate hl] at hxl
      exact hz x hxl) (by rw [pw_length]; exact hlen)
  rw [bw_pw hk] at b1 b2
  rw [nr_stretch hk, pw_length] at b2
  exact ⟨bw w, nr (bw w), a1, a2, by rw [e, b1], by rw [e, b2]⟩

example := C119_power naiveSufsort naiveSufsort_sorts [97, 98, 97] (by decide) (by decide) 3 (by decide) (by decide)

example : bwtTool naiveSufsort true true [97, 98, 97] = .ok [98, 97, 97] ∧
    bwtTool naiveSufsort true true [97, 98, 97, 97, 98, 97] = .ok [98, 98, 97, 97, 97, 97] := by decide

/-- C119, renaming: a renaming of the letters that keeps their order renames the transform, one that reverses their order
renames and reverses it; the number of runs stays the same in both cases. -/
theorem C119_rename (sufsort : List UInt8 → List Nat) (hs : SortsSuffixes sufsort) (t : List UInt8) (h0 : t ≠ [])
    (hz : ∀ x ∈ t, x ≠ 0) (hlen : t.length < 2147483647) (f : UInt8 → UInt8) (hf0 : ∀ x ∈ t, f x ≠ 0) :
    ∃ b r, bwtTool sufsort true true t = .ok b ∧ countR sufsort true true t = .ok (t.length, r) ∧
      ((∀ x ∈ t, ∀ y ∈ t, x < y → f x < f y) → bwtTool sufsort true true (t.map f) = .ok (b.map f) ∧
        countR sufsort true true (t.map f) = .ok (t.length, r)) ∧
      ((∀ x ∈ t, ∀ y ∈ t, x < y → f y < f x) → bwtTool sufsort true true (t.map f) = .ok (b.map f).reverse ∧
        countR sufsort true true (t.map f) = .ok (t.length, r)) := by
  obtain ⟨a1, a2⟩ := bwtTool_cyclic hs h0 hz hlen
  obtain ⟨b1, b2⟩ := bwtTool_cyclic (t := t.map f) hs (by simpa using h0) (by simpa using hf0) (by simpa using hlen)
  have hm : ∀ x ∈ bw t, x ∈ t := fun x hx => by
    rw [bw, List.mem_map] at hx
    obtain ⟨v, hv, rfl⟩ := hx
    obtain ⟨v', x, rfl⟩ := (List.eq_nil_or_concat' v).resolve_left (row_ne_nil h0 hv)
    exact (row_perm hv).mem_iff.1 (by simp)
  have inj : ∀ g : UInt8 → UInt8 → Prop, (∀ x, ¬ g x x) → (∀ x ∈ t, ∀ y ∈ t, x < y → g (f x) (f y)) →
      ∀ x ∈ bw t, ∀ y ∈ bw t, f x = f y → x = y := by
    intro g hg h x hx y hy e
    rcases lt_trichotomy x y with hlt | he | hlt
    · exact absurd (e ▸ h x (hm x hx) y (hm y hy) hlt) (hg _)
    · exact he
    · exact absurd (e ▸ h y (hm y hy) x (hm x hx) hlt) (hg _)
  refine ⟨bw t, nr (bw t), a1, a2, fun hf => ?_, fun hf => ?_⟩
  · rw [bw_map h0 hf] at b1 b2
    rw [nr_map (inj (· < ·) lt_irrefl hf), List.length_map] at b2
    exact ⟨b1, b2⟩
  · rw [bw_map_anti h0 hf] at b1 b2
    rw [nr_reverse, nr_map (inj (· > ·) lt_irrefl hf), List.length_map] at b2
    exact ⟨b1, b2⟩

example := C119_rename naiveSufsort naiveSufsort_sorts [97, 98, 97] (by decide) (by decide) (by decide) (fun c => 255 - c) (by decide)

example : (∀ x ∈ ([97, 98, 97] : List UInt8), ∀ y ∈ ([97, 98, 97] : List UInt8), x < y → 255 - y < 255 - x) ∧
    bwtTool naiveSufsort true true ([97, 98, 97].map (fun c => 255 - c)) = .ok [158, 158, 157] := by decide

/-- C119, bounds: there are at least as many runs as different letters, and at most as many as letters. -/
theorem C119_bounds (sufsort : List UInt8 → List Nat) (hs : SortsSuffixes sufsort) (t : List UInt8) (h0 : t ≠ [])
    (hz : ∀ x ∈ t, x ≠ 0) (hlen : t.length < 2147483647) :
    ∃ r, countR sufsort true true t = .ok (t.length, r) ∧ t.toFinset.card ≤ r ∧ r ≤ t.length := by
  obtain ⟨-, a2⟩ := bwtTool_cyclic hs h0 hz hlen
  refine ⟨_, a2, ?_, ?_⟩
  · have hp : (bw t).Perm t := bw_perm h0
    rw [← List.toFinset_eq_of_perm _ _ hp]
    exact card_le_nr _
  · rw [← bw_length t]
    exact nr_le_length _

example := C119_bounds naiveSufsort naiveSufsort_sorts [97, 98, 97] (by decide) (by decide) (by decide)

/-- C119, ends: if there are two different letters, the transform does not begin with the least one and does not end with
the greatest one. -/
theorem C119_ends (sufsort : List UInt8 → List Nat) (hs : SortsSuffixes sufsort) (t : List UInt8) (hz : ∀ x ∈ t, x ≠ 0)
    (hlen : t.length < 2147483647) (x y : UInt8) (hx : x ∈ t) (hy : y ∈ t) (hxy : x ≠ y) :
    ∃ b, bwtTool sufsort true true t = .ok b ∧
      (∀ c, b.head? = some c → ∃ d ∈ t, d < c) ∧ (∀ c, b.getLast? = some c → ∃ d ∈ t, c < d) := by
  obtain ⟨a1, -⟩ := bwtTool_cyclic hs (List.ne_nil_of_mem hx) hz hlen
  have other : ∀ c : UInt8, ∃ d ∈ t, d ≠ c := fun c => by
    by_cases h : x = c
    · exact ⟨y, hy, fun e => hxy (h.trans e.symm)⟩
    · exact ⟨x, hx, h⟩
  refine ⟨_, a1, fun c hc => ?_, fun c hc => ?_⟩
  · by_contra h
    push Not at h
    obtain ⟨d, h1, h2⟩ := other c
    exact bw_head h h1 h2 hc
  · by_contra h
    push Not at h
    obtain ⟨d, h1, h2⟩ := other c
    exact bw_last h h1 h2 hc

example := C119_ends naiveSufsort naiveSufsort_sorts [97, 98, 97] (by decide) (by decide) 97 98 (by decide) (by decide) (by decide)

/-- C119, parity: over two letters, both of which occur, the number of runs is even. -/
theorem C119_even (sufsort : List UInt8 → List Nat) (hs : SortsSuffixes sufsort) (t : List UInt8) (hz : ∀ x ∈ t, x ≠ 0)
    (hlen : t.length < 2147483647) (x y : UInt8) (hx : x ∈ t) (hy : y ∈ t) (hxy : x ≠ y) (h2 : ∀ c ∈ t, c = x ∨ c = y) :
    ∃ r, countR sufsort true true t = .ok (t.length, 2 * r) := by
  have h0 := List.ne_nil_of_mem hx
  obtain ⟨-, a2⟩ := bwtTool_cyclic hs h0 hz hlen
  have hp : (bw t).Perm t := bw_perm h0
  have hne : bw t ≠ [] := fun e => h0 (by rw [e] at hp; exact hp.symm.eq_nil)
  have key := (nr_parity hxy (bw t) (fun c hc => h2 c (hp.mem_iff.1 hc)) hne).2 ?_
  · exact ⟨nr (bw t) / 2, by rw [a2, Nat.mul_div_cancel' (Nat.dvd_of_mod_eq_zero key)]⟩
  · wlog hlt : x < y generalizing x y with H
    · exact H y x hy hx hxy.symm (fun c hc => (h2 c hc).symm) (lt_of_le_of_ne (not_lt.1 hlt) hxy.symm)
    have h3 := bw_head (w := t) (z := x) (y := y) (fun a ha => by rcases h2 a ha with rfl | rfl; exacts [le_refl _, hlt.le]) hy hxy.symm
    have h4 := bw_last (w := t) (z := y) (y := x) (fun a ha => by rcases h2 a ha with rfl | rfl; exacts [hlt.le, le_refl _]) hx hxy
    obtain ⟨a, ha⟩ : ∃ a, (bw t).head? = some a := ⟨_, List.head?_eq_some_head hne⟩
    obtain ⟨c, hc⟩ : ∃ c, (bw t).getLast? = some c := ⟨_, List.getLast?_eq_some_getLast hne⟩
    have ha' := h2 a (hp.mem_iff.1 (List.mem_of_head? ha))
    have hc' := h2 c (hp.mem_iff.1 (List.mem_of_getLast? hc))
    rw [ha] at h3
    rw [hc] at h4
    rw [ha, hc]
    rcases ha' with rfl | rfl
    · exact absurd rfl h3
    · rcases hc' with rfl | rfl
      · simpa using hxy.symm
      · exact absurd rfl h4

example := C119_even naiveSufsort naiveSufsort_sorts [97, 98, 97] (by decide) (by decide) 97 98 (by decide) (by decide) (by decide)
  (by decide)

end Verif.Props
