import Verif.Props.Streams

/-! # C106: `rle` in the release build

The release build is the only one whose command line works (C104).  There the counter of the runs wraps around. -/

namespace Verif.Props

open Verif Spec Model

theorem incU8_wrapping (n : Nat) (hn : 1 ≤ n) : incU8 .wrapping (UInt8.ofNat (n - 1)) = .ok (UInt8.ofNat n) := by
  unfold incU8
  split
  · rename_i h
    congr 1
    apply UInt8.toNat.inj
    rw [toNat_succ h, UInt8.toNat_ofNat', UInt8.toNat_ofNat']
    rw [UInt8.toNat_ofNat'] at h
    omega
  · rename_i h
    refine congrArg Except.ok (UInt8.toNat.inj ?_)
    rw [UInt8.toNat_ofNat'] at h ⊢
    simp only [UInt8.toNat_zero]
    omega

/-- the encoding of a list of runs with wrapping counters -/
def rleWrap : List (UInt8 × Nat) → Out
  | [] => done
  | [(c, l)] => emit [c, UInt8.ofNat (l - 1)] done
  | (c, l) :: rs => if l % 256 ≠ 0 then emit [c, UInt8.ofNat (l - 1)] (rleWrap rs) else ([], .error .assert)

theorem rleLoop_wrapping (r : Reader) (prev : UInt8) (n : Nat) (hn : 1 ≤ n) :
    rleLoop .wrapping r prev (UInt8.ofNat (n - 1)) = rleWrap (runsFrom prev n (delivered r)) := by
  induction r generalizing prev n with
  | nil => rfl
  | cons e r ih =>
    cases e with
    | eof => rfl
    | err => rfl
    | byte c =>
      simp only [rleLoop, delivered, runsFrom]
      by_cases h : c = prev
      · rw [if_neg (by simpa using h), if_pos h, incU8_wrapping n hn]
        simp only [andThen]
        rw [← ih prev (n + 1) (by omega), show n + 1 - 1 = n by omega]
      · rw [if_pos h, if_neg h]
        obtain ⟨l, rs, h1, h2⟩ := runsFrom_head c 1 (delivered r)
        have ih' := ih c 1 (le_refl _)
        rw [show (UInt8.ofNat (1 - 1)) = 0 from rfl] at ih'
        rw [h2] at ih' ⊢
        simp only [rleWrap, assertR]
        have hlt : UInt8.ofNat (n - 1) < 255 ↔ n % 256 ≠ 0 := by
          rw [UInt8.lt_iff_toNat_lt, UInt8.toNat_ofNat']
          rw [show (255 : UInt8).toNat = 255 from rfl]
          omega
        by_cases hc : n % 256 ≠ 0
        · rw [if_pos (by simpa using hlt.2 hc), if_pos hc]
          simp only [andThen]
          rw [ih']
        · rw [if_neg (by simpa using fun h => hc (hlt.1 h)), if_neg hc]
          rfl

theorem rle_wrapping (r : Reader) : rle .wrapping r = rleWrap (runsOf (delivered r)) := by
  cases r with
  | nil => rfl
  | cons e r =>
    cases e with
    | eof => rfl
    | err => rfl
    | byte c => simp only [rle, readChar, delivered, runsOf]; exact rleLoop_wrapping r c 1 (le_refl _)

theorem rleWrap_spec (rs : List (UInt8 × Nat)) :
    ((rleWrap rs).2 = .ok () ↔ ∀ p ∈ rs.dropLast, p.2 % 256 ≠ 0) ∧
    ((rleWrap rs).2 = .ok () → (rleWrap rs).1 = rs.flatMap (fun p => [p.1, UInt8.ofNat (p.2 - 1)])) := by
  induction rs with
  | nil => simp [rleWrap, done]
  | cons p rs ih =>
    obtain ⟨c, l⟩ := p
    cases rs with
    | nil => simp [rleWrap, emit, done]
    | cons q rs =>
      simp only [rleWrap]
      split
      · rename_i h
        simp only [emit]
        refine ⟨?_, fun h' => by rw [ih.2 h']; rfl⟩
        rw [ih.1, List.dropLast_cons_cons]; simp [h]
      · rename_i h
        refine ⟨?_, fun h' => by cases h'⟩
        rw [List.dropLast_cons_cons]
        constructor
        · intro h'; cases h'
        · intro h'; exact absurd (h' _ List.mem_cons_self) h

theorem unrle_pairs (rs : List (UInt8 × Nat)) :
    unrle (rs.flatMap (fun p => [p.1, UInt8.ofNat (p.2 - 1)])) =
      rs.flatMap (fun p => List.replicate ((p.2 - 1) % 256 + 1) p.1) := by
  induction rs with
  | nil => rfl
  | cons p rs ih =>
    rw [List.flatMap_cons, List.flatMap_cons, ← ih]
    simp only [List.cons_append, List.nil_append, unrle, UInt8.toNat_ofNat']

/-- C106: in the release build `rle` writes (byte, (length - 1) mod 256) for every maximal run; it stops with a panic
exactly if a run that is not the last has a length divisible by 256; and if it does not, expanding the pairs gives the
input back exactly if no run is longer than 256. -/
theorem C106_release_rle (r : Reader) (rs : List (UInt8 × Nat)) (h : IsRuns rs (delivered r)) :
    ((rle .wrapping r).2 = .ok () ↔ ∀ p ∈ rs.dropLast, p.2 % 256 ≠ 0) ∧
    ((rle .wrapping r).2 = .ok () →
      (rle .wrapping r).1 = rs.flatMap (fun p => [p.1, UInt8.ofNat ((p.2 - 1) % 256)]) ∧
      (unrle (rle .wrapping r).1 = delivered r ↔ ∀ p ∈ rs, p.2 ≤ 256)) := by
  rw [rle_wrapping, ← h.eq]
  obtain ⟨h1, h2⟩ := rleWrap_spec rs
  refine ⟨h1, fun hok => ?_⟩
  have e : rs.flatMap (fun p => [p.1, UInt8.ofNat ((p.2 - 1) % 256)]) =
      rs.flatMap (fun p => [p.1, UInt8.ofNat (p.2 - 1)]) := by
    congr 1; funext p
    congr 2
    apply UInt8.toNat.inj
    rw [UInt8.toNat_ofNat', UInt8.toNat_ofNat']; omega
  refine ⟨by rw [h2 hok, e], ?_⟩
  rw [h2 hok, unrle_pairs]
  have hpos := h.2.1
  have hd : delivered r = rs.flatMap (fun p => List.replicate p.2 p.1) := h.1.symm
  rw [hd]
  clear h hd h1 h2 hok e
  constructor
  · intro heq
    have hlen := congrArg List.length heq
    rw [List.length_flatMap, List.length_flatMap] at hlen
    simp only [List.length_replicate] at hlen
    clear heq
    have hle : ∀ rs : List (UInt8 × Nat), (∀ p ∈ rs, 0 < p.2) →
        (rs.map fun p => (p.2 - 1) % 256 + 1).sum ≤ (rs.map fun p => p.2).sum := by
      intro rs hpos
      induction rs with
      | nil => simp
      | cons p rs ih =>
        have := ih fun q hq => hpos q (List.mem_cons_of_mem _ hq)
        have := hpos p List.mem_cons_self
        simp only [List.map_cons, List.sum_cons]
        omega
    induction rs with
    | nil => intro p hp; cases hp
    | cons p rs ih =>
      have h0 := hpos p List.mem_cons_self
      have hpos' := fun q hq => hpos q (List.mem_cons_of_mem p hq)
      have := hle rs hpos'
      simp only [List.map_cons, List.sum_cons] at hlen
      intro q hq
      rcases List.mem_cons.1 hq with rfl | hq
      · omega
      · exact ih hpos' (by omega) q hq
  · intro hb
    refine List.flatMap_congr fun p hp => ?_
    have := hpos p hp
    have := hb p hp
    rw [show (p.2 - 1) % 256 + 1 = p.2 by omega]

example := C106_release_rle (sliceReader [97, 97, 98]) [(97, 2), (98, 1)] ⟨by decide, by decide, by decide⟩

theorem rleTextLoop_wrapping (r : Reader) (prev : UInt8) (n : Nat) (hn : 1 ≤ n) :
    rleTextLoop .wrapping r prev (UInt8.ofNat (n - 1)) =
      ((runsFrom prev n (delivered r)).flatMap (fun p => rleTextItem p.1 (UInt8.ofNat p.2)), .ok ()) := by
  have hend : ∀ (prev : UInt8) (n : Nat), 1 ≤ n → rleTextEnd .wrapping prev (UInt8.ofNat (n - 1)) =
      ((runsFrom prev n []).flatMap (fun p => rleTextItem p.1 (UInt8.ofNat p.2)), .ok ()) := by
    intro prev n hn
    simp only [rleTextEnd, incU8_wrapping n hn, andThen, runsFrom, emit, done]
    simp
  induction r generalizing prev n with
  | nil => exact hend prev n hn
  | cons e r ih =>
    cases e with
    | eof => exact hend prev n hn
    | err => exact hend prev n hn
    | byte c =>
      simp only [rleTextLoop, delivered, runsFrom, incU8_wrapping n hn]
      by_cases h : c = prev
      · rw [if_neg (by simpa using h), if_pos h]
        simp only [andThen]
        rw [← ih prev (n + 1) (by omega), show n + 1 - 1 = n by omega]
      · rw [if_pos h, if_neg h]
        have ih' := ih c 1 (le_refl _)
        rw [show (UInt8.ofNat (1 - 1)) = 0 from rfl] at ih'
        simp only [andThen, ih', emit, List.flatMap_cons]

/-- C106: in the release build `rle --human` never fails and prints (byte, length mod 256) for every maximal run. -/
theorem C106_release_text (r : Reader) (rs : List (UInt8 × Nat)) (h : IsRuns rs (delivered r)) :
    rleText .wrapping r = (rs.flatMap (fun p => rleTextItem p.1 (UInt8.ofNat (p.2 % 256))), .ok ()) := by
  have e : rs.flatMap (fun p => rleTextItem p.1 (UInt8.ofNat (p.2 % 256))) =
      rs.flatMap (fun p => rleTextItem p.1 (UInt8.ofNat p.2)) := by
    congr 1; funext p
    congr 1
    apply UInt8.toNat.inj
    rw [UInt8.toNat_ofNat', UInt8.toNat_ofNat']; omega
  rw [e, h.eq]
  cases r with
  | nil => rfl
  | cons e r =>
    cases e with
    | eof => rfl
    | err => rfl
    | byte c =>
      simp only [rleText, readChar, delivered, runsOf]
      exact rleTextLoop_wrapping r c 1 (le_refl _)

example := C106_release_text (sliceReader [97, 97, 98]) [(97, 2), (98, 1)] ⟨by decide, by decide, by decide⟩

/-- C106: on every input on which the overflow-checked build succeeds, the release build writes the same bytes. -/
theorem C106_builds_agree (r : Reader) :
    ((rle .checked r).2 = .ok () → rle .wrapping r = rle .checked r) ∧
    ((rleText .checked r).2 = .ok () → rleText .wrapping r = rleText .checked r) := by
  obtain ⟨rs, hrs, -⟩ := runs_exist_unique (delivered r)
  constructor
  · intro hok
    obtain ⟨g1, g2⟩ := C31_rle r rs hrs
    have hb := g1.1 hok
    have h1 : (rle .wrapping r).2 = .ok () := by
      rw [rle_wrapping, ← hrs.eq]
      refine (rleWrap_spec rs).1.2 fun p hp => ?_
      have := hb.1 p hp
      have := hrs.2.1 p (List.mem_of_mem_dropLast hp)
      omega
    refine Prod.ext ?_ (h1.trans hok.symm)
    rw [(g2 hok).1]
    rw [rle_wrapping, ← hrs.eq] at h1 ⊢
    exact (rleWrap_spec rs).2 h1
  · intro hok
    obtain ⟨g1, g2⟩ := C32_rle_text r rs hrs
    have hb := g1.1 hok
    rw [C106_release_text r rs hrs]
    refine Prod.ext ?_ hok.symm
    rw [g2 hok]
    refine List.flatMap_congr fun p hp => ?_
    have := hb p hp
    rw [Nat.mod_eq_of_lt (by omega)]

/-- 300 letters `a` and a `b` come out as 44 letters `a` and a `b`. -/
example : (rle .wrapping (sliceReader (List.replicate 300 97 ++ [98]))) = ([97, 43, 98, 0], .ok ()) := by decide +kernel

end Verif.Props
