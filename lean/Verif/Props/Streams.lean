import Verif.Lemmas.Mtf

/-! # Properties C28–C35, C53, C54: stream tools and reading

`IsRuns`, `changes`, `unrle`, `mtfDecode`, `escapeLetter` are in `Verif/Spec/Streams.lean`;
`delivered r` are the bytes the reader `r` delivers before its first end of input or error. -/

namespace Verif.Props

open Verif Spec Model

/-- Every text has exactly one decomposition into maximal runs. -/
theorem runs_exist_unique (t : List UInt8) : ∃! rs, IsRuns rs t :=
  ⟨runsOf t, runsOf_isRuns t, fun _ h => h.eq⟩

/-- C28: `number_of_runs` is the number of maximal runs, which is 0 for no input and otherwise one more
than the number of neighbouring positions with different bytes. -/
theorem C28_number_of_runs (r : Reader) :
    (∀ rs, IsRuns rs (delivered r) → numberOfRuns r = rs.length) ∧
    (delivered r = [] → numberOfRuns r = 0) ∧
    (delivered r ≠ [] → numberOfRuns r = 1 + changes (delivered r)) := by
  refine ⟨fun rs h => ?_, fun h => ?_, fun h => ?_⟩
  · rw [numberOfRuns_ok, h.eq]
  · rw [numberOfRuns_ok, h]; rfl
  · rw [numberOfRuns_ok, runsOf_length h]

example : numberOfRuns [.byte 97, .byte 97, .byte 98, .err, .byte 99] = 2 := by decide

/-- C29 for texts with fewer than 256 distinct bytes (missing: 256 distinct bytes, where it fails). -/
theorem C29_count_sigma_partial (m : Build) (text : List UInt8) (h : text.toFinset.card < 256) :
    ∃ s, countSigma m text = .ok s ∧ s.toNat = text.toFinset.card :=
  ⟨_, countSigma_ok m text h, by rw [UInt8.toNat_ofNat', Nat.mod_eq_of_lt h]⟩

example := C29_count_sigma_partial .wrapping [98, 97, 98, 0] (by decide)

/-- C29 is false: with all 256 byte values the `u8` counter overflows: the overflow-checked build panics
on every such text, and no `u8` result could be right in any build. -/
theorem C29_refuted (text : List UInt8) (h : text.toFinset.card = 256) :
    countSigma .checked text = .error .arith ∧
    ∀ m s, countSigma m text = .ok s → s.toNat ≠ text.toFinset.card :=
  ⟨countSigma_full text h, fun m s _ => by have : s.toNat < 256 := s.toNat_lt; omega⟩

example := C29_refuted allBytes (by
  have hn : allBytes.Nodup := by decide +kernel
  rw [List.toFinset_card_of_nodup hn]
  decide +kernel)

example : ∃ text : List UInt8, text.toFinset.card = 256 := by
  refine ⟨allBytes, ?_⟩
  have hn : allBytes.Nodup := by
    refine List.Nodup.map_on ?_ List.nodup_range
    intro x hx y hy h
    rw [List.mem_range] at hx hy
    have := congrArg UInt8.toNat h
    rwa [UInt8.toNat_ofNat', UInt8.toNat_ofNat', Nat.mod_eq_of_lt hx, Nat.mod_eq_of_lt hy] at this
  rw [List.toFinset_card_of_nodup hn, allBytes, List.length_map, List.length_range]
example : countSigma .checked [98, 97, 98, 0] = .ok 3 := by
  rw [countSigma_ok _ _ (by decide)]; rfl

theorem mtfInit_mem (c : UInt8) : c ∈ mtfInit ↔ c ≠ 255 := by
  simp only [mtfInit, List.mem_map, List.mem_range]
  constructor
  · rintro ⟨i, hi, rfl⟩ h
    have := congrArg UInt8.toNat h
    rw [UInt8.toNat_ofNat', Nat.mod_eq_of_lt (by omega)] at this
    simp at this; omega
  · intro h
    refine ⟨c.toNat, ?_, by simp⟩
    have : c.toNat < 256 := c.toNat_lt
    have h' : c.toNat ≠ 255 := fun e => h (UInt8.toNat.inj e)
    omega

theorem mtfInit_all : mtfInit ++ [255] = allBytes := by
  rw [mtfInit, allBytes, List.range_succ (n := 255), List.map_append]; rfl

/-- C30 for inputs without byte 255 (missing: byte 255, where it fails): no panic, one code per byte,
and the textbook decoder recovers the input. -/
theorem C30_mtf_lossless_partial (r : Reader) (h : ∀ c ∈ delivered r, c ≠ 255) :
    (mtf r).2 = .ok () ∧ (mtf r).1.length = (delivered r).length ∧
      mtfDecode allBytes (mtf r).1 = delivered r := by
  have := (mtfLoop_ok r (by simp [mtfInit]) mtfInit_mem).1 h
  rwa [mtfInit_all] at this

example := C30_mtf_lossless_partial (sliceReader [97, 98, 98, 97]) (by decide)

/-- C30 is false: the table misses the value 255, so the first byte 255 panics; what was written before is
the encoding of the bytes before it. -/
theorem C30_refuted (r : Reader) (x y : List UInt8) (h : delivered r = x ++ 255 :: y)
    (hx : ∀ c ∈ x, c ≠ 255) :
    (mtf r).2 = .error .unwrap ∧ (mtf r).1.length = x.length ∧ mtfDecode allBytes (mtf r).1 = x := by
  have := (mtfLoop_ok r (by simp [mtfInit]) mtfInit_mem).2 x y h hx
  rwa [mtfInit_all] at this

example := C30_refuted (sliceReader [97, 98, 255, 97]) [97, 98] [97] (by decide) (by decide)

example : mtf (sliceReader [97, 98, 98, 97]) = ([97, 98, 0, 1], .ok ()) := by
  decide +kernel

/-- C31: in the overflow-checked build, `rle` writes (byte, length - 1) for every maximal run; it succeeds
exactly if every run but the last has at most 255 bytes and the last at most 256, and then expanding the
pairs gives the input back. -/
theorem C31_rle (r : Reader) (rs : List (UInt8 × Nat)) (h : IsRuns rs (delivered r)) :
    ((rle .checked r).2 = .ok () ↔
      (∀ p ∈ rs.dropLast, p.2 ≤ 255) ∧ (∀ p, rs.getLast? = some p → p.2 ≤ 256)) ∧
    ((rle .checked r).2 = .ok () →
      (rle .checked r).1 = rs.flatMap (fun p => [p.1, UInt8.ofNat (p.2 - 1)]) ∧
      unrle (rle .checked r).1 = delivered r) := by
  rw [rle_ok, ← h.eq]
  obtain ⟨h1, h2⟩ := rleOut_spec rs
  refine ⟨h1, fun hok => ⟨h2 hok, ?_⟩⟩
  rw [h2 hok, unrle_flat]
  · exact h.1
  · intro p hp
    refine ⟨h.2.1 p hp, ?_⟩
    obtain ⟨g1, g2⟩ := h1.1 hok
    rcases List.eq_nil_or_concat' rs with rfl | ⟨qs, q, rfl⟩
    · simp at hp
    · rw [List.dropLast_concat] at g1
      rcases List.mem_append.1 hp with hp | hp
      · have := g1 p hp; omega
      · rw [List.mem_singleton] at hp
        subst hp
        exact g2 p (by simp)

example := C31_rle (sliceReader [97, 97, 98]) [(97, 2), (98, 1)] ⟨by decide, by decide, by decide⟩

/-- C31, other build: in the release profile the counter wraps, a run of 257 bytes is written like a run
of a single byte. -/
theorem C31_release_lossy :
    rle .wrapping (sliceReader (List.replicate 257 97)) = rle .wrapping (sliceReader [97]) := by
  decide +kernel

example : rle .checked (sliceReader [97, 97, 97, 98]) = ([97, 2, 98, 0], .ok ()) := by decide

/-- C32: `rle --human` in the overflow-checked build prints "(c,l)" for every maximal run; it succeeds
exactly if no run is longer than 255 and panics with an overflow otherwise. -/
theorem C32_rle_text (r : Reader) (rs : List (UInt8 × Nat)) (h : IsRuns rs (delivered r)) :
    ((rleText .checked r).2 = .ok () ↔ ∀ p ∈ rs, p.2 ≤ 255) ∧
    ((rleText .checked r).2 = .ok () →
      (rleText .checked r).1 = rs.flatMap (fun p => rleTextItem p.1 (UInt8.ofNat p.2))) := by
  rw [rleText_ok, ← h.eq]
  exact rleTextOut_spec rs

example := C32_rle_text (sliceReader [97, 97, 98]) [(97, 2), (98, 1)] ⟨by decide, by decide, by decide⟩

/-- C32: two inputs printed alike are equal. -/
theorem C32_rle_text_injective (r q : Reader) (hr : (rleText .checked r).2 = .ok ())
    (hq : (rleText .checked q).2 = .ok ()) (h : (rleText .checked r).1 = (rleText .checked q).1) :
    delivered r = delivered q := by
  have Rr := runsOf_isRuns (delivered r)
  have Rq := runsOf_isRuns (delivered q)
  obtain ⟨a1, a2⟩ := C32_rle_text r _ Rr
  obtain ⟨b1, b2⟩ := C32_rle_text q _ Rq
  rw [a2 hr, b2 hq] at h
  have := rleText_items_inj (fun p hp => ⟨Rr.2.1 p hp, a1.1 hr p hp⟩)
    (fun p hp => ⟨Rq.2.1 p hp, b1.1 hq p hp⟩) h
  rw [← Rr.1, ← Rq.1, this]

example := C32_rle_text_injective (sliceReader [97, 97, 98]) (sliceReader [97, 97, 98] ++ [.err]) (by decide) (by decide) (by decide)

example : rleText .checked (sliceReader (List.replicate 12 97 ++ [233])) =
    ([40, 97, 44, 49, 50, 41, 40, 195, 169, 44, 49, 41], .ok ()) := by decide +kernel
example : (rleText .checked (sliceReader (List.replicate 256 97))).2 = .error .arith := by decide +kernel

/-- C33 is false: the letter after a run of '0' is lost. -/
theorem C33_refuted (m : Build) :
    rleZero m (sliceReader [48, 97]) = rleZero m (sliceReader [48, 98]) ∧
    (rleZero m (sliceReader [48, 97])).2 = .ok () ∧
    (rleZero m (sliceReader [48, 48, 97])).1 = (rleZero m (sliceReader [48])).1 := by
  cases m <;> decide

theorem rleZeroLoop_zeros (r : Reader) (m : Build) (cnt : UInt8) (k : Nat)
    (h : delivered r = List.replicate k 48) (hk : cnt.toNat + k ≤ 255) :
    rleZeroLoop m r cnt = rleZeroEnd (UInt8.ofNat (cnt.toNat + k)) := by
  induction r generalizing cnt k with
  | nil =>
    have : k = 0 := by have := congrArg List.length h; simpa [delivered] using this.symm
    subst this; simp [rleZeroLoop]
  | cons e r ih =>
    cases e with
    | eof =>
      have : k = 0 := by have := congrArg List.length h; simpa [delivered] using this.symm
      subst this; simp [rleZeroLoop]
    | err =>
      have : k = 0 := by have := congrArg List.length h; simpa [delivered] using this.symm
      subst this; simp [rleZeroLoop]
    | byte c =>
      cases k with
      | zero => simp [delivered] at h
      | succ k =>
        rw [delivered, List.replicate_succ, List.cons.injEq] at h
        obtain ⟨rfl, h⟩ := h
        simp only [rleZeroLoop]
        rw [if_neg (by simp), incU8_ok (by omega)]
        simp only [andThen]
        rw [ih (cnt + 1) k h (by rw [toNat_succ (by omega)]; omega), toNat_succ (by omega)]
        congr 2; omega

theorem rleZeroLoop_tail (r : Reader) (m : Build) (w : List UInt8) (k : Nat)
    (h : delivered r = w ++ List.replicate k 48) (hw : ∀ c ∈ w, c ≠ 48) (hk : k ≤ 255) :
    rleZeroLoop m r 0 = emit w (rleZeroEnd (UInt8.ofNat k)) := by
  induction w generalizing r with
  | nil =>
    rw [rleZeroLoop_zeros r m 0 k h (by simpa using hk)]
    simp [emit]
  | cons a w ih =>
    cases r with
    | nil => simp [delivered] at h
    | cons e r =>
      cases e with
      | eof => simp [delivered] at h
      | err => simp [delivered] at h
      | byte c =>
        rw [delivered, List.cons_append, List.cons.injEq] at h
        obtain ⟨rfl, h⟩ := h
        simp only [rleZeroLoop]
        rw [if_pos (hw c (by simp)), if_pos trivial, ih r h (fun d hd => hw d (by simp [hd]))]
        rfl

/-- C33 for texts in which '0' occurs only in a final run of at most 255 (missing: a run of '0' followed by
another letter, where it fails): different texts give different outputs, without panic. -/
theorem C33_rle_zero_partial (m : Build) (r q : Reader) (w v : List UInt8) (j k : Nat)
    (hr : delivered r = w ++ List.replicate j 48) (hq : delivered q = v ++ List.replicate k 48)
    (hw : ∀ c ∈ w, c ≠ 48) (hv : ∀ c ∈ v, c ≠ 48) (hj : j ≤ 255) (hk : k ≤ 255) :
    (rleZero m r).2 = .ok () ∧
    ((rleZero m r).1 = (rleZero m q).1 → delivered r = delivered q) := by
  have key : ∀ (r : Reader) (w : List UInt8) (j : Nat), delivered r = w ++ List.replicate j 48 →
      (∀ c ∈ w, c ≠ 48) → j ≤ 255 → rleZero m r = emit w (rleZeroEnd (UInt8.ofNat j)) := by
    intro r w j h hw hj
    cases r with
    | nil =>
      have h' := congrArg List.length h
      simp only [delivered, List.length_nil, List.length_append, List.length_replicate] at h'
      have h1 : w = [] := List.length_eq_zero_iff.1 (by omega)
      have h2 : j = 0 := by omega
      subst h1 h2; rfl
    | cons e r =>
      cases e with
      | eof =>
        have h' := congrArg List.length h
        simp only [delivered, List.length_nil, List.length_append, List.length_replicate] at h'
        have h1 : w = [] := List.length_eq_zero_iff.1 (by omega)
        have h2 : j = 0 := by omega
        subst h1 h2; rfl
      | err =>
        have h' := congrArg List.length h
        simp only [delivered, List.length_nil, List.length_append, List.length_replicate] at h'
        have h1 : w = [] := List.length_eq_zero_iff.1 (by omega)
        have h2 : j = 0 := by omega
        subst h1 h2; rfl
      | byte c =>
        simp only [rleZero, readChar]
        rw [delivered] at h
        cases w with
        | nil =>
          cases j with
          | zero => simp at h
          | succ j =>
            rw [List.nil_append, List.replicate_succ, List.cons.injEq] at h
            obtain ⟨rfl, h⟩ := h
            rw [if_pos rfl, rleZeroLoop_zeros r m 1 j h (by
              have : (1 : UInt8).toNat = 1 := rfl
              omega)]
            have : (1 : UInt8).toNat = 1 := rfl
            rw [this, Nat.add_comm 1 j]; simp [emit]
        | cons a w =>
          rw [List.cons_append, List.cons.injEq] at h
          obtain ⟨rfl, h⟩ := h
          rw [if_neg (hw c (by simp)), rleZeroLoop_tail r m w j h (fun d hd => hw d (by simp [hd])) hj]
          rfl
  rw [key r w j hr hw hj, key q v k hq hv hk]
  have hout : ∀ j, j ≤ 255 → (rleZeroEnd (UInt8.ofNat j)) =
      (if j = 0 then [] else [48, UInt8.ofNat j], .ok ()) := by
    intro j hj
    simp only [rleZeroEnd]
    by_cases h0 : j = 0
    · subst h0; simp [done]
    · have : UInt8.ofNat j > 0 := by
        rw [gt_iff_lt, UInt8.lt_iff_toNat_lt, UInt8.toNat_ofNat', Nat.mod_eq_of_lt (by omega)]
        simp; omega
      rw [if_pos this, if_neg h0]; rfl
  rw [hout j hj, hout k hk]
  refine ⟨rfl, fun h => ?_⟩
  simp only [emit] at h
  rw [hr, hq]
  by_cases h0 : j = 0 <;> by_cases h1 : k = 0
  · subst h0 h1; simpa using h
  · subst h0
    rw [if_pos rfl, if_neg h1, List.append_nil] at h
    exact absurd rfl (hw 48 (by rw [h]; simp))
  · subst h1
    rw [if_pos rfl, if_neg h0, List.append_nil] at h
    exact absurd rfl (hv 48 (by rw [← h]; simp))
  · rw [if_neg h0, if_neg h1] at h
    obtain ⟨e1, e2⟩ := append_sep_inj hw hv h
    rw [List.cons.injEq] at e2
    have := congrArg UInt8.toNat e2.1
    rw [UInt8.toNat_ofNat', UInt8.toNat_ofNat', Nat.mod_eq_of_lt (by omega), Nat.mod_eq_of_lt (by omega)] at this
    rw [e1, this]

example := C33_rle_zero_partial .checked (sliceReader [97, 48, 48]) (sliceReader [97, 48]) [97] [97] 2 1 (by decide) (by decide)
  (by decide) (by decide) (by decide) (by decide)

example : rleZero .checked (sliceReader [97, 48, 48, 48]) = ([97, 48, 3], .ok ()) := by decide

/-- C34: with symbol lists that pass the tool's checks and pairwise distinct `to` symbols, escaping and then
reverting returns the input (both with a prefix length covering the input), and the escaped stream contains
no `from` symbol. -/
theorem C34_escape_roundtrip (a : EscapeArgs) (r : Reader) (p : Nat)
    (hlen : a.fromSymbols.length = a.toSymbols.length) (hfe : a.escapeSymbol ∉ a.fromSymbols)
    (hte : a.escapeSymbol ∉ a.toSymbols) (hdisj : ∀ x ∈ a.fromSymbols, x ∉ a.toSymbols)
    (hnd : a.toSymbols.Nodup) (h1 : (delivered r).length ≤ a.prefixlength)
    (h2 : (delivered r).length ≤ p) :
    ∃ s, escapeMain { a with isReversion := false } r = (s, .ok ()) ∧
      (∀ x ∈ s, x ∉ a.fromSymbols) ∧
      escapeMain { a with isReversion := true, prefixlength := p } (sliceReader s) =
        (delivered r, .ok ()) := by
  have ok1 : EscapeOK { a with isReversion := false } := ⟨hlen, hfe, hte, hdisj⟩
  have ok2 : EscapeOK { a with isReversion := true, prefixlength := p } := ⟨hlen, hfe, hte, hdisj⟩
  refine ⟨(delivered r).flatMap (escapeLetter a.escapeSymbol (lookupLast a.fromSymbols a.toSymbols)),
    ?_, ?_, ?_⟩
  · rw [escapeMain_ok ok1]
    simp only [Bool.false_eq_true, if_false]
    rw [escapeLoop_ok]
    dsimp only
    rw [List.take_of_length_le h1]
  · intro x hx
    rw [List.mem_flatMap] at hx
    obtain ⟨c, -, hc⟩ := hx
    exact escapeLetter_clean ok1 c x hc
  · rw [escapeMain_ok ok2]
    simp only [if_true]
    exact unescapeLoop_ok ok2 hnd (delivered r) p h2

example := C34_escape_roundtrip { prefixlength := 9, escapeSymbol := 92, fromSymbols := [0, 255], toSymbols := [97, 98] }
  (sliceReader [0, 92, 97, 255]) 20 (by decide) (by decide) (by decide) (by decide) (by decide) (by decide) (by decide)

/-- C34, limit: with repeated `to` symbols (which the checks let pass) the round trip fails. -/
theorem C34_duplicate_to_lossy :
    escapeMain { prefixlength := 9, fromSymbols := [1, 2], toSymbols := [3, 3] } (sliceReader [1]) =
    escapeMain { prefixlength := 9, fromSymbols := [1, 2], toSymbols := [3, 3] } (sliceReader [2]) := by
  decide

example : escapeMain { prefixlength := 9, escapeSymbol := 92, fromSymbols := [0, 255], toSymbols := [97, 98] }
    (sliceReader [0, 92, 120, 255]) = ([92, 97, 92, 92, 120, 92, 98], .ok ()) := by decide

/-- C35 is false: without `--prefixlength` the tool writes nothing, whatever the input. -/
theorem C35_refuted (esc : UInt8) (f t : List UInt8) (b : Bool) (r : Reader) :
    (escapeMain { escapeSymbol := esc, fromSymbols := f, toSymbols := t, isReversion := b } r).1 = [] := by
  simp only [escapeMain]
  split; · rfl
  split; · rfl
  split; · rfl
  split; · rfl
  split
  · rfl
  · rfl

/-- C35 with an explicit prefix length (missing: the default 0): the escaped form of the first
`prefixlength` bytes. -/
theorem C35_escape_prefix_partial (a : EscapeArgs) (r : Reader)
    (hlen : a.fromSymbols.length = a.toSymbols.length) (hfe : a.escapeSymbol ∉ a.fromSymbols)
    (hte : a.escapeSymbol ∉ a.toSymbols) (hdisj : ∀ x ∈ a.fromSymbols, x ∉ a.toSymbols)
    (hrev : a.isReversion = false) :
    escapeMain a r = (((delivered r).take a.prefixlength).flatMap
      (escapeLetter a.escapeSymbol (lookupLast a.fromSymbols a.toSymbols)), .ok ()) := by
  rw [escapeMain_ok ⟨hlen, hfe, hte, hdisj⟩, hrev]
  simp only [Bool.false_eq_true, if_false]
  exact escapeLoop_ok a _ r

example := C35_escape_prefix_partial { prefixlength := 2, escapeSymbol := 92, fromSymbols := [0, 255], toSymbols := [97, 98] }
  (sliceReader [0, 92, 97, 255]) (by decide) (by decide) (by decide) (by decide) rfl

/-- C53: reading a regular file, and reading standard input. -/
theorem C53_file_prefix (content : List UInt8) (hsize : content.length < 18446744073709551616) (p : Nat) :
    (0 < p → file2byteVector (some ⟨content, content.length⟩) p = .ok (content.take p)) ∧
    file2byteVector (some ⟨content, content.length⟩) 0 = .ok content ∧
    file2byteVector none p = .error .unwrap := by
  refine ⟨fun hp => ?_, ?_, rfl⟩
  · simp only [file2byteVector, assertR, readExact, hp, if_true]
    rw [if_pos (by simp; omega), ok_bind, if_pos (by omega)]
    congr 1
    rw [Nat.min_def]
    split
    · rfl
    · rw [List.take_of_length_le (by omega), List.take_of_length_le (by omega)]
  · simp only [file2byteVector, assertR, readExact]
    simp only [gt_iff_lt, Nat.lt_irrefl, if_false]
    rw [if_pos (by simp; omega), ok_bind, if_pos (le_refl _), List.take_length]

example := C53_file_prefix [97, 98, 99] (by decide) 2

theorem C53_stdin_prefix (stdin : List UInt8) (p : Nat) :
    (0 < p → p ≤ stdin.length → stdin2byteVector stdin p = .ok (stdin.take p)) ∧
    (stdin.length < p → stdin2byteVector stdin p = .error .unwrap) ∧
    stdin2byteVector stdin 0 = .ok stdin := by
  refine ⟨fun h1 h2 => ?_, fun h => ?_, rfl⟩
  · simp [stdin2byteVector, readExact, h1, h2]
  · simp only [stdin2byteVector, readExact]
    rw [if_pos (by omega), if_neg (by omega)]

/-- C53, dispatch: a given file name is read as file, otherwise standard input is read. -/
theorem C53_dispatch (f : Option File) (stdin : List UInt8) (p : Nat) :
    fileOrStdin2byteVector (some f) stdin p = file2byteVector f p ∧
    fileOrStdin2byteVector none stdin p = stdin2byteVector stdin p := ⟨rfl, rfl⟩

/-- C53, limit: a file that shrinks between the size query and the read panics. -/
example : file2byteVector (some ⟨[1, 2], 3⟩) 0 = .error .unwrap := by decide
example : file2byteVector (some ⟨[1, 2, 3], 3⟩) 2 = .ok [1, 2] := by decide

/-- C54: `reverse` writes the bytes of the file (or of its prefix of length `p > 0`) in reverse order, and
applied to its own output (without prefix) it restores what was read. -/
theorem C54_reverse (content stdin : List UInt8) (hsize : content.length < 18446744073709551616) (p : Nat) :
    (0 < p → reverseMain (some (some ⟨content, content.length⟩)) stdin p =
      ((content.take p).reverse, .ok ())) ∧
    (∃ out, reverseMain (some (some ⟨content, content.length⟩)) stdin 0 = (out, .ok ()) ∧
      out.length = content.length ∧ (∀ i, i < content.length → out[i]? = content[content.length - 1 - i]?) ∧
      reverseMain (some (some ⟨out, out.length⟩)) stdin 0 = (content, .ok ()) ∧
      reverseMain none out 0 = (content, .ok ())) := by
  have rev : ∀ c : List UInt8, c.length < 18446744073709551616 →
      reverseMain (some (some ⟨c, c.length⟩)) stdin 0 = (c.reverse, .ok ()) := by
    intro c hc
    simp only [reverseMain, fileOrStdin2byteVector]
    rw [(C53_file_prefix c hc 0).2.1]
    simp [andThen, emit, done]
  refine ⟨fun hp => ?_, content.reverse, rev content hsize, by simp, fun i hi => ?_, ?_, ?_⟩
  · simp only [reverseMain, fileOrStdin2byteVector]
    rw [(C53_file_prefix content hsize p).1 hp]
    simp [andThen, emit, done]
  · rw [List.getElem?_reverse hi]
  · rw [rev _ (by simpa using hsize), List.reverse_reverse]
  · simp [reverseMain, fileOrStdin2byteVector, stdin2byteVector, andThen, emit, done]

example := C54_reverse [97, 98, 99] [] (by decide) 2

end Verif.Props
