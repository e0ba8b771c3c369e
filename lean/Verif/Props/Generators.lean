import Verif.Lemmas.Generators2

/-! # C36–C41, C56, C60: generators and enumeration tools -/

namespace Verif.Props
open Spec Model

/-- C36: `LyndonWordGenerator::new(n, s)`, `1 ≤ s ≤ 256`, returns exactly the Lyndon words of length at
most `n` over `0, ..., s-1`, each once, in increasing lexicographic order, and then `None` forever; no call
panics (`ws` is determined by the first two clauses). -/
theorem C36_lyndon_words (n s : Nat) (hs : 1 ≤ s) (hs' : s ≤ 256) :
    ∃ ws : List (List Nat), ws.Pairwise (· < ·) ∧
      (∀ w, w ∈ ws ↔ IsLyndon w ∧ w.length ≤ n ∧ ∀ c ∈ w, c < s) ∧
      ∀ k, runIter LyndonWordGenerator.next k (LyndonWordGenerator.new n s) =
        .ok ((ws.map some ++ List.replicate k none).take k) :=
  lwg_all hs hs'

example := C36_lyndon_words 5 3 (by decide) (by decide)

example : runIter LyndonWordGenerator.next 8 (LyndonWordGenerator.new 3 2) =
    .ok [some [0], some [0, 0, 1], some [0, 1], some [0, 1, 1], some [1], none, none, none] := by
  decide +kernel

/-- C36, limits: alphabet size 0 and alphabet size above 256 make the generator panic. -/
example : runIter LyndonWordGenerator.next 2 (LyndonWordGenerator.new 3 0) = .error .arith := by
  decide +kernel
example : runIter LyndonWordGenerator.next 257 (LyndonWordGenerator.new 1 257) = .error .arith := by
  decide +kernel

/-- C36 for the tool: `lyndonwords -l n -s s` with `1 ≤ s ≤ 159` writes these words, one per line, the
letter `c` as the byte `c + 97`, and ends normally (with enough rounds). -/
theorem C36_lyndonwords_tool (n s : Nat) (hs : 1 ≤ s) (hs' : s ≤ 159) :
    ∃ ws : List (List UInt8), ws.Pairwise (· < ·) ∧
      (∀ w, w ∈ ws ↔ IsLyndon w ∧ w.length ≤ n ∧ ∀ c ∈ w, 97 ≤ c.toNat ∧ c.toNat < 97 + s) ∧
      ∀ fuel, ws.length < fuel →
        lyndonwordsLoop fuel (LyndonWordGenerator.new n s) = (ws.flatMap (· ++ [10]), .ok ()) := by
  obtain ⟨ws, h1, h2, h3⟩ := lwg_all (n := n) (show 0 < s by omega) (show s ≤ 256 by omega)
  have hov : ∀ w ∈ ws, Over 159 w := fun w hw c hc => by
    have := ((h2 w).1 hw).2.2 c hc; omega
  -- mapping digits to letters preserves the order, hence Lyndon words
  have hlyn : ∀ v, Over 159 v → (IsLyndon (letters v) ↔ IsLyndon v) := by
    intro v hv
    have hd : ∀ d, Over 159 (v.drop d) := fun d c hc => hv c (List.mem_of_mem_drop hc)
    have hlt : ∀ d, letters v < letters (v.drop d) ↔ v < v.drop d := by
      intro d
      constructor
      · intro h
        rcases lt_trichotomy v (v.drop d) with h' | h' | h'
        · exact h'
        · rw [← h'] at h; exact absurd h (lt_irrefl _)
        · exact absurd h (lt_asymm (letters_lt (hd d) hv h'))
      · exact letters_lt hv (hd d)
    rw [isLyndon_iff_drop, isLyndon_iff_drop]
    have e : ∀ d, (letters v).drop d = letters (v.drop d) := by
      intro d; simp [letters, List.map_drop]
    simp only [e, hlt]
    simp [letters]
  refine ⟨ws.map letters, ?_, ?_, ?_⟩
  · rw [List.pairwise_map]
    exact h1.imp_of_mem (fun ha hb h => letters_lt (hov _ ha) (hov _ hb) h)
  · intro w
    rw [List.mem_map]
    constructor
    · rintro ⟨v, hv, rfl⟩
      have := (h2 v).1 hv
      exact ⟨(hlyn v (hov v hv)).2 this.1, by simpa [letters] using this.2.1,
        letters_over (by omega) this.2.2⟩
    · rintro ⟨g1, g2, g3⟩
      obtain ⟨v, hv1, rfl, hv3⟩ := letters_surj hs' g3
      have hv : Over 159 v := fun c hc => by have := hv1 c hc; omega
      exact ⟨v, (h2 v).2 ⟨(hlyn v hv).1 g1, by omega, hv1⟩, rfl⟩
  · intro fuel hf
    rw [lyndonwords_loop ws hov _ h3 fuel (by simpa using hf), List.flatMap_map]

example := C36_lyndonwords_tool 5 3 (by decide) (by decide)

example : lyndonwordsLoop 6 (LyndonWordGenerator.new 3 2) =
    ([97, 10, 97, 97, 98, 10, 97, 98, 10, 97, 98, 98, 10, 98, 10], .ok ()) := by decide +kernel

/-- C37, what holds: for `len ≤ 63` the first `2^len` results of `BinaryStringGenerator::new(len)` are all
binary strings of that length, each once — in lexicographic order of the *reversed* strings.
Missing from C37: lexicographic order of the strings themselves, and the end after `2^len` strings
(refuted below). -/
theorem C37_binary_strings_partial (len : Nat) (hl : len ≤ 63) :
    ∃ ws : List (List UInt8),
      runIter BinaryStringGenerator.next (2 ^ len) (BinaryStringGenerator.new len) = .ok (ws.map some) ∧
      ws.Nodup ∧ (∀ w, w ∈ ws ↔ w.length = len ∧ ∀ c ∈ w, c = 48 ∨ c = 49) ∧
      (ws.map List.reverse).Pairwise (· < ·) := by
  have hpow : 2 ^ len ≤ 2 ^ 63 := Nat.pow_le_pow_right (by omega) hl
  have hd := digs_list (a := 2) (n := len) (by omega)
  have hinj : ∀ u v : List Nat, Over 2 u → Over 2 v → u < v →
      u.map (fun c => UInt8.ofNat (48 + c)) < v.map (fun c => UInt8.ofNat (48 + c)) := by
    intro u
    induction u with
    | nil =>
      intro v _ _ h
      cases v with
      | nil => exact absurd h (lt_irrefl _)
      | cons b v => exact List.nil_lt_cons _ _
    | cons a u ih =>
      intro v hu hv h
      cases v with
      | nil => exact absurd h (not_lt.2 (nil_le' _))
      | cons b v =>
        have hb : b < 2 := hv b (by simp)
        simp only [List.map_cons]
        rcases cons_lt_cons.1 h with h' | ⟨rfl, h'⟩
        · have ha0 : a = 0 := by omega
          have hb1 : b = 1 := by omega
          subst ha0; subst hb1
          exact cons_lt_cons.2 (Or.inl (by decide))
        · exact cons_lt_cons.2 (Or.inr ⟨rfl, ih v (fun c hc => hu c (by simp [hc]))
            (fun c hc => hv c (by simp [hc])) h'⟩)
  have hrev : ((List.range (2 ^ len)).map (fun k => (digs 2 len k).map
      (fun c => UInt8.ofNat (48 + c)))).Pairwise (· < ·) := by
    have h1 := hd.1
    rw [List.pairwise_map] at h1 ⊢
    exact h1.imp (fun h => hinj _ _ (digs_over (by omega) _ _) (digs_over (by omega) _ _) h)
  refine ⟨(List.range (2 ^ len)).map (fun k => ((digs 2 len k).map
    (fun c => UInt8.ofNat (48 + c))).reverse), ?_, ?_, ?_, ?_⟩
  · rw [BinaryStringGenerator.new, bsg_runIter (by omega) _ _ (by omega), ← List.range_eq_range',
      List.map_map]
    congr 1
    apply List.map_congr_left
    intro q _
    simp only [Function.comp, bits_digs]
  · have h1 : ((List.range (2 ^ len)).map (fun k => (digs 2 len k).map
      (fun c => UInt8.ofNat (48 + c)))).Nodup := hrev.imp (fun h => ne_of_lt h)
    have h2 := h1.map List.reverse_injective
    rw [List.map_map] at h2
    exact h2
  · intro w
    rw [List.mem_map]
    constructor
    · rintro ⟨k, hk, rfl⟩
      refine ⟨by simp, ?_⟩
      intro c hc
      simp only [List.mem_reverse, List.mem_map] at hc
      obtain ⟨d, hd', rfl⟩ := hc
      have := digs_over (a := 2) (by omega) _ _ d hd'
      interval_cases d
      · left; rfl
      · right; rfl
    · rintro ⟨h1, h2⟩
      obtain ⟨k, hk, hk'⟩ := digs_surj (a := 2) (n := len)
        (w := (w.map (fun c => if c = 48 then 0 else 1)).reverse) (by simp [h1]) (by
          intro c hc
          simp only [List.mem_reverse, List.mem_map] at hc
          obtain ⟨d, _, rfl⟩ := hc
          split <;> omega)
      refine ⟨k, List.mem_range.2 hk, ?_⟩
      rw [hk', List.map_reverse, List.reverse_reverse, List.map_map]
      conv_rhs => rw [← List.map_id w]
      apply List.map_congr_left
      intro c hc
      rcases h2 c hc with rfl | rfl <;> rfl
  · rw [List.map_map]
    simpa [Function.comp_def] using hrev

example := C37_binary_strings_partial 5 (by decide)

/-- C37 is false: for every length from 2 to 64 the third string is smaller than the second, and for
every length up to 63 the generator goes on after `2^len` strings, starting again with the first. -/
theorem C37_refuted :
    (∀ len, 2 ≤ len → len ≤ 64 → ∃ a b c, runIter BinaryStringGenerator.next 3
      (BinaryStringGenerator.new len) = .ok [some a, some b, some c] ∧ c < b) ∧
    (∀ len, len ≤ 63 → ∃ ws w, runIter BinaryStringGenerator.next (2 ^ len + 1)
      (BinaryStringGenerator.new len) = .ok (some w :: ws ++ [some w])) := by
  refine ⟨fun len h2 h64 => ?_, fun len hl => ?_⟩
  · rw [BinaryStringGenerator.new, bsg_runIter h64 _ _ (by omega)]
    refine ⟨_, _, _, rfl, ?_⟩
    obtain ⟨m, rfl⟩ : ∃ m, len = m + 1 := ⟨len - 1, by omega⟩
    rw [List.range_succ_eq_map, List.map_cons, List.map_cons]
    exact cons_lt_cons.2 (Or.inl (by decide))
  · have hpow : 2 ^ len ≤ 2 ^ 63 := Nat.pow_le_pow_right (by omega) hl
    have hpos := Nat.two_pow_pos len
    rw [BinaryStringGenerator.new, bsg_runIter (by omega) _ _ (by omega)]
    obtain ⟨m, hm⟩ : ∃ m, 2 ^ len = m + 1 := ⟨2 ^ len - 1, by omega⟩
    rw [hm, List.range'_1_concat, List.range'_succ, ← hm]
    simp only [List.map_append, List.map_cons, List.map_nil, Nat.zero_add]
    have he : (List.range len).map (fun i => if (2 ^ len).testBit i = true then (49 : UInt8) else 48) =
        (List.range len).map (fun i => if Nat.testBit 0 i = true then (49 : UInt8) else 48) := by
      apply List.map_congr_left
      intro i hi
      have hi' := List.mem_range.1 hi
      rw [Nat.zero_testBit, Nat.testBit_two_pow_of_ne (by omega)]
    rw [he]
    exact ⟨_, _, rfl⟩

example : runIter BinaryStringGenerator.next 5 (BinaryStringGenerator.new 2) =
    .ok [some [48, 48], some [49, 48], some [48, 49], some [49, 49], some [48, 48]] := by decide +kernel

/-- C38: the conjugate iterator returns the `n` rotations of the text in order, then `None` forever. -/
theorem C38_conjugates {α : Type} (text : List α) (k : Nat) :
    runIter ConjugateIterator.next k (ConjugateIterator.new text) =
      .ok (((List.range text.length).map (fun i => some (text.drop i ++ text.take i)) ++
        List.replicate k none).take k) := by
  rw [ConjugateIterator.new, conj_runIter text k 0 (by omega), Nat.sub_zero, List.range_eq_range']
  rfl

example : runIter ConjugateIterator.next 4 (ConjugateIterator.new [1, 2, 3]) =
    .ok [some [1, 2, 3], some [2, 3, 1], some [3, 1, 2], none] := by decide +kernel

/-- C39: `RandomStringGenerator::new(a..b, l)`, `1 ≤ l ≤ 7`, `a < 2^63`, `b < usize::MAX`, returns one text
for each round `a+1, ..., ⌈b/2⌉` and then `None` forever; it never panics and never consults the random
source.  Every text is a body over the letters `1, ..., 2^l` followed by a zero byte, the body consisting of
the base-`2^l` digits of the round number between the least significant and the top one, plus one. -/
theorem C39_test_strings (a b l : Nat) (hl1 : 1 ≤ l) (hl7 : l ≤ 7) (ha : a < 9223372036854775808)
    (hb : b < 18446744073709551615) :
    ∃ text : Nat → List UInt8,
      (∀ rnd k, runIter (RandomStringGenerator.next rnd) k ⟨a, b, l⟩ =
        .ok (((List.range' (a + 1) ((b + 1) / 2 - a)).map (fun r => some (text r)) ++
          List.replicate k none).take k)) ∧
      ∀ r, ∃ body, text r = body ++ [0] ∧ (∀ c ∈ body, 1 ≤ c.toNat ∧ c.toNat ≤ 2 ^ l) ∧
        body.length = Nat.size r / l - 1 ∧
        ∀ i, i < body.length → ∃ c, body[i]? = some c ∧ c.toNat = r / (2 ^ l) ^ (i + 1) % 2 ^ l + 1 := by
  refine ⟨rsgText l, fun rnd k => rsg_runIter rnd hl1 hl7 hb k a (by omega), fun r => ?_⟩
  obtain ⟨body, h1, h2⟩ := rsgText_letters (r := r) hl7
  refine ⟨body, h1, h2, ?_⟩
  have hb' : body = (List.range' 1 (Nat.size r / l - 1)).map
      (fun i => UInt8.ofNat (r / 2 ^ (l * i) % 2 ^ l + 1)) := by
    have : body ++ [0] = _ ++ [0] := h1.symm
    exact (List.append_left_inj _).1 this
  refine ⟨by rw [hb']; simp, ?_⟩
  intro i hi
  rw [hb']
  rw [hb'] at hi
  simp at hi
  refine ⟨UInt8.ofNat (r / 2 ^ (l * (i + 1)) % 2 ^ l + 1), ?_, ?_⟩
  · rw [List.getElem?_map, List.getElem?_range' hi]
    simp [Nat.add_comm]
  · have h1 : r / 2 ^ (l * (i + 1)) % 2 ^ l < 2 ^ l := Nat.mod_lt _ (Nat.two_pow_pos l)
    have h2 : 2 ^ l ≤ 2 ^ 7 := Nat.pow_le_pow_right (by omega) hl7
    rw [UInt8.toNat_ofNat', Nat.mod_eq_of_lt (by simp at h2 ⊢; omega), Nat.pow_mul]

example := C39_test_strings 3 100 2 (by decide) (by decide) (by decide) (by decide)

example : runIter (RandomStringGenerator.next []) 3 ⟨19, 41, 1⟩ =
    .ok [some [1, 2, 1, 2, 0], some [1, 2, 1, 2, 0], none] ∧
    runIter (RandomStringGenerator.next []) 1 ⟨100, 300, 2⟩ = .ok [some [2, 3, 0]] := by decide +kernel

/-- C39, limits: log-alphabet 0 panics, log-alphabet 8 can produce a zero byte inside a text, and a start
of at least 2^63 panics. -/
example : runIter (RandomStringGenerator.next []) 1 ⟨0, 300, 0⟩ = .error .arith := by decide +kernel
example : runIter (RandomStringGenerator.next []) 1 ⟨130815, 300000, 8⟩ = .ok [some [0, 0]] := by
  decide +kernel
example : runIter (RandomStringGenerator.next []) 1 ⟨9223372036854775808, 9223372036854775809, 1⟩ =
    .error .arith := by decide +kernel

/-- C40: with `1 ≤ a ≤ 26` and `1 ≤ min ≤ max`, `enumerate a min max` prints, for each length from `min` to
`max`, all words of that length over the first `a` letters, each once, in increasing lexicographic order,
one per line, and exits with 0.  Without the third argument `max = min`. -/
theorem C40_enumerate (a : Nat) (ha : 1 ≤ a) (ha' : a ≤ 26) :
    ∃ ws : Nat → List (List UInt8),
      (∀ n, (ws n).Pairwise (· < ·) ∧
        ∀ w, w ∈ ws n ↔ w.length = n ∧ ∀ c ∈ w, 97 ≤ c.toNat ∧ c.toNat < 97 + a) ∧
      (∀ lo hi, 1 ≤ lo → lo ≤ hi → enumerateMain a lo (some hi) =
        .ok (((List.range' lo (hi + 1 - lo)).flatMap ws).flatMap (· ++ [10]), 0)) ∧
      ∀ lo, 1 ≤ lo → enumerateMain a lo none = .ok ((ws lo).flatMap (· ++ [10]), 0) := by
  have main : ∀ lo hi, 1 ≤ lo → lo ≤ hi → enumerateMain a lo (some hi) =
      .ok (((List.range' lo (hi + 1 - lo)).flatMap
        (fun n => (List.range (a ^ n)).map (fun k => letters (digs a n k)))).flatMap (· ++ [10]), 0) := by
    intro lo hi h1 h2
    simp only [enumerateMain, Option.getD_some]
    rw [if_neg (by omega), if_neg (by omega), if_neg (by omega)]
    obtain ⟨out, g1, g2⟩ := forRange_inv (fun n (out : List UInt8) =>
        out = ((List.range' lo (n - lo)).flatMap
          (fun n => (List.range (a ^ n)).map (fun k => letters (digs a n k)))).flatMap (· ++ [10]))
      (lo := lo) (hi := hi + 1) (s := []) (body := fun len out => do
        let o ← enumerateForLength a len
        pure (out ++ o)) (by omega) (by simp) (by
        intro n out hn1 hn2 ho
        refine ⟨_, by rw [enumerateForLength_ok (by omega) ha' (by omega), ok_bind, pure_ok], ?_⟩
        rw [ho, show n + 1 - lo = (n - lo) + 1 by omega, List.range'_1_concat,
          show lo + (n - lo) = n by omega]
        simp [List.flatMap_append, List.flatMap_map])
    rw [g1, ok_bind, g2]; rfl
  refine ⟨fun n => (List.range (a ^ n)).map (fun k => letters (digs a n k)),
    fun n => letters_list (by omega) (by omega), main, ?_⟩
  intro lo h1
  have := main lo lo h1 (le_refl _)
  rw [show lo + 1 - lo = 1 by omega] at this
  simpa [enumerateMain] using this

example := C40_enumerate 3 (by decide) (by decide)

/-- C40, invalid arguments: nothing is printed and the exit code is 1. -/
theorem C40_invalid (a lo : Nat) (hi : Option Nat)
    (h : a = 0 ∨ 26 < a ∨ lo = 0 ∨ ∃ m, hi = some m ∧ m < lo) :
    enumerateMain a lo hi = .ok ([], 1) := by
  simp only [enumerateMain]
  by_cases h1 : a = 0 ∨ a > 26
  · rw [if_pos h1]
  · rw [if_neg h1]
    by_cases h2 : lo = 0
    · rw [if_pos h2]
    · rw [if_neg h2]
      rcases h with h | h | h | ⟨m, rfl, h⟩
      · omega
      · omega
      · omega
      · rw [if_pos (by simpa using h)]

example := C40_invalid 3 4 (some 2) (Or.inr (Or.inr (Or.inr ⟨2, rfl, by decide⟩)))

example : enumerateMain 2 1 (some 2) =
    .ok ([97, 10, 98, 10, 97, 97, 10, 97, 98, 10, 98, 97, 10, 98, 98, 10], 0) := by decide +kernel

/-- C41: the base-`σ` generators yield every string of length `n` over the first `σ` letters exactly once
(in lexicographic order of the reversed strings), for `1 ≤ σ ≤ 159` and `σ^n < 2^64`. -/
theorem C41_kmer_generator (sigma n : Nat) (h1 : 1 ≤ sigma) (h2 : sigma ≤ 159)
    (h3 : sigma ^ n < 18446744073709551616) :
    ∃ ws, kmerTexts sigma n = .ok ws ∧ ws.Nodup ∧
      (∀ w, w ∈ ws ↔ w.length = n ∧ ∀ c ∈ w, 97 ≤ c.toNat ∧ c.toNat < 97 + sigma) ∧
      (ws.map List.reverse).Pairwise (· < ·) := by
  have hl := letters_list (a := sigma) (n := n) (by omega) h2
  refine ⟨_, kmerTexts_ok (by omega) h2 n h3, ?_, ?_, ?_⟩
  · have h0 : ((List.range (sigma ^ n)).map (fun k => letters (digs sigma n k))).Nodup :=
      hl.1.imp (fun h => ne_of_lt h)
    have h1 := h0.map List.reverse_injective
    rw [List.map_map] at h1
    exact h1
  · intro w
    have := hl.2 w.reverse
    simp only [List.length_reverse, OverLetters, List.mem_reverse] at this
    rw [← this]
    simp only [List.mem_map]
    constructor
    · rintro ⟨k, hk, rfl⟩; exact ⟨k, hk, by simp⟩
    · rintro ⟨k, hk, he⟩; exact ⟨k, hk, by rw [he]; simp⟩
  · rw [List.map_map]
    simpa [Function.comp_def] using hl.1

example := C41_kmer_generator 3 4 (by decide) (by decide) (by decide)

/-- C41 for the two binaries: the constants 4 letters/length 8 and 2 letters/length 32 are within range;
`generator_kmer` prints the texts one per line. -/
theorem C41_constants :
    (∃ ws, kmerTexts 4 8 = .ok ws ∧ generatorKmerMain = .ok (ws.flatMap (· ++ [10])) ∧
      ws.length = 65536) ∧
    ∃ ws, kmerTexts 2 32 = .ok ws ∧ ws.length = 4294967296 := by
  refine ⟨⟨_, kmerTexts_ok (by omega) (by omega) 8 (by norm_num), ?_, by simp⟩,
    ⟨_, kmerTexts_ok (by omega) (by omega) 32 (by norm_num), ?_⟩⟩
  · rw [generatorKmerMain, kmerTexts_ok (by omega) (by omega) 8 (by norm_num), ok_bind, pure_ok]
  · rw [List.length_map, List.length_range]; norm_num

example : kmerTexts 2 2 = .ok [[97, 97], [98, 97], [97, 98], [98, 98]] := by decide +kernel

/-- C56: whatever the random source delivers, if `randomstring` finishes it has written exactly
`prefixlength` characters, all of them among the delivered samples, and at most `alphabet_size` different
ones if `alphabet_size > 0`. -/
theorem C56_randomstring (alphabetSize prefixlength : Nat) (rng out : List UInt8)
    (h : randomstringMain alphabetSize prefixlength rng = some out) :
    out.length = prefixlength ∧ (∀ c ∈ out, c ∈ rng) ∧
    (0 < alphabetSize → out.toFinset.card ≤ alphabetSize) := by
  obtain ⟨h1, h2, cs, h3, _, h5, h6⟩ := randomstring_ok alphabetSize prefixlength [] rng out
    List.nodup_nil (by simp) h
  refine ⟨h1, h2, fun ha => ?_⟩
  calc out.toFinset.card ≤ cs.toFinset.card :=
        Finset.card_le_card (fun c hc => by simp at hc ⊢; exact h5 c hc)
    _ = cs.length := List.toFinset_card_of_nodup h3
    _ ≤ alphabetSize := h6 (by omega)

example := C56_randomstring 2 3 [97, 98, 99, 97] [97, 98, 97] (by decide)

example : randomstringMain 2 5 [65, 66, 67, 68, 66, 69, 65, 70, 66, 71] =
    some [65, 66, 66, 65, 66] := by decide +kernel

/-- C60: `bit_size(i)` is the number of binary digits of `i`: the least `b` with `i < 2^b`. -/
theorem C60_bit_size (i : Nat) (h : i < 18446744073709551616) (b : Nat) :
    bitSize i ≤ b ↔ i < 2 ^ b := by
  rw [bitSize_eq h]; exact Nat.size_le

example := C60_bit_size 200 (by decide) 8

example : bitSize 0 = 0 ∧ bitSize 1 = 1 ∧ bitSize 255 = 8 ∧ bitSize 256 = 9 := by decide +kernel

end Verif.Props
