import Verif.Lemmas.Uniform
import Mathlib.Data.List.SplitBy

/-! # Kolakoski words -/

namespace Verif
open Spec Model

/-- `a` counts 1, every other letter 2. -/
def digit12 (c : UInt8) : Nat := if c = 97 then 1 else 2

/-- the other letter -/
def other (c : UInt8) : UInt8 := if c = 97 then 98 else 97

theorem other_ne (c : UInt8) : c ≠ other c := by
  unfold other; split
  · next h => rw [h]; decide
  · next h => exact h

theorem digit12_pos (c : UInt8) : 1 ≤ digit12 c := by unfold digit12; split <;> omega

theorem digit12_le (c : UInt8) : digit12 c ≤ 2 := by unfold digit12; split <;> omega

/-- the alternating runs with the lengths given by `u`, the first one of the letter `c` -/
def blocks (c : UInt8) : List UInt8 → List (List UInt8)
  | [] => []
  | x :: xs => List.replicate (digit12 x) c :: blocks (other c) xs

/-- their concatenation -/
def expand (c : UInt8) (u : List UInt8) : List UInt8 := (blocks c u).flatten

/-- Kolakoski words -/
def kol : Nat → List UInt8
  | 0 => [98, 98]
  | k + 1 => expand 98 (kol k)

theorem expand_cons (c x : UInt8) (xs : List UInt8) :
    expand c (x :: xs) = List.replicate (digit12 x) c ++ expand (other c) xs := rfl

theorem expand_append (c : UInt8) (u v : List UInt8) : expand c u <+: expand c (u ++ v) := by
  induction u generalizing c with
  | nil => exact List.nil_prefix
  | cons x u ih => rw [List.cons_append, expand_cons, expand_cons, List.prefix_append_right_inj]; exact ih _

theorem expand_snoc {c : UInt8} {u : List UInt8} (hu : u ≠ []) :
    ∃ v d, expand c u = v ++ [d] ∧ ∀ x, expand c (u ++ [x]) = expand c u ++ List.replicate (digit12 x) (other d) := by
  induction u generalizing c with
  | nil => exact absurd rfl hu
  | cons y u ih =>
    rcases u with _ | ⟨z, u⟩
    · refine ⟨List.replicate (digit12 y - 1) c, c, ?_, ?_⟩
      · rw [← List.replicate_succ', show digit12 y - 1 + 1 = digit12 y by have := digit12_pos y; omega]
        simp [expand, blocks]
      · intro x; simp [expand, blocks]
    · obtain ⟨v, d, h1, h2⟩ := ih (c := other c) (by simp)
      refine ⟨List.replicate (digit12 y) c ++ v, d, ?_, ?_⟩
      · rw [expand_cons, h1, List.append_assoc]
      · intro x
        rw [List.cons_append, expand_cons c y, h2, expand_cons c y, List.append_assoc]

theorem blocks_chain (c : UInt8) (u : List UInt8) :
    (blocks c u).IsChain fun a b => ∃ ha hb, (a.getLast ha == b.head hb) = false := by
  induction u generalizing c with
  | nil => exact List.IsChain.nil
  | cons x u ih =>
    rcases u with _ | ⟨y, u⟩
    · exact List.IsChain.singleton _
    · refine List.IsChain.cons_cons ?_ (ih (other c))
      have hx := digit12_pos x
      have hy := digit12_pos y
      refine ⟨by simp; omega, by simp; omega, ?_⟩
      rw [List.getLast_replicate, List.head_replicate]
      simp [other_ne c]

theorem expand_runs (c : UInt8) (u : List UInt8) : (expand c u).splitBy (· == ·) = blocks c u := by
  rw [List.splitBy_eq_iff]
  refine ⟨rfl, ?_, ?_, blocks_chain c u⟩
  · induction u generalizing c with
    | nil => simp [blocks]
    | cons x u ih =>
      have := digit12_pos x
      simp only [blocks, List.mem_cons, not_or]
      refine ⟨fun h => ?_, ih _⟩
      have := congrArg List.length h
      simp at this; omega
  · intro m hm
    have : ∃ n d, m = List.replicate n d := by
      induction u generalizing c with
      | nil => simp [blocks] at hm
      | cons x u ih =>
        rcases List.mem_cons.1 hm with h | h
        · exact ⟨_, _, h⟩
        · exact ih _ h
    obtain ⟨n, d, rfl⟩ := this
    exact List.isChain_replicate_of_rel n (by simp)

theorem blocks_lengths (c : UInt8) (u : List UInt8) : (blocks c u).map List.length = u.map digit12 := by
  induction u generalizing c with
  | nil => rfl
  | cons x u ih => simp [blocks, ih]

theorem expand_letters {c : UInt8} (hc : c = 97 ∨ c = 98) (u : List UInt8) :
    ∀ d ∈ expand c u, d = 97 ∨ d = 98 := by
  induction u generalizing c with
  | nil => simp [expand, blocks]
  | cons x u ih =>
    intro d hd
    rw [expand_cons, List.mem_append] at hd
    rcases hd with hd | hd
    · rw [List.eq_of_mem_replicate hd]; exact hc
    · exact ih (by unfold other; split <;> simp) d hd

theorem expand_length_le (c : UInt8) (u : List UInt8) : (expand c u).length ≤ 2 * u.length := by
  induction u generalizing c with
  | nil => simp [expand, blocks]
  | cons x u ih =>
    have := digit12_le x
    have := ih (other c)
    rw [expand_cons, List.length_append, List.length_replicate, List.length_cons]; omega

theorem expand_length_ge (c : UInt8) (u : List UInt8) : u.length ≤ (expand c u).length := by
  induction u generalizing c with
  | nil => simp
  | cons x u ih =>
    have := digit12_pos x
    have := ih (other c)
    rw [expand_cons, List.length_append, List.length_replicate, List.length_cons]; omega

theorem kol_prefix (k : Nat) : kol k <+: kol (k + 1) := by
  induction k with
  | zero => exact ⟨[97, 97], rfl⟩
  | succ k ih =>
    obtain ⟨t, ht⟩ := ih
    show expand 98 (kol k) <+: expand 98 (kol (k + 1))
    rw [← ht]; exact expand_append _ _ _

theorem kol_start (k : Nat) : ∃ t, kol k = 98 :: 98 :: t := by
  induction k with
  | zero => exact ⟨[], rfl⟩
  | succ k ih =>
    obtain ⟨t, ht⟩ := ih
    obtain ⟨t', ht'⟩ := kol_prefix k
    exact ⟨t ++ t', by rw [← ht', ht]; rfl⟩

theorem kol_letters (k : Nat) : ∀ d ∈ kol k, d = 97 ∨ d = 98 := by
  cases k with
  | zero => simp [kol]
  | succ k => exact expand_letters (Or.inr rfl) _

theorem kol_length_le (k : Nat) : (kol k).length ≤ 2 ^ (k + 1) := by
  induction k with
  | zero => simp [kol]
  | succ k ih =>
    have := expand_length_le 98 (kol k)
    rw [kol, Nat.pow_succ]; omega

theorem expand98_length_lt {u : List UInt8} {t : List UInt8} (hu : u = 98 :: t) : u.length < (expand 98 u).length := by
  subst hu
  have := expand_length_ge (other 98) t
  rw [expand_cons, List.length_append, List.length_replicate, List.length_cons]
  have : digit12 98 = 2 := by decide
  omega

/-- The invariant of the inner loop, for a buffer of `L` bytes. -/
structure KolInv (L N : Nat) (s : KolState) : Prop where
  len : s.text.length = L
  cur : s.currentSize = N
  old : s.oldSize = 0
  src1 : 1 ≤ s.source
  srcN : s.source < N
  tgtN : N ≤ s.target
  tgtL : s.target ≤ L
  two : s.text.take 2 = [98, 98]
  img : s.text.take s.target = expand 98 (s.text.take s.source)

theorem uadd_ok {a b : Nat} (h : a + b < 18446744073709551616) : uadd a b = .ok (a + b) := by
  rw [uadd, if_pos h]

theorem take_take_le {β : Type} {l : List β} {i j : Nat} (h : i ≤ j) : (l.take j).take i = l.take i := by
  rw [List.take_take, Nat.min_eq_left h]

theorem kolStep_ok {L N : Nat} {s : KolState} (h : KolInv L N s) (hN : 2 * N ≤ L) (hL : L < 9223372036854775808) :
    ∃ s', kolStep s = .ok (decide (s.source + 1 = N), s') ∧ s'.text.length = L ∧ s'.source = s.source + 1 ∧
      s.target ≤ s'.target ∧ s'.target ≤ L ∧ s'.text.take N = s.text.take N ∧ s'.text.take 2 = [98, 98] ∧
      s'.text.take s'.target = expand 98 (s'.text.take s'.source) ∧ s'.oldSize = 0 ∧
      (s.source + 1 = N → s'.currentSize = s'.target) ∧ (s.source + 1 ≠ N → s'.currentSize = N) := by
  obtain ⟨text, src, tgt, cur, old⟩ := s
  obtain ⟨h1, h2, h3, h4, h5, h6, h7, h8, h9⟩ := h
  simp only at h1 h2 h3 h4 h5 h6 h7 h8 h9
  subst h2 h3
  have hget : text[src]? = some (text[src]'(by omega)) := by rw [List.getElem?_eq_getElem]
  have htake : text.take (src + 1) = text.take src ++ [text[src]'(by omega)] := by
    rw [List.take_add_one, hget]; rfl
  have hne : text.take src ≠ [] := by
    intro h0
    have := congrArg List.length h0
    rw [List.length_take, Nat.min_eq_left (by omega), List.length_nil] at this; omega
  obtain ⟨v, d, hv, hd⟩ := expand_snoc (c := 98) hne
  have hlen9 := congrArg List.length h9
  rw [List.length_take, Nat.min_eq_left (by omega)] at hlen9
  have hlast : text[tgt - 1]? = some d := by
    rw [← List.getElem?_take_of_lt (show tgt - 1 < tgt by omega), h9]
    have hl : (expand 98 (text.take src)).length = v.length + 1 := by rw [hv]; simp
    rw [hv, show tgt - 1 = v.length by omega]; simp
  have hletters := expand_letters (c := 98) (Or.inr rfl) (text.take src)
  have hc : text[src]'(by omega) = 97 ∨ text[src]'(by omega) = 98 := by
    apply hletters
    rw [← h9]
    have : (text.take tgt)[src]'(by rw [List.length_take]; omega) = text[src]'(by omega) := by simp
    rw [← this]; exact List.getElem_mem _
  have hsym : (if d = 97 then (98 : UInt8) else 97) = other d := rfl
  -- the bound on the target
  have hsrclen : (text.take (src + 1)).length = src + 1 := by rw [List.length_take]; omega
  have hbound : tgt + digit12 (text[src]'(by omega)) ≤ L := by
    have a1 := expand_length_le 98 (text.take (src + 1))
    rw [htake, hd, List.length_append, List.length_replicate, ← htake, hsrclen, ← hlen9] at a1
    omega
  have h9' : expand 98 (text.take (src + 1)) = text.take tgt ++ List.replicate (digit12 (text[src]'(by omega))) (other d) := by
    rw [htake, hd, h9]
  simp only [kolStep]
  rw [usub_ok (by omega), ok_bind, rd_some hlast, ok_bind, rd_some hget, ok_bind, hsym]
  rcases hc with hc | hc
  · rw [hc] at hbound h9'
    have hdig : digit12 97 = 1 := rfl
    rw [hdig] at hbound h9'
    rw [hc, if_pos rfl, wr_ok (by omega), ok_bind, pure_bind']
    have hget' : (text.set tgt (other d))[src]? = some 97 := by
      rw [List.getElem?_set_ne (by omega), hget, hc]
    simp only
    rw [rd_some hget', ok_bind, if_neg (by decide), pure_bind']
    have e1 : (text.set tgt (other d)).take (tgt + 1) = expand 98 ((text.set tgt (other d)).take (src + 1)) := by
      rw [set_take (by omega), List.take_set_of_le (by omega), h9']; rfl
    simp only
    by_cases hsN : src + 1 = cur
    · rw [if_pos hsN, uadd_ok (by omega), ok_bind, usub_ok (by omega), ok_bind, pure_ok]
      refine ⟨_, by rw [decide_eq_true hsN], ?_, ?_, ?_, ?_, ?_, ?_, ?_, ?_, ?_, ?_⟩
      all_goals simp only
      · simpa using h1
      · omega
      · omega
      · exact List.take_set_of_le (by omega)
      · rw [List.take_set_of_le (by omega), h8]
      · exact e1
      · omega
      · intro _; omega
      · intro h; exact absurd hsN h
    · rw [if_neg hsN, pure_ok]
      refine ⟨_, by rw [decide_eq_false hsN], ?_, ?_, ?_, ?_, ?_, ?_, ?_, ?_, ?_, ?_⟩
      all_goals simp only
      · simpa using h1
      · omega
      · omega
      · exact List.take_set_of_le (by omega)
      · rw [List.take_set_of_le (by omega), h8]
      · exact e1
      · intro h; exact absurd h hsN
      · intro _; trivial
  · rw [hc] at hbound h9'
    have hdig : digit12 98 = 2 := rfl
    rw [hdig] at hbound h9'
    rw [hc, if_neg (by decide), pure_bind']
    simp only
    rw [rd_some hget, ok_bind, hc, if_pos rfl, wr_ok (by omega), ok_bind, wr_ok (by simp; omega), ok_bind,
      pure_bind']
    have e1 : ((text.set tgt (other d)).set (tgt + 1) (other d)).take (tgt + 2) =
        expand 98 (((text.set tgt (other d)).set (tgt + 1) (other d)).take (src + 1)) := by
      rw [set_take (by simp; omega), set_take (by omega), List.take_set_of_le (by omega), List.take_set_of_le (by omega), h9']
      simp [List.replicate]
    simp only
    by_cases hsN : src + 1 = cur
    · rw [if_pos hsN, uadd_ok (by omega), ok_bind, usub_ok (by omega), ok_bind, pure_ok]
      refine ⟨_, by rw [decide_eq_true hsN], ?_, ?_, ?_, ?_, ?_, ?_, ?_, ?_, ?_, ?_⟩
      all_goals simp only
      · simpa using h1
      · omega
      · omega
      · rw [List.take_set_of_le (by omega), List.take_set_of_le (by omega)]
      · rw [List.take_set_of_le (by omega), List.take_set_of_le (by omega), h8]
      · exact e1
      · omega
      · intro _; omega
      · intro h; exact absurd hsN h
    · rw [if_neg hsN, pure_ok]
      refine ⟨_, by rw [decide_eq_false hsN], ?_, ?_, ?_, ?_, ?_, ?_, ?_, ?_, ?_, ?_⟩
      all_goals simp only
      · simpa using h1
      · omega
      · omega
      · rw [List.take_set_of_le (by omega), List.take_set_of_le (by omega)]
      · rw [List.take_set_of_le (by omega), List.take_set_of_le (by omega), h8]
      · exact e1
      · intro h; exact absurd h hsN
      · intro _; trivial

theorem kolRound_ok {L N : Nat} {s : KolState} (h : KolInv L N s) (hN : 2 * N ≤ L) (hL : L < 9223372036854775808) :
    ∃ s', loopR N kolStep s = .ok s' ∧ s'.text.length = L ∧ s'.source = N ∧ s'.currentSize = s'.target ∧
      s'.oldSize = 0 ∧ N ≤ s'.target ∧ s'.target ≤ L ∧ s'.text.take N = s.text.take N ∧ s'.text.take 2 = [98, 98] ∧
      s'.text.take s'.target = expand 98 (s'.text.take N) := by
  obtain ⟨s', h1, h2⟩ := loopR_inv (fun t : KolState => KolInv L N t ∧ t.text.take N = s.text.take N)
    (fun s' => s'.text.length = L ∧ s'.source = N ∧ s'.currentSize = s'.target ∧
      s'.oldSize = 0 ∧ N ≤ s'.target ∧ s'.target ≤ L ∧ s'.text.take N = s.text.take N ∧ s'.text.take 2 = [98, 98] ∧
      s'.text.take s'.target = expand 98 (s'.text.take N))
    (fun t => N - t.source) (fuel := N) (body := kolStep) (s := s) ⟨h, rfl⟩
    (by have := h.src1; have := h.srcN; omega)
    (by
      rintro t ⟨ht, he⟩
      obtain ⟨t', g1, g2, g3, g4, g5, g6, g7, g8, g9, g10, g11⟩ := kolStep_ok ht hN hL
      have := ht.srcN
      have := ht.tgtN
      by_cases hs : t.source + 1 = N
      · left
        rw [decide_eq_true hs] at g1
        exact ⟨t', g1, g2, by omega, g10 hs, g9, by omega, g5, by rw [g6, he], g7, by rw [g8, g3, hs]⟩
      · right
        rw [decide_eq_false hs] at g1
        exact ⟨t', g1, ⟨⟨g2, g11 hs, g9, by omega, by omega, by omega, g5, g7, g8⟩, by rw [g6, he]⟩, by omega⟩)
  exact ⟨s', h1, h2⟩

theorem kolakoski_ok {k : Nat} (hk : k ≤ 60) : kolakoskiWord k = .ok (kol k) := by
  have hp : 2 ^ (k + 2) ≤ 2 ^ 62 := Nat.pow_le_pow_right (by omega) (by omega)
  have hp4 : 2 ^ (k + 2) = 4 * 2 ^ k := by rw [Nat.pow_add]; omega
  have hp1 : 1 ≤ 2 ^ k := Nat.one_le_two_pow
  obtain ⟨L, hL, hL1, hL2⟩ : ∃ L, kolakoskiEstimate (k + 2) + 1 = L ∧ 2 ^ (k + 2) + 1 ≤ L ∧ L ≤ 2 ^ 62 + 2 := by
    refine ⟨_, rfl, ?_, ?_⟩ <;> unfold kolakoskiEstimate <;> split
    · omega
    · split <;> omega
    · omega
    · split <;> omega
  unfold kolakoskiWord
  rw [u8add, if_pos (by omega), ok_bind, uadd_ok (by omega), ok_bind, hL, zeroed, if_pos (by omega), ok_bind,
    wr_ok (by simp; omega), ok_bind, wr_ok (by simp; omega), ok_bind]
  obtain ⟨L', rfl⟩ : ∃ L', L = L' + 2 := ⟨L - 2, by omega⟩
  have hinit : ((List.replicate (L' + 2) (0 : UInt8)).set 0 98).set 1 98 = 98 :: 98 :: List.replicate L' 0 := by
    simp [List.replicate_succ]
  rw [hinit]
  obtain ⟨s, h1, h2, h3, h4, h5, h6, h7, h8⟩ := forRange_inv
    (fun i (s : KolState) => s.text.length = L' + 2 ∧ s.oldSize = 0 ∧ s.currentSize = s.target ∧
      1 ≤ s.source ∧ s.source < s.target ∧ s.text.take s.target = kol i ∧ s.target = (kol i).length ∧
      s.text.take s.target = expand 98 (s.text.take s.source))
    (lo := 0) (hi := k) (s := ⟨98 :: 98 :: List.replicate L' 0, 1, 2, 2, 0⟩)
    (body := fun _ s => loopR s.currentSize kolStep s) (by omega)
    ⟨by simp, rfl, rfl, le_refl _, by simp, rfl, rfl, rfl⟩
    (by
      rintro i s _ hi ⟨i1, i2, i3, i4, i5, i6, i7, i8⟩
      have hlen := kol_length_le i
      have hpi : 2 ^ (i + 2) ≤ 2 ^ (k + 1) := Nat.pow_le_pow_right (by omega) (by omega)
      have hpi' : 2 ^ (i + 2) = 2 * 2 ^ (i + 1) := by rw [Nat.pow_succ, Nat.mul_comm]
      have hpk : 2 ^ (k + 1) = 2 * 2 ^ k := by rw [Nat.pow_succ, Nat.mul_comm]
      obtain ⟨t, ht⟩ := kol_start i
      have htgt2 : 2 ≤ s.target := by rw [i7, ht]; simp
      have h2 : s.text.take 2 = [98, 98] := by
        rw [← take_take_le htgt2, i6, ht]; rfl
      obtain ⟨s', g1, g2, g3, g4, g5, g6, g7, g8, g9, g10⟩ := kolRound_ok (L := L' + 2) (N := s.target)
        ⟨i1, i3, i2, i4, i5, le_refl _, by omega, h2, i8⟩ (by omega) (by omega)
      have e : s'.text.take s'.target = kol (i + 1) := by rw [g10, g8, i6]; rfl
      have e2 : s'.target = (kol (i + 1)).length := by
        rw [← e, List.length_take]; omega
      refine ⟨s', by rw [i3]; exact g1, g2, g5, g4, by omega, ?_, e, e2, by rw [g10, g3]⟩
      rw [g3, e2, i7]
      exact expand98_length_lt ht)
  rw [h1, ok_bind]
  have hlen := kol_length_le k
  have hpk : 2 ^ (k + 1) = 2 * 2 ^ k := by rw [Nat.pow_succ, Nat.mul_comm]
  rw [if_pos (by omega), h7]; rfl

end Verif
