import Verif.Lemmas.Lcp
import Verif.Lemmas.SmallerValues
import Verif.Spec.Lz
import Verif.Spec.Bwt

/-! # LZ77 -/

namespace Verif

open Spec Model

variable {α : Type}

theorem occ_iff_lcp [DecidableEq α] {t : List α} {i j l : Nat} (hi : i ≤ t.length)
    (hj : j ≤ t.length) : Occ t j i l ↔ l ≤ lcpLen (t.drop j) (t.drop i) := by
  rw [le_lcpLen_iff_get, Occ]
  simp only [List.length_drop, List.getElem?_drop]
  constructor
  · rintro ⟨a, b, c⟩; exact ⟨by omega, by omega, c⟩
  · rintro ⟨a, b, c⟩; exact ⟨by omega, by omega, c⟩

theorem foldl_min_eq {M : Nat} (l : List Nat) (hne : l ≠ []) (h : ∀ x ∈ l, x ≤ M) :
    l.min? = some (l.foldl min M) := by
  cases l with
  | nil => exact absurd rfl hne
  | cons x xs =>
    rw [List.min?_cons', List.foldl_cons, Nat.min_eq_right (h x (by simp))]

/-- The lcp array of a text with suffix array `sa` (as computed, from index 1 on). -/
def IsLcpArray [DecidableEq α] (t : List α) (sa lcp : List Nat) : Prop :=
  lcp.length = sa.length ∧ ∀ i (_ : 0 < i) (hi : i < sa.length),
    lcp[i]? = some (lcpLen (t.drop sa[i - 1]) (t.drop sa[i]))

section
variable [LinearOrder α]

/-- The range minimum is the longest common prefix of the two ends. -/
theorem rmq_fold {t : List α} {sa lcp : List Nat} (hs : IsSuffixArray t sa)
    (hl : IsLcpArray t sa lcp) (hn : t.length < 4294967296) (q d : Nat) (h : q + d + 1 < sa.length) :
    ((lcp.drop (q + 1)).take (d + 1)).foldl min 4294967295 =
      lcpLen (t.drop sa[q]) (t.drop (sa[q + d + 1])) := by
  induction d with
  | zero =>
    have h1 : q + 1 < lcp.length := by rw [hl.1]; omega
    have h2 := hl.2 (q + 1) (by omega) (by omega)
    rw [List.getElem?_eq_getElem h1] at h2
    simp only [Option.some.injEq, Nat.add_sub_cancel] at h2
    rw [List.drop_eq_getElem_cons h1]
    simp only [Nat.zero_add, List.take_succ_cons, List.take_zero, List.foldl_cons, List.foldl_nil, h2,
      Nat.add_zero]
    apply Nat.min_eq_right
    have := lcpLen_le_left (t.drop sa[q]) (t.drop sa[q + 1])
    rw [List.length_drop] at this; omega
  | succ d ih =>
    have h1 : q + 1 + (d + 1) < lcp.length := by rw [hl.1]; omega
    have h2 := hl.2 (q + (d + 1) + 1) (by omega) h
    simp only [Nat.add_sub_cancel] at h2
    rw [List.take_add_one, List.foldl_append, ih (by omega), List.getElem?_drop,
      show q + 1 + (d + 1) = q + (d + 1) + 1 by omega, h2]
    simp only [Option.toList_some, List.foldl_cons, List.foldl_nil]
    have a1 := ((hs.lt_iff (i := q) (j := q + (d + 1)) (by omega) (by omega)).2 (by omega)).le
    have a2 := ((hs.lt_iff (i := q + (d + 1)) (j := q + (d + 1) + 1) (by omega) h).2 (by omega)).le
    exact (lcpLen_between_eq a1 a2).symm

theorem rmq_ok {t : List α} {sa lcp : List Nat} (hs : IsSuffixArray t sa)
    (hl : IsLcpArray t sa lcp) (hn : t.length < 4294967296) {q r : Nat} (hqr : q < r)
    (hr : r < sa.length) :
    rmqQuery lcp (q + 1) (r + 1) = .ok (lcpLen (t.drop sa[q]) (t.drop sa[r])) ∧
    rmqNaive lcp (q + 1) (r + 1) = .ok (lcpLen (t.drop sa[q]) (t.drop sa[r])) := by
  have hll := hl.1
  obtain ⟨d, rfl⟩ : ∃ d, r = q + d + 1 := ⟨r - q - 1, by omega⟩
  have hf := rmq_fold hs hl hn q d hr
  have e : q + d + 1 + 1 - (q + 1) = d + 1 := by omega
  constructor
  · rw [rmqQuery, if_pos ⟨by omega, by omega⟩, e, hf]
  · rw [rmqNaive, if_pos ⟨by omega, by omega⟩, e, foldl_min_eq (M := 4294967295), hf]
    · intro h
      have := congrArg List.length h
      rw [List.length_take, List.length_drop] at this
      simp at this; omega
    · intro x hx
      obtain ⟨i, hi, rfl⟩ := List.getElem_of_mem (List.mem_of_mem_drop (List.mem_of_mem_take hx))
      rcases Nat.eq_zero_or_pos i with h0 | h0
      · -- entry 0 is not in the range
        obtain ⟨k, hk, e⟩ := List.getElem_of_mem hx
        rw [List.getElem_take, List.getElem_drop] at e
        have h2 := hl.2 (q + 1 + k) (by omega) (by
          rw [List.length_take, List.length_drop] at hk; omega)
        rw [List.getElem?_eq_getElem (by rw [List.length_take, List.length_drop] at hk; omega), e] at h2
        simp only [Option.some.injEq] at h2
        rw [h2]
        refine le_trans (lcpLen_le_left _ _) ?_
        rw [List.length_drop]; omega
      · have h2 := hl.2 i h0 (by omega)
        rw [List.getElem?_eq_getElem hi] at h2
        simp only [Option.some.injEq] at h2
        rw [h2]
        refine le_trans (lcpLen_le_left _ _) ?_
        rw [List.length_drop]; omega

/-- The nearest smaller suffix to the left is the best earlier start among the smaller suffixes. -/
theorem prevLcp_ok {t : List α} {sa lcp psv : List Nat} (hs : IsSuffixArray t sa)
    (hl : IsLcpArray t sa lcp) (hn : t.length < 4294967295)
    (hpsv : ∀ i, i < sa.length → ∃ v, psv[i]? = some v ∧ IsPsv 4294967295 sa i v) {r : Nat}
    (hr : r < sa.length) :
    ∃ m, prevLcp lcp psv r = .ok m ∧
      (∀ j, j < r → ∀ (hj : j < sa.length), sa[j] < sa[r] → lcpLen (t.drop sa[j]) (t.drop sa[r]) ≤ m) ∧
      (0 < m → ∃ q, ∃ hq : q < sa.length, psv[r]? = some q ∧ sa[q] < sa[r] ∧
        m = lcpLen (t.drop sa[q]) (t.drop sa[r])) := by
  obtain ⟨v, hv, x, hx, hcase⟩ := hpsv r hr
  rw [List.getElem?_eq_getElem hr] at hx
  simp only [Option.some.injEq] at hx
  subst hx
  have hlen := hs.length
  simp only [prevLcp]
  rw [rd_some hv, ok_bind]
  rcases hcase with ⟨rfl, hall⟩ | ⟨hvr, ⟨y, hy, hyx⟩, hall⟩
  · rw [if_pos (show 4294967295 = INVALID from rfl)]
    refine ⟨0, rfl, ?_, by omega⟩
    intro j hj hj' hlt
    exact absurd hlt (not_lt.2 (hall j _ hj (List.getElem?_eq_getElem hj')))
  · have hq : v < sa.length := by omega
    rw [List.getElem?_eq_getElem hq] at hy
    simp only [Option.some.injEq] at hy
    subst hy
    rw [if_neg (by unfold INVALID; omega)]
    obtain ⟨e1, e2⟩ := rmq_ok hs hl (by omega) hvr hr
    rw [show assertR (decide (r > v)) = .ok () by simp [assertR, hvr], ok_bind, e1, ok_bind, e2,
      ok_bind]
    refine ⟨_, by simp [assertR, pure_ok], ?_, fun _ => ⟨v, hq, hv, hyx, rfl⟩⟩
    intro j hj hj' hlt
    have hjv : j ≤ v := by
      by_contra hc
      exact absurd hlt (not_lt.2 (hall j _ (by omega) hj (List.getElem?_eq_getElem hj')))
    exact (lcpLen_le_of_between ((hs.le_iff hj' hq).2 hjv) ((hs.le_iff hq hr).2 hvr.le)).2

theorem nextLcp_ok {t : List α} {sa lcp nsv : List Nat} (hs : IsSuffixArray t sa)
    (hl : IsLcpArray t sa lcp) (hn : t.length < 4294967295)
    (hnsv : ∀ i, i < sa.length → ∃ v, nsv[i]? = some v ∧ IsNsv 4294967295 sa i v) {r : Nat}
    (hr : r < sa.length) :
    ∃ m, nextLcp lcp nsv r = .ok m ∧
      (∀ j, r < j → ∀ (hj : j < sa.length), sa[j] < sa[r] → lcpLen (t.drop sa[j]) (t.drop sa[r]) ≤ m) ∧
      (0 < m → ∃ q, ∃ hq : q < sa.length, nsv[r]? = some q ∧ sa[q] < sa[r] ∧
        m = lcpLen (t.drop sa[q]) (t.drop sa[r])) := by
  obtain ⟨v, hv, x, hx, hcase⟩ := hnsv r hr
  rw [List.getElem?_eq_getElem hr] at hx
  simp only [Option.some.injEq] at hx
  subst hx
  have hlen := hs.length
  simp only [nextLcp]
  rw [rd_some hv, ok_bind]
  rcases hcase with ⟨rfl, hall⟩ | ⟨hvr, ⟨y, hy, hyx⟩, hall⟩
  · rw [if_pos (show 4294967295 = INVALID from rfl)]
    refine ⟨0, rfl, ?_, by omega⟩
    intro j hj hj' hlt
    exact absurd hlt (not_lt.2 (hall j _ hj (List.getElem?_eq_getElem hj')))
  · obtain ⟨hq, -⟩ := List.getElem?_eq_some_iff.1 hy
    rw [List.getElem?_eq_getElem hq] at hy
    simp only [Option.some.injEq] at hy
    subst hy
    rw [if_neg (by unfold INVALID; omega)]
    obtain ⟨e1, e2⟩ := rmq_ok hs hl (by omega) hvr hq
    rw [show assertR (decide (r < v)) = .ok () by simp [assertR, hvr], ok_bind, e1, ok_bind, e2,
      ok_bind]
    refine ⟨_, by simp [assertR, pure_ok], ?_, fun _ => ⟨v, hq, hv, hyx, lcpLen_comm _ _⟩⟩
    intro j hj hj' hlt
    have hjv : v ≤ j := by
      by_contra hc
      exact absurd hlt (not_lt.2 (hall j _ hj (by omega) (List.getElem?_eq_getElem hj')))
    rw [lcpLen_comm]
    exact (lcpLen_le_of_between ((hs.le_iff hr hq).2 hvr.le) ((hs.le_iff hq hj').2 hjv)).1

end

/-- The arrays the tool builds. -/
structure LzArrays (t : List UInt8) (sa isa lcp nsv psv : List Nat) : Prop where
  hs : IsSuffixArray t sa
  hi : IsInverse sa isa
  hl : IsLcpArray t sa lcp
  hpsv : ∀ i, i < sa.length → ∃ v, psv[i]? = some v ∧ IsPsv 4294967295 sa i v
  hnsv : ∀ i, i < sa.length → ∃ v, nsv[i]? = some v ∧ IsNsv 4294967295 sa i v

/-- One factor. -/
theorem lz77Step_ok {t : List UInt8} {sa isa lcp nsv psv : List Nat}
    (A : LzArrays t sa isa lcp nsv psv) (hn : t.length < 4294967295) {i : Nat} (hi : i < t.length)
    (fs : List LZFactor) :
    ∃ f i', lz77Step t sa isa lcp nsv psv (i, fs) = .ok (i', fs ++ [f]) ∧
      ((∃ c, t[i]? = some c ∧ f = ⟨c.toNat, 0⟩ ∧ (∀ j, j < i → t[j]? ≠ some c) ∧ i' = i + 1) ∨
       (0 < f.len ∧ (∃ j, j < i ∧ f.pos = i - j ∧ Occ t j i f.len) ∧
        (∀ j l, j < i → Occ t j i l → l ≤ f.len) ∧ i' = i + f.len)) := by
  have hlen := A.hs.length
  have hilen : isa.length = sa.length := A.hi.1
  obtain ⟨r, hr, hri⟩ := A.hs.rank hi
  have hisa : isa[i]? = some r := by
    obtain ⟨x, hx1, hx2⟩ := A.hi.2.1 r hr
    rw [List.getElem?_eq_getElem hr, hri] at hx1
    simp only [Option.some.injEq] at hx1
    subst hx1; exact hx2
  obtain ⟨mp, hp1, hp2, hp3⟩ := prevLcp_ok A.hs A.hl hn A.hpsv hr
  obtain ⟨mn, hn1, hn2, hn3⟩ := nextLcp_ok A.hs A.hl hn A.hnsv hr
  rw [hri] at hp2 hp3 hn2 hn3
  -- every earlier start offers at most the larger of the two
  have hmax : ∀ j, j < i → lcpLen (t.drop j) (t.drop i) ≤ max mp mn := by
    intro j hj
    obtain ⟨rj, hrj, e⟩ := A.hs.rank (show j < t.length by omega)
    subst e
    rcases Nat.lt_trichotomy rj r with h | h | h
    · exact (hp2 rj h hrj hj).trans (le_max_left _ _)
    · subst h; omega
    · exact (hn2 rj h hrj hj).trans (le_max_right _ _)
  simp only [lz77Step]
  rw [rd_some hisa, ok_bind, hp1, ok_bind, hn1, ok_bind]
  by_cases h0 : mp = 0 ∧ mn = 0
  · rw [if_pos h0, rd_ok hi, ok_bind]
    refine ⟨_, _, rfl, Or.inl ⟨t[i], List.getElem?_eq_getElem hi, rfl, ?_, rfl⟩⟩
    intro j hj e
    have h1 := hmax j hj
    rw [h0.1, h0.2] at h1
    have h2 : Occ t j i 1 := by
      refine ⟨by omega, by omega, ?_⟩
      intro k hk
      have : k = 0 := by omega
      subst this
      rw [Nat.add_zero, Nat.add_zero, e, List.getElem?_eq_getElem hi]
    rw [occ_iff_lcp (by omega) (by omega)] at h2
    simp at h1; omega
  · rw [if_neg h0]
    have hfin : ∀ (q m : Nat) (hq : q < sa.length), sa[q] < i →
        m = lcpLen (t.drop sa[q]) (t.drop i) → 0 < m → max mp mn = m →
        ∃ f i', (do
          let maxPos ← rd sa q
          assertR (decide (maxPos < i))
          let d ← usub (asU32 i) (asU32 maxPos)
          pure (i + m, fs ++ [(⟨d, m⟩ : LZFactor)]) : Res (Nat × List LZFactor)) =
            .ok (i', fs ++ [f]) ∧
          ((∃ c, t[i]? = some c ∧ f = ⟨c.toNat, 0⟩ ∧ (∀ j, j < i → t[j]? ≠ some c) ∧ i' = i + 1) ∨
           (0 < f.len ∧ (∃ j, j < i ∧ f.pos = i - j ∧ Occ t j i f.len) ∧
            (∀ j l, j < i → Occ t j i l → l ≤ f.len) ∧ i' = i + f.len)) := by
      intro q m hq hlt hm hpos hmx
      rw [rd_ok hq, ok_bind, show assertR (decide (sa[q] < i)) = .ok () by simp [assertR, hlt], ok_bind,
        asU32, asU32, Nat.mod_eq_of_lt (by omega), Nat.mod_eq_of_lt (by omega), usub_ok (by omega),
        ok_bind]
      refine ⟨_, _, rfl, Or.inr ⟨hpos, ⟨sa[q], hlt, rfl, ?_⟩, ?_, rfl⟩⟩
      · rw [occ_iff_lcp (by omega) (by omega)]; dsimp only; omega
      · intro j l hj hocc
        rw [occ_iff_lcp (by omega) (by omega)] at hocc
        have := hmax j hj
        dsimp only; omega
    by_cases hc : mp < mn
    · obtain ⟨q, hq, e1, e2, e3⟩ := hn3 (by omega)
      simp only [if_pos hc]
      rw [rd_some e1, ok_bind]
      exact hfin q mn hq e2 e3 (by omega) (by omega)
    · obtain ⟨q, hq, e1, e2, e3⟩ := hp3 (by omega)
      simp only [if_neg hc]
      rw [rd_some e1, ok_bind]
      exact hfin q mp hq e2 e3 (by omega) (by omega)

theorem greedyLz_append {t : List UInt8} : ∀ (fs gs : List LZFactor) (i k : Nat),
    (∀ hs, GreedyLz t k hs → GreedyLz t i (fs ++ hs)) → GreedyLz t k gs → GreedyLz t i (fs ++ gs) :=
  fun _ gs _ _ h hg => h gs hg

/-- `compute_lz77` returns the greedy parse. -/
theorem computeLz77_ok {t : List UInt8} {sa isa lcp nsv psv : List Nat}
    (A : LzArrays t sa isa lcp nsv psv) (hn : t.length < 4294967295) :
    ∃ fs, computeLz77 t sa isa lcp nsv psv = .ok fs ∧ GreedyLz t 0 fs := by
  obtain ⟨⟨k, fs⟩, h1, ⟨h2, h3⟩, h4⟩ := whileLoop_inv
    (fun s : Nat × List LZFactor => s.1 ≤ t.length ∧
      ∀ gs, GreedyLz t s.1 gs → GreedyLz t 0 (s.2 ++ gs)) (fun s => t.length - s.1)
    (fuel := t.length + 1)
    (cond := fun (s : Nat × List LZFactor) => pure (decide (s.1 < t.length)))
    (body := lz77Step t sa isa lcp nsv psv) (s := (0, []))
    ⟨by omega, fun gs h => by simpa using h⟩ (by dsimp only; omega) (by
      rintro ⟨i, fs⟩ ⟨hi, hg⟩
      dsimp only at hi hg
      by_cases hlt : i < t.length
      · right
        obtain ⟨f, i', e, hcase⟩ := lz77Step_ok A hn hlt fs
        refine ⟨by simp [hlt, pure_ok], _, e, ?_⟩
        rcases hcase with ⟨c, a1, a2, a3, rfl⟩ | ⟨a1, a2, a3, rfl⟩
        · refine ⟨⟨by dsimp only; omega, ?_⟩, by dsimp only; omega⟩
          intro gs hgs
          rw [List.append_assoc]
          exact hg _ (Or.inl ⟨c, a1, a2, a3, hgs⟩)
        · have a2' := a2
          obtain ⟨j, hj, -, hocc⟩ := a2'
          have := hocc.2.1
          refine ⟨⟨by dsimp only; omega, ?_⟩, by dsimp only; omega⟩
          intro gs hgs
          rw [List.append_assoc]
          exact hg _ (Or.inr ⟨a1, a2, a3, hgs⟩)
      · left; simp [hlt, pure_ok])
  simp only [pure_ok, Except.ok.injEq, decide_eq_false_iff_not] at h4
  refine ⟨fs, by simp only [computeLz77]; rw [h1, ok_bind]; rfl, ?_⟩
  have := h3 [] (by simp only [GreedyLz]; dsimp only at h2; omega)
  simpa using this

/-! ### Decoding -/

theorem decodeFactor_copy {t : List UInt8} {i j l d : Nat} (hj : j < i) (hd : d = i - j) (hl : 0 < l)
    (h : Occ t j i l) : decodeFactor ⟨d, l⟩ (t.take i) = .ok (t.take (i + l)) := by
  obtain ⟨o1, o2, o3⟩ := h
  simp only [decodeFactor]
  rw [if_neg (by omega), usub_ok (by rw [List.length_take]; omega), ok_bind]
  have hlen : (t.take i).length = i := by rw [List.length_take]; omega
  rw [hlen, show i - d = j by omega]
  obtain ⟨w, e1, e2⟩ := forRange_inv (fun k (w : List UInt8) => w = t.take (i + k))
    (lo := 0) (hi := l) (Nat.zero_le _) (s := t.take i) (body := fun p text => do
      let c ← rd text (j + p)
      pure (text ++ [c])) rfl (by
    intro k w _ hk hw
    subst hw
    have hx : j + k < (t.take (i + k)).length := by rw [List.length_take]; omega
    refine ⟨_, by rw [rd_ok hx, ok_bind, pure_ok], ?_⟩
    rw [← Nat.add_assoc, List.take_add_one]
    congr 1
    have := o3 k hk
    rw [← this, List.getElem_take, List.getElem?_eq_getElem (by omega)]; rfl)
  rw [e1, e2]

theorem decode_greedy {t : List UInt8} (fs : List LZFactor) (i : Nat) (hi : i ≤ t.length)
    (h : GreedyLz t i fs) : forEach fs (t.take i) decodeFactor = .ok t := by
  induction fs generalizing i with
  | nil =>
    simp only [GreedyLz] at h
    rw [forEach_nil, h, List.take_length]
  | cons f fs ih =>
    rw [forEach_cons]
    rcases h with ⟨c, h1, rfl, -, h4⟩ | ⟨h1, ⟨j, h2, h3, h4⟩, -, h5⟩
    · obtain ⟨hlt, rfl⟩ := List.getElem?_eq_some_iff.1 h1
      have : decodeFactor ⟨t[i].toNat, 0⟩ (t.take i) = .ok (t.take (i + 1)) := by
        rw [decodeFactor, List.take_add_one, h1]
        simp [pure_ok]
      rw [this, ok_bind]
      exact ih (i + 1) (by omega) h4
    · obtain ⟨d, l⟩ := f
      rw [decodeFactor_copy h2 h3 h1 h4, ok_bind]
      have := h4.2.1
      exact ih (i + l) this h5

theorem lzArrays_build {t : List UInt8} (ht : t ≠ []) (hn : t.length ≤ 2147483648) {sa : List Nat}
    (hs : IsSuffixArray t sa) :
    ∃ isa psv nsv phi plcp lcp, inversePermutation 2147483647 sa = .ok isa ∧
      computePsv sa = .ok psv ∧ computeNsv sa = .ok nsv ∧ computePhi sa = .ok phi ∧
      computePlcp t phi = .ok plcp ∧ computeLcp plcp sa = .ok lcp ∧
      LzArrays t sa isa lcp nsv psv := by
  have h0 : 0 < t.length := List.length_pos_iff.2 ht
  have hlen := hs.length
  obtain ⟨isa, h1, h2⟩ := inversePermutation_ok (tmax := 2147483647) hs.perm (by omega)
  obtain ⟨psv, h3, -, h4⟩ := computePsv_ok (arr := sa) (by omega) (by omega)
  obtain ⟨nsv, h5, -, h6⟩ := computeNsv_ok (arr := sa) (by omega) (by omega)
  obtain ⟨phi, plcp, lcp, g1, g2, g3, g4, g5, g6, g7, g8, g9⟩ := lcpChain hs h0 (by omega)
  exact ⟨isa, psv, nsv, phi, plcp, lcp, h1, h3, h5, g1, g3, g6,
    ⟨hs, h2, ⟨by omega, fun i h hi => g8 i h hi⟩, h4, h6⟩⟩

/-- The whole `count_z` computation. -/
theorem countZ_ok {sufsort : List UInt8 → List Nat} (hsort : SortsSuffixes sufsort) {t : List UInt8}
    (ht : t ≠ []) (hn : t.length < 2147483648) :
    ∃ fs, countZFactors sufsort t = .ok fs ∧ GreedyLz t 0 fs ∧ decodeLz77 fs = .ok t := by
  obtain ⟨isa, psv, nsv, phi, plcp, lcp, h1, h2, h3, h4, h5, h6, A⟩ :=
    lzArrays_build ht hn.le (hsort t hn)
  obtain ⟨fs, h7, h8⟩ := computeLz77_ok A (by omega)
  have h9 : decodeLz77 fs = .ok t := decode_greedy fs 0 (by omega) h8
  refine ⟨fs, ?_, h8, h9⟩
  simp only [countZFactors]
  rw [h1, ok_bind, h2, ok_bind, h3, ok_bind, h4, ok_bind, h5, ok_bind, h6, ok_bind, h7, ok_bind, h9,
    ok_bind]
  simp [assertR, pure_ok]

/-! ### Minimality -/

theorem greedy_minimal {t : List UInt8} (ls : List Nat) (fs : List LZFactor) (p i : Nat) (hpi : p ≤ i)
    (hp : IsParse t p ls) (hg : GreedyLz t i fs) : fs.length ≤ ls.length := by
  induction ls generalizing fs p i with
  | nil =>
    simp only [IsParse] at hp
    cases fs with
    | nil => simp
    | cons f fs =>
      exfalso
      rcases hg with ⟨c, h1, -⟩ | ⟨h1, ⟨j, h2, h3, h4⟩, -⟩
      · obtain ⟨hlt, -⟩ := List.getElem?_eq_some_iff.1 h1; omega
      · have := h4.2.1; omega
  | cons l ls ih =>
    obtain ⟨hl1, hl2, hl3⟩ := hp
    cases fs with
    | nil => simp
    | cons f fs =>
      simp only [List.length_cons]
      -- a copy reaching past `i` is an earlier occurrence at `i`
      have hshift : ∀ j, j < p → Occ t j p l → i < p + l → Occ t (j + (i - p)) i (p + l - i) := by
        rintro j hj ⟨o1, o2, o3⟩ hlt
        refine ⟨by omega, by omega, ?_⟩
        intro k hk
        have := o3 (i - p + k) (by omega)
        rw [← Nat.add_assoc, ← Nat.add_assoc, show p + (i - p) + k = i + k by omega] at this
        exact this
      rcases hg with ⟨c, h1, -, h3, h4⟩ | ⟨h1, ⟨j, h2, h3, h4⟩, h5, h6⟩
      · have : p + l ≤ i + 1 := by
          by_contra hc
          rcases hl2 with rfl | ⟨j, hj, ho⟩
          · omega
          · have ho' := hshift j hj ho (by omega)
            have := ho'.2.2 0 (by omega)
            rw [Nat.add_zero, Nat.add_zero, h1] at this
            exact h3 (j + (i - p)) (by omega) this
        have := ih fs (p + l) (i + 1) this hl3 h4
        omega
      · have : p + l ≤ i + f.len := by
          by_contra hc
          rcases hl2 with rfl | ⟨j, hj, ho⟩
          · omega
          · have ho' := hshift j hj ho (by omega)
            have := h5 _ _ (by omega) ho'
            omega
        have := ih fs (p + l) (i + f.len) this hl3 h6
        omega

/-- The greedy parse is itself a parse. -/
theorem greedy_isParse {t : List UInt8} (fs : List LZFactor) (i : Nat) (hg : GreedyLz t i fs) :
    IsParse t i (fs.map factorLength) := by
  induction fs generalizing i with
  | nil => exact hg
  | cons f fs ih =>
    rw [List.map_cons]
    rcases hg with ⟨c, h1, rfl, -, h4⟩ | ⟨h1, ⟨j, h2, h3, h4⟩, h5, h6⟩
    · obtain ⟨hlt, -⟩ := List.getElem?_eq_some_iff.1 h1
      exact ⟨by simp [factorLength]; omega, Or.inl (by simp [factorLength]), ih _ h4⟩
    · have e : factorLength f = f.len := by rw [factorLength, if_neg (by omega)]
      rw [IsParse, e]
      exact ⟨h4.2.1, Or.inr ⟨j, h2, h4⟩, ih _ h6⟩

end Verif
