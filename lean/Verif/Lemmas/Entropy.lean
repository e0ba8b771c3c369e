import Mathlib.Algebra.BigOperators.Intervals
import Verif.Spec.Entropy
import Verif.Model.Entropy
import Verif.Lemmas.Attractor

/-! # Entropy of order zero and `k` -/

namespace Verif

open Spec Model

theorem charCounters_ok (s : List UInt8) :
    charCounters s = .ok ((List.range 256).map (fun i => s.count (UInt8.ofNat i)), s.length) := by
  simp only [charCounters]
  obtain ⟨⟨cs, t⟩, h1, h2, h3, h4⟩ := forEach_inv
    (fun pre (st : List Nat × Nat) => st.1.length = 256 ∧
      (∀ i, i < 256 → st.1[i]? = some (pre.count (UInt8.ofNat i))) ∧ st.2 = pre.length)
    (l := s) (s := (List.replicate 256 0, 0))
    (body := fun c (s : List Nat × Nat) => do
      let v ← rd s.1 c.toNat
      let cs ← wr s.1 c.toNat (v + 1)
      pure (cs, s.2 + 1))
    ⟨List.length_replicate, fun i hi => by
      dsimp only; rw [List.getElem?_replicate, if_pos hi]; rfl, rfl⟩ (by
      rintro pre c post ⟨cs, t⟩ - ⟨g1, g2, g3⟩
      dsimp only at g1 g2 g3 ⊢
      have hc : c.toNat < 256 := c.toNat_lt
      rw [rd_some (g2 _ hc), ok_bind, wr_ok (by omega), ok_bind]
      refine ⟨_, rfl, by simpa using g1, fun i hi => ?_, by simp [g3]⟩
      dsimp only
      by_cases h : c.toNat = i
      · subst h
        simp [g1, hc]
      · have hne : UInt8.ofNat i ≠ c := by
          rintro rfl
          apply h
          simp [Nat.mod_eq_of_lt hi]
        rw [List.getElem?_set_ne h, g2 i hi, List.count_append, List.count_singleton]
        simp [Ne.symm hne])
  rw [h1]
  dsimp only at h2 h3 h4
  rw [h4]
  congr 2
  apply List.ext_getElem?
  intro i
  by_cases hi : i < 256
  · rw [h3 i hi]; simp [hi]
  · rw [List.getElem?_eq_none (by omega), List.getElem?_eq_none (by simp; omega)]

theorem forEach_sum {α : Type} (l : List α) (g : α → ℝ) (a : ℝ) :
    forEach l a (fun x s => pure (s + g x)) = .ok (a + (l.map g).sum) := by
  induction l generalizing a with
  | nil => simp [forEach_nil]
  | cons x l ih => rw [forEach_cons, pure_bind', ih, List.map_cons, List.sum_cons]; congr 1; ring

theorem zeroOrderEntropy_ok (s : List UInt8) : zeroOrderEntropy s = .ok (zeroOrder s) := by
  simp only [zeroOrderEntropy]
  rw [charCounters_ok, ok_bind]
  dsimp only
  have e : (fun (count : Nat) (sum : ℝ) => if count > 0 then
      (pure (sum + (count : ℝ) * Real.logb 2 ((s.length : ℝ) / count)) : Res ℝ) else pure sum) =
      fun (count : Nat) (sum : ℝ) =>
        (pure (sum + (count : ℝ) * Real.logb 2 ((s.length : ℝ) / count)) : Res ℝ) := by
    funext c x
    rcases Nat.eq_zero_or_pos c with rfl | h
    · simp
    · rw [if_pos h]
  rw [e, forEach_sum, ok_bind, pure_ok]
  congr 1
  rw [List.map_map, zero_add, zeroOrder]
  have hsum : ((List.range 256).map ((fun (count : Nat) => (count : ℝ) * Real.logb 2 ((s.length : ℝ) / count)) ∘
      fun i => s.count (UInt8.ofNat i))).sum =
      ∑ i ∈ Finset.range 256, (s.count (UInt8.ofNat i) : ℝ) * Real.logb 2 ((s.length : ℝ) / s.count (UInt8.ofNat i)) := by
    rw [← List.sum_toFinset _ List.nodup_range, List.toFinset_range]; rfl
  rw [hsum]
  have himg : ∑ c ∈ s.toFinset, (s.count c : ℝ) * Real.logb 2 ((s.length : ℝ) / s.count c) =
      ∑ i ∈ s.toFinset.image UInt8.toNat,
        (s.count (UInt8.ofNat i) : ℝ) * Real.logb 2 ((s.length : ℝ) / s.count (UInt8.ofNat i)) := by
    rw [Finset.sum_image (fun a _ b _ h => UInt8.toNat.inj h)]
    apply Finset.sum_congr rfl
    intro c _
    simp
  have hsub : ∑ i ∈ s.toFinset.image UInt8.toNat,
        (s.count (UInt8.ofNat i) : ℝ) * Real.logb 2 ((s.length : ℝ) / s.count (UInt8.ofNat i)) =
      ∑ i ∈ Finset.range 256,
        (s.count (UInt8.ofNat i) : ℝ) * Real.logb 2 ((s.length : ℝ) / s.count (UInt8.ofNat i)) := by
    apply Finset.sum_subset
    · intro i hi
      obtain ⟨c, -, rfl⟩ := Finset.mem_image.1 hi
      exact Finset.mem_range.2 c.toNat_lt
    · intro i hi hni
      have : s.count (UInt8.ofNat i) = 0 := by
        rw [List.count_eq_zero]
        intro hmem
        apply hni
        rw [Finset.mem_image]
        exact ⟨_, List.mem_toFinset.2 hmem, by simp [Nat.mod_eq_of_lt (Finset.mem_range.1 hi)]⟩
      rw [this]; simp
  rw [← hsub, ← himg, Finset.sum_div]
  apply Finset.sum_congr rfl
  intro c _
  ring

theorem zeroOrder_perm {s t : List UInt8} (h : s.Perm t) : zeroOrder s = zeroOrder t := by
  simp only [zeroOrder]
  rw [List.toFinset_eq_of_perm _ _ h, h.length_eq]
  apply Finset.sum_congr rfl
  intro c _
  rw [h.count_eq]

theorem zeroOrder_short {s : List UInt8} (h : s.length ≤ 1) : zeroOrder s = 0 := by
  match s, h with
  | [], _ => simp [zeroOrder]
  | [c], _ => simp [zeroOrder]

/-- the value of a context -/
noncomputable def ctxVal (S w : List UInt8) : ℝ := ((followers S w).length : ℝ) * zeroOrder (followers S w)

theorem mem_followedAt {S w : List UInt8} {i : Nat} :
    i ∈ followedAt S w ↔ i + w.length < S.length ∧ (S.drop i).take w.length = w := by
  simp only [followedAt, List.mem_filter, List.mem_range, decide_eq_true_eq]
  constructor
  · rintro ⟨h1, h2⟩; exact ⟨by omega, h2⟩
  · rintro ⟨h1, h2⟩; exact ⟨by omega, h2⟩

theorem nodup_followedAt (S w : List UInt8) : (followedAt S w).Nodup :=
  (List.nodup_range).filter _


section blocks
variable {S : List UInt8} {sa lcp : List Nat} {k : Nat}

/-- the first `k` letters of the suffix of rank `r` -/
def keyAt (S : List UInt8) (sa : List Nat) (k r : Nat) : List UInt8 := (S.drop (sa.getD r 0)).take k

open Classical in
/-- what rank `r` contributes: the value of its context, if it is the first rank of that context -/
noncomputable def firstVal (S : List UInt8) (sa : List Nat) (k r : Nat) : ℝ :=
  if (r = 0 ∨ lcR S sa (r - 1) r < k) ∧ sa.getD r 0 + k < S.length then ctxVal S (keyAt S sa k r) else 0

theorem TreeCtx.followed (A : TreeCtx S sa lcp) (_hk : 0 < k) {r q : Nat} (hr : r < S.length)
    (hq : q < S.length) (hne : r ≠ q) (h : k ≤ lcR S sa r q) : sa.getD q 0 + k < S.length := by
  have h1 := A.C.ne r q hr hq hne
  have h2 := A.hsa q hq
  simp only [sdR] at h1
  omega

theorem keyAt_eq {r q : Nat} (h : k ≤ lcR S sa r q) : keyAt S sa k r = keyAt S sa k q :=
  (le_lcpLen.1 h).2.2

theorem keyAt_len {r : Nat} (h : sa.getD r 0 + k < S.length) : (keyAt S sa k r).length = k := by
  simp only [keyAt, List.length_take, List.length_drop]; omega

theorem le_lcR_of_key {r q : Nat} (h1 : sa.getD r 0 + k < S.length) (h2 : sa.getD q 0 + k < S.length)
    (h : keyAt S sa k r = keyAt S sa k q) : k ≤ lcR S sa r q :=
  le_lcpLen.2 ⟨by rw [List.length_drop]; omega, by rw [List.length_drop]; omega, h⟩

/-- ranks `b..=e` form a maximal block with common prefixes of length `k` -/
structure IsBlock (S : List UInt8) (sa : List Nat) (k b e : Nat) : Prop where
  le : b ≤ e
  lt : e < S.length
  first : b = 0 ∨ lcR S sa (b - 1) b < k
  last : e + 1 = S.length ∨ lcR S sa e (e + 1) < k
  mid : ∀ r, b < r → r ≤ e → k ≤ lcR S sa (r - 1) r

theorem IsBlock.mem (A : TreeCtx S sa lcp) {b e : Nat} (B : IsBlock S sa k b e)
    (hb : sa.getD b 0 + k < S.length) {r : Nat} (hr : r < S.length) :
    k ≤ lcR S sa b r ↔ b ≤ r ∧ r ≤ e := by
  have hle := B.le
  have hlt := B.lt
  constructor
  · intro h
    constructor
    · by_contra hlt'
      rcases B.first with h0 | h0
      · omega
      · have := A.C.between r (b - 1) b (by omega) (by omega) (by omega)
        rw [A.C.symm b r, this] at h
        omega
    · by_contra hgt
      rcases B.last with h0 | h0
      · omega
      · have h1 := A.C.between b e r (by omega) (by omega) hr
        have h2 := A.C.between e (e + 1) r (by omega) (by omega) hr
        omega
  · rintro ⟨h1, h2⟩
    obtain ⟨d, rfl⟩ : ∃ d, r = b + d := ⟨r - b, by omega⟩
    clear h1
    induction d with
    | zero =>
      rw [Nat.add_zero, A.C.self b (by omega)]
      simp only [sdR]; omega
    | succ d ih =>
      have := ih (by omega) (by omega)
      refine A.C.trans _ (b + d) _ _ this ?_
      have := B.mid (b + (d + 1)) (by omega) h2
      simpa using this

theorem IsBlock.mem_followed (A : TreeCtx S sa lcp) (hs : IsSuffixArray S sa) (hk : 0 < k) {b e : Nat}
    (B : IsBlock S sa k b e) (hb : sa.getD b 0 + k < S.length) {p : Nat} :
    p ∈ followedAt S (keyAt S sa k b) ↔ p ∈ (sa.drop b).take (e - b + 1) := by
  have hle := B.le
  have hlt := B.lt
  have hsl := A.hsl
  rw [mem_followedAt, keyAt_len hb]
  constructor
  · rintro ⟨h1, h2⟩
    obtain ⟨r, hr, hre⟩ := hs.rank (show p < S.length by omega)
    have hrp : sa.getD r 0 = p := by rw [getD_of_lt hr, hre]
    have : k ≤ lcR S sa b r := le_lcR_of_key hb (by rw [hrp]; exact h1) (by
      rw [keyAt, keyAt, hrp, h2, keyAt])
    rw [B.mem A hb (by omega)] at this
    rw [List.mem_iff_getElem?]
    refine ⟨r - b, ?_⟩
    rw [List.getElem?_take, if_pos (by omega), List.getElem?_drop, show b + (r - b) = r by omega,
      List.getElem?_eq_getElem hr, hre]
  · rw [List.mem_iff_getElem?]
    rintro ⟨d, hd⟩
    rw [List.getElem?_take] at hd
    split at hd
    · rename_i hd'
      rw [List.getElem?_drop] at hd
      have hp : sa.getD (b + d) 0 = p := by rw [List.getD_eq_getElem?_getD, hd]; rfl
      have := (B.mem A hb (show b + d < S.length by omega)).2 ⟨by omega, by omega⟩
      have hkey := keyAt_eq this
      refine ⟨?_, ?_⟩
      · rcases Nat.eq_zero_or_pos d with rfl | hd0
        · rw [← hp]; exact hb
        · rw [← hp]; exact A.followed hk (by omega) (by omega) (by omega) this
      · rw [hkey, keyAt, hp]
    · simp at hd

theorem IsBlock.perm (A : TreeCtx S sa lcp) (hs : IsSuffixArray S sa) (hk : 0 < k) {b e : Nat}
    (B : IsBlock S sa k b e) (hb : sa.getD b 0 + k < S.length) :
    (followedAt S (keyAt S sa k b)).Perm ((sa.drop b).take (e - b + 1)) := by
  rw [List.perm_ext_iff_of_nodup (nodup_followedAt _ _)]
  · intro p; exact B.mem_followed A hs hk hb
  · exact ((List.take_sublist _ _).trans (List.drop_sublist _ _)).nodup (perm_range_nodup hs.1)

theorem IsBlock.firstVal_single (A : TreeCtx S sa lcp) (hs : IsSuffixArray S sa) (hk : 0 < k) {b : Nat}
    (B : IsBlock S sa k b b) : firstVal S sa k b = 0 := by
  unfold firstVal
  split
  · rename_i h
    have := (B.perm A hs hk h.2).length_eq
    have hl : (followers S (keyAt S sa k b)).length ≤ 1 := by
      rw [followers, List.length_map, this, List.length_take]; omega
    rw [ctxVal, zeroOrder_short hl, mul_zero]
  · rfl

theorem contextLetters_ok {b len : Nat}
    (h : ∀ p ∈ (sa.drop b).take len, p + k < S.length) :
    contextLetters S k sa b len = .ok (((sa.drop b).take len).map (fun p => S.getD (p + k) 0)) := by
  simp only [contextLetters]
  obtain ⟨v, h1, h2⟩ := forEach_inv
    (fun pre (v : List UInt8) => v = pre.map (fun p => S.getD (p + k) 0))
    (l := (sa.drop b).take len) (s := [])
    (body := fun p v => if p + k < S.length then do
      let c ← rd S (p + k)
      pure (v ++ [c]) else pure v) rfl (by
      intro pre x post s e hv
      have hx := h x (by rw [e]; simp)
      rw [if_pos hx, rd_ok hx, ok_bind]
      exact ⟨_, rfl, by rw [hv, List.map_append]; simp [hx]⟩)
  rw [h1, h2]

theorem IsBlock.computeContext (A : TreeCtx S sa lcp) (hs : IsSuffixArray S sa) (hk : 0 < k) {b e : Nat}
    (B : IsBlock S sa k b e) (hbe : b < e) :
    computeContext S k sa b (e - b + 1) = .ok (firstVal S sa k b) := by
  have hlt := B.lt
  have hb : sa.getD b 0 + k < S.length := by
    have := B.mid (b + 1) (by omega) (by omega)
    rw [Nat.add_sub_cancel, A.C.symm] at this
    exact A.followed hk (by omega) (by omega) (by omega) this
  have hperm := B.perm A hs hk hb
  have hlen := hperm.length_eq
  rw [List.length_take, List.length_drop, A.hsl] at hlen
  simp only [Model.computeContext]
  rw [contextLetters_ok, ok_bind, zeroOrderEntropy_ok, ok_bind, pure_ok]
  · congr 1
    rw [firstVal, if_pos ⟨B.first, hb⟩, ctxVal]
    congr 1
    · rw [followers, List.length_map, hlen]; congr 1; omega
    · rw [followers, keyAt_len hb]
      exact zeroOrder_perm (hperm.map _).symm
  · intro p hp
    have := (B.mem_followed A hs hk hb).2 hp
    rw [mem_followedAt, keyAt_len hb] at this
    exact this.1

theorem firstVal_mid {r : Nat} (h0 : 0 < r) (h : k ≤ lcR S sa (r - 1) r) : firstVal S sa k r = 0 := by
  unfold firstVal
  rw [if_neg]
  rintro ⟨h1 | h1, -⟩ <;> omega

theorem IsBlock.sum (B : IsBlock S sa k b e) :
    ∑ r ∈ Finset.range (e + 1), firstVal S sa k r =
      ∑ r ∈ Finset.range b, firstVal S sa k r + firstVal S sa k b := by
  have hle := B.le
  obtain ⟨d, rfl⟩ : ∃ d, e = b + d := ⟨e - b, by omega⟩
  have hm := B.mid
  clear B hle
  induction d with
  | zero => rw [Nat.add_zero, Finset.sum_range_succ]
  | succ d ih =>
    rw [Finset.sum_range_succ, show b + (d + 1) = b + d + 1 by omega,
      ih (fun r h1 h2 => hm r h1 (by omega)), firstVal_mid (by omega) (hm (b + d + 1) (by omega) (by omega)),
      add_zero]

theorem sum_firstVal (A : TreeCtx S sa lcp) (hs : IsSuffixArray S sa) (hk : 0 < k) :
    ∑ r ∈ Finset.range S.length, firstVal S sa k r = ∑ w ∈ contexts S k, ctxVal S w := by
  classical
  have hsl := A.hsl
  simp only [firstVal]
  rw [← Finset.sum_filter]
  have himg : contexts S k = ((Finset.range S.length).filter
      (fun r => (r = 0 ∨ lcR S sa (r - 1) r < k) ∧ sa.getD r 0 + k < S.length)).image
        (keyAt S sa k) := by
    ext w
    simp only [contexts, List.mem_toFinset, List.mem_map, List.mem_range, Finset.mem_image,
      Finset.mem_filter, Finset.mem_range]
    constructor
    · rintro ⟨i, hi, rfl⟩
      obtain ⟨r, hr, hre⟩ := hs.rank (show i < S.length by omega)
      have hrp : sa.getD r 0 = i := by rw [getD_of_lt hr, hre]
      have hf : sa.getD r 0 + k < S.length := by omega
      have hkey : keyAt S sa k r = (S.drop i).take k := by rw [keyAt, hrp]
      rw [← hkey]
      clear hkey hrp hre
      induction r with
      | zero => exact ⟨0, ⟨by omega, Or.inl rfl, hf⟩, rfl⟩
      | succ r ih =>
        by_cases hl : lcR S sa r (r + 1) < k
        · exact ⟨r + 1, ⟨by omega, Or.inr hl, hf⟩, rfl⟩
        · have hl' : k ≤ lcR S sa r (r + 1) := by omega
          obtain ⟨q, hq, hqe⟩ := ih (by omega)
            (A.followed (r := r + 1) hk (by omega) (by omega) (by omega) (by rw [A.C.symm]; exact hl'))
          exact ⟨q, hq, hqe.trans (keyAt_eq hl')⟩
    · rintro ⟨r, ⟨h1, h2, h3⟩, rfl⟩
      exact ⟨sa.getD r 0, by omega, rfl⟩
  rw [himg, Finset.sum_image]
  have key : ∀ r q, r < q → q < S.length → sa.getD r 0 + k < S.length →
      (q = 0 ∨ lcR S sa (q - 1) q < k) → sa.getD q 0 + k < S.length →
      keyAt S sa k r ≠ keyAt S sa k q := by
    intro r q hrq hq h1 h2 h3 he
    have := le_lcR_of_key h1 h3 he
    rcases h2 with h2 | h2
    · omega
    · rw [A.C.between r (q - 1) q (by omega) (by omega) hq] at this
      omega
  intro r hr q hq he
  simp only [Finset.coe_filter, Finset.mem_range, Set.mem_ofPred_eq] at hr hq
  rcases lt_trichotomy r q with h | h | h
  · exact absurd he (key r q h hq.1 hr.2.2 hq.2.1 hq.2.2)
  · exact h
  · exact absurd he.symm (key q r h hr.1 hq.2.2 hr.2.1 hr.2.2)

theorem kthLoop_ok (A : TreeCtx S sa lcp) (hs : IsSuffixArray S sa) (hk : 0 < k)
    (hll : lcp.length = S.length) (h0 : lcp[0]? = some 0) :
    ∃ sum cc, forRange 0 lcp.length ((0 : ℝ), 0) (kthStep S k sa lcp) = .ok (sum, cc) ∧
      cc < S.length ∧ IsBlock S sa k (S.length - 1 - cc) (S.length - 1) ∧
      sum = ∑ r ∈ Finset.range (S.length - 1 - cc), firstVal S sa k r := by
  have hpos := A.C.pos
  obtain ⟨⟨sum, cc⟩, h1, h2⟩ := forRange_inv
    (fun j (s : ℝ × Nat) => (j = 0 ∧ s = (0, 0)) ∨
      (0 < j ∧ s.2 < j ∧ (j - 1 - s.2 = 0 ∨ lcR S sa (j - 1 - s.2 - 1) (j - 1 - s.2) < k) ∧
        (∀ r, j - 1 - s.2 < r → r < j → k ≤ lcR S sa (r - 1) r) ∧
        s.1 = ∑ r ∈ Finset.range (j - 1 - s.2), firstVal S sa k r))
    (lo := 0) (hi := lcp.length) (s := ((0 : ℝ), 0)) (body := kthStep S k sa lcp)
    (Nat.zero_le _) (Or.inl ⟨rfl, rfl⟩) (by
      rintro j ⟨sum, cc⟩ - hj (⟨rfl, he⟩ | ⟨hj0, hcc, hb, hm, hsum⟩)
      · cases he
        simp only [kthStep]
        rw [rd_some h0, ok_bind, if_neg (by omega), if_neg (by omega)]
        refine ⟨_, rfl, Or.inr ?_⟩
        refine ⟨by omega, by simp, by simp, fun r _ _ => by omega, by simp⟩
      · dsimp only at hcc hb hm hsum
        simp only [kthStep]
        rw [rd_some (A.hlcp j hj0 (by omega)), ok_bind]
        by_cases hv : lcR S sa (j - 1) j < k
        · have B : IsBlock S sa k (j - 1 - cc) (j - 1) :=
            ⟨by omega, by omega, hb, Or.inr (by rw [Nat.sub_add_cancel hj0]; exact hv),
              fun r h1 h2 => hm r h1 (by omega)⟩
          have hS := B.sum
          rw [Nat.sub_add_cancel hj0] at hS
          by_cases hc : cc > 0
          · rw [if_pos ⟨hc, hv⟩]
            have hcomp := B.computeContext A hs hk (by omega)
            rw [show j - 1 - (j - 1 - cc) + 1 = cc + 1 by omega,
              show j - 1 - cc = j - cc - 1 by omega] at hcomp
            simp only [assertR]
            rw [if_pos (by simpa using hj0), ok_bind, usub_ok (by omega), ok_bind, usub_ok (by omega),
              ok_bind, hcomp, ok_bind]
            refine ⟨_, rfl, Or.inr ?_⟩
            refine ⟨by omega, by simp, Or.inr (by simpa using hv), fun r h1 h2 => ?_, ?_⟩
            · dsimp only at h1; omega
            · dsimp only
              rw [show j + 1 - 1 - 0 = j by omega, hS, hsum, show j - cc - 1 = j - 1 - cc by omega]
          · have hc0 : cc = 0 := by omega
            subst hc0
            rw [if_neg (by omega), if_neg (by omega)]
            refine ⟨_, rfl, Or.inr ?_⟩
            refine ⟨by omega, by simp, Or.inr (by simpa using hv), fun r h1 h2 => ?_, ?_⟩
            · dsimp only at h1; omega
            · dsimp only
              rw [show j + 1 - 1 - 0 = j by omega, hS]
              have B' : IsBlock S sa k (j - 1 - 0) (j - 1 - 0) := B
              rw [B'.firstVal_single A hs hk, add_zero, hsum]
        · rw [if_neg (by omega), if_pos (by omega)]
          refine ⟨_, rfl, Or.inr ?_⟩
          dsimp only
          rw [show j + 1 - 1 - (cc + 1) = j - 1 - cc by omega]
          refine ⟨by omega, by omega, hb, fun r h1 h2 => ?_, hsum⟩
          by_cases hr : r = j
          · subst hr; omega
          · exact hm r h1 (by omega))
  rcases h2 with ⟨h2, -⟩ | ⟨g0, g1, g2, g3, g4⟩
  · omega
  · dsimp only at g1 g2 g3 g4
    rw [hll] at g1 g2 g3 g4
    exact ⟨sum, cc, h1, g1, ⟨by omega, by omega, g2, Or.inl (by omega), fun r a b => g3 r a (by omega)⟩, g4⟩

end blocks

theorem kthOrderEntropy_ok {sufsort : List UInt8 → List Nat} (hsort : SortsSuffixes sufsort)
    {T : List UInt8} (h0 : T ≠ []) (hT : ∀ x ∈ T, x ≠ 0) (hlen : T.length < 2147483647) {k : Nat}
    (hk : 0 < k) : kthOrderEntropy sufsort (T ++ [0]) k = .ok (kthOrder (T ++ [0]) k) := by
  have hs := hsort (T ++ [0]) (by simp; omega)
  have hl1 : (T ++ [(0 : UInt8)]).length = T.length + 1 := by simp
  obtain ⟨phi, plcp, lcp, g1, g2, g3, g4, g5, g6, g7, g8, g9⟩ := lcpChain hs (by omega) (by omega)
  have hsl := hs.length
  have A := treeCtx_build hT hs ⟨by omega, fun i h hi => g8 i h hi⟩
  have hz : lcp[0]? = some 0 := by
    rw [g9 (by omega), (first_last_lcp hs (by omega)).2]
    rintro ⟨c, hc⟩
    obtain ⟨x, hx⟩ := List.exists_mem_of_ne_nil T h0
    have e1 := hc x (by simp [hx])
    have e2 := hc 0 (by simp)
    exact hT x hx (e1.trans e2.symm)
  obtain ⟨sum, cc, l1, l2, B, l4⟩ := kthLoop_ok A hs hk g7 hz
  simp only [kthOrderEntropy, assertR]
  rw [if_pos (by simpa using hk), ok_bind, usub_ok (by omega), ok_bind, if_pos, ok_bind, g1, ok_bind, g3,
    ok_bind, g6, ok_bind, l1, ok_bind]
  · dsimp only
    have hlast : lcp[lcp.length - 1]? = some (lcR (T ++ [0]) (sufsort (T ++ [0])) (lcp.length - 1 - 1) (lcp.length - 1)) :=
      A.hlcp _ (by have := List.length_pos_iff.2 h0; omega) (by omega)
    rw [usub_ok (by omega), ok_bind, rd_some hlast, ok_bind,
      show kthOrder (T ++ [0]) k = (∑ w ∈ contexts (T ++ [0]) k, ctxVal (T ++ [0]) w) / (T ++ [(0 : UInt8)]).length
        from rfl, ← sum_firstVal A hs hk]
    have hS := B.sum
    rw [show (T ++ [(0 : UInt8)]).length - 1 + 1 = (T ++ [(0 : UInt8)]).length by omega] at hS
    rw [hS]
    by_cases hc : 0 < cc
    · have hv := B.mid ((T ++ [(0 : UInt8)]).length - 1) (by omega) (le_refl _)
      rw [if_pos ⟨by rw [g7]; exact hv, hc⟩, usub_ok (by omega), ok_bind, usub_ok (by omega), ok_bind]
      have hcomp := B.computeContext A hs hk (by omega)
      rw [show (T ++ [(0 : UInt8)]).length - 1 - ((T ++ [(0 : UInt8)]).length - 1 - cc) + 1 = cc + 1 by omega] at hcomp
      rw [show lcp.length - cc - 1 = (T ++ [(0 : UInt8)]).length - 1 - cc by omega, hcomp, ok_bind,
        pure_bind', pure_ok, l4]
    · have hc0 : cc = 0 := by omega
      subst hc0
      rw [if_neg (by omega), pure_bind', pure_ok]
      have B' : IsBlock (T ++ [0]) (sufsort (T ++ [0])) k ((T ++ [(0 : UInt8)]).length - 1 - 0)
        ((T ++ [(0 : UInt8)]).length - 1 - 0) := B
      rw [B'.firstVal_single A hs hk, add_zero, l4]
  · rw [hl1, Nat.add_sub_cancel, List.take_left']
    · simp only [Bool.not_eq_true', List.any_eq_false, decide_eq_true_eq]
      exact hT
    · rfl

end Verif
