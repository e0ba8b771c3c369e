import Verif.Lemmas.Loops
import Verif.Props.Arrays
import Verif.Props.Borders
import Verif.Props.LyndonMore
import Verif.Props.Lyndon
import Verif.Props.Bwt
import Verif.Props.Bbwt

/-! # Property C96: the helper functions on arrays that are not what they expect

`C09`-`C11` speak about permutations and matching arrays.  Here every list of naturals is an input: the
functions return exactly under the stated condition, and the returned value is described completely. -/

namespace Verif

/-- Partial correctness of a `for` loop that did return: an invariant kept by every returning turn holds at
the end, and every turn did return. -/
theorem forRange_returned {σ : Type} (P : Nat → σ → Prop) {lo hi : Nat} {s r : σ} {body : Nat → σ → Res σ}
    (hle : lo ≤ hi) (h : forRange lo hi s body = .ok r) (h0 : P lo s)
    (hstep : ∀ i s s', lo ≤ i → i < hi → P i s → body i s = .ok s' → P (i + 1) s') :
    P hi r ∧ ∀ i, lo ≤ i → i < hi → ∃ s s', P i s ∧ body i s = .ok s' := by
  obtain ⟨d, rfl⟩ : ∃ d, hi = lo + d := ⟨hi - lo, by omega⟩
  clear hle
  induction d generalizing lo s with
  | zero =>
    rw [forRange_done (by omega)] at h
    injection h with h
    subst h
    exact ⟨by simpa using h0, by intros; omega⟩
  | succ d ih =>
    rw [forRange_step (by omega)] at h
    rcases hb : body lo s with e | s'
    · rw [hb] at h; cases h
    · rw [hb, ok_bind] at h
      have e : lo + (d + 1) = lo + 1 + d := by omega
      rw [e] at h
      obtain ⟨a, b⟩ := ih (lo := lo + 1) (hstep lo s s' (by omega) (by omega) h0 hb) h
        (fun i s s' h1 h2 => hstep i s s' (by omega) (by omega))
      refine ⟨by rw [e]; exact a, fun i h1 h2 => ?_⟩
      rcases Nat.eq_or_lt_of_le h1 with rfl | h1
      · exact ⟨s, s', h0, hb⟩
      · exact b i h1 (by omega)

theorem rd_eq_ok {α : Type} {l : List α} {i : Nat} {x : α} : rd l i = .ok x ↔ l[i]? = some x := by
  unfold rd; cases h : l[i]? <;> simp

theorem wr_eq_ok {α : Type} {l r : List α} {i : Nat} {x : α} :
    wr l i x = .ok r ↔ i < l.length ∧ r = l.set i x := by
  unfold wr
  split <;> rename_i h
  · simp [h, eq_comm]
  · simp [h]

end Verif

namespace Verif.Props

open Verif Spec Model

variable {α : Type}

/-- C96: `inverse_permutation` of an arbitrary array returns iff every entry is a valid index and every index
fits the element type; the cell of a value then holds the *last* index with that value, and 0 if the value
does not occur. -/
theorem C96_inverse_permutation (tmax : Nat) (arr : List Nat) :
    ((∃ inv, inversePermutation tmax arr = .ok inv) ↔
      (∀ x : Nat, x ∈ arr → x < arr.length) ∧ arr.length ≤ tmax + 1) ∧
    ∀ inv, inversePermutation tmax arr = .ok inv → inv.length = arr.length ∧
      (∀ v i : Nat, arr[i]? = some v → (∀ j, i < j → arr[j]? ≠ some v) → inv[v]? = some i) ∧
      (∀ v : Nat, v < arr.length → v ∉ arr → inv[v]? = some 0) := by
  have back : ∀ inv, inversePermutation tmax arr = .ok inv →
      ((∀ x : Nat, x ∈ arr → x < arr.length) ∧ arr.length ≤ tmax + 1) ∧ inv.length = arr.length ∧
      (∀ v i : Nat, arr[i]? = some v → (∀ j, i < j → arr[j]? ≠ some v) → inv[v]? = some i) ∧
      (∀ v : Nat, v < arr.length → v ∉ arr → inv[v]? = some 0) := by
    intro inv h
    obtain ⟨⟨a1, a2, a3⟩, b⟩ := forRange_returned
      (fun k (inv : List Nat) => inv.length = arr.length ∧
        (∀ v i, i < k → arr[i]? = some v → (∀ j, i < j → j < k → arr[j]? ≠ some v) → inv[v]? = some i) ∧
        (∀ v : Nat, v < arr.length → (∀ j, j < k → arr[j]? ≠ some v) → inv[v]? = some 0))
      (Nat.zero_le _) h ⟨by simp, by intros; omega, by intro v hv _; simp [hv]⟩ (by
        intro k s s' _ hk ⟨e1, e2, e3⟩ hb
        rw [rd_ok hk, ok_bind] at hb
        split at hb
        swap
        · cases hb
        obtain ⟨w1, rfl⟩ := wr_eq_ok.1 hb
        refine ⟨by simpa using e1, ?_, ?_⟩
        · intro v i hi hv hl
          by_cases hvk : arr[k] = v
          · have : i = k := by
              by_contra hne
              exact hl k (by omega) (by omega) (by rw [List.getElem?_eq_getElem hk, hvk])
            subst this
            rw [hvk] at w1 ⊢
            simp [w1]
          · rw [List.getElem?_set_ne hvk]
            refine e2 v i ?_ hv (fun j h1 h2 => hl j h1 (by omega))
            rcases Nat.lt_succ_iff_lt_or_eq.1 hi with h | h
            · exact h
            · subst h; rw [List.getElem?_eq_getElem hk] at hv; injection hv with hv; exact absurd hv hvk
        · intro v hv hl
          have hvk : arr[k] ≠ v := fun e => hl k (by omega) (by rw [List.getElem?_eq_getElem hk, e])
          rw [List.getElem?_set_ne hvk]
          exact e3 v hv (fun j hj => hl j (by omega)))
    refine ⟨⟨?_, ?_⟩, a1, fun v i hv hl => a2 v i (List.getElem?_eq_some_iff.1 hv).1 hv
      (fun j h1 _ => hl j h1), fun v hv hn => a3 v hv (fun j _ hj => hn (List.mem_of_getElem? hj))⟩
    · intro x hx
      obtain ⟨i, hi, rfl⟩ := List.getElem_of_mem hx
      obtain ⟨s, s', ⟨e1, -⟩, hb⟩ := b i (by omega) hi
      rw [rd_ok hi, ok_bind] at hb
      split at hb
      · obtain ⟨w1, -⟩ := wr_eq_ok.1 hb
        omega
      · cases hb
    · by_contra hlt
      obtain ⟨s, s', -, hb⟩ := b (tmax + 1) (by omega) (by omega)
      rw [rd_ok (by omega), ok_bind, if_neg (by omega)] at hb
      cases hb
  refine ⟨⟨fun ⟨inv, h⟩ => (back inv h).1, fun ⟨h1, h2⟩ => ?_⟩, fun inv h => (back inv h).2⟩
  obtain ⟨s, e, -⟩ := forRange_inv (fun _ (s : List Nat) => s.length = arr.length) (lo := 0) (hi := arr.length)
    (s := List.replicate arr.length 0)
    (body := fun i inv => do
      let p ← rd arr i
      if i ≤ tmax then wr inv p i else .error .unwrap)
    (Nat.zero_le _) (by simp) (by
      intro i s _ hi hs
      have := h1 _ (List.getElem_mem hi)
      exact ⟨s.set arr[i] i, by rw [rd_ok hi, ok_bind, if_pos (by omega), wr_ok (by omega)], by simpa using hs⟩)
  exact ⟨s, e⟩

/-- Concrete cases: a repeated value keeps its last index, a missing one reads 0, an out-of-range entry and an
index that does not fit panic. -/
example : inversePermutation 127 [2, 0, 2] = .ok [1, 0, 2] ∧ inversePermutation 127 [3, 0, 2] = .error .index ∧
    inversePermutation 1 [2, 0, 1] = .error .unwrap := by decide

/-- C96: `compute_phi` of an arbitrary array returns iff it is non-empty and every entry is a valid index; the
cell of the first entry then holds the last entry; the cell of another value holds the entry before the last
occurrence of that value, and 0 if it does not occur. -/
theorem C96_compute_phi (sa : List Nat) :
    ((∃ phi, computePhi sa = .ok phi) ↔ sa ≠ [] ∧ ∀ x ∈ sa, x < sa.length) ∧
    ∀ phi, computePhi sa = .ok phi → phi.length = sa.length ∧
      (∀ x y, sa[0]? = some x → sa[sa.length - 1]? = some y → phi[x]? = some y) ∧
      (∀ v i y, sa[0]? ≠ some v → sa[i + 1]? = some v → (∀ j, i + 1 < j → sa[j]? ≠ some v) →
        sa[i]? = some y → phi[v]? = some y) ∧
      (∀ v, v < sa.length → v ∉ sa → phi[v]? = some 0) := by
  have back : ∀ phi, computePhi sa = .ok phi → (sa ≠ [] ∧ ∀ x ∈ sa, x < sa.length) ∧
      phi.length = sa.length ∧
      (∀ x y, sa[0]? = some x → sa[sa.length - 1]? = some y → phi[x]? = some y) ∧
      (∀ v i y, sa[0]? ≠ some v → sa[i + 1]? = some v → (∀ j, i + 1 < j → sa[j]? ≠ some v) →
        sa[i]? = some y → phi[v]? = some y) ∧
      (∀ v, v < sa.length → v ∉ sa → phi[v]? = some 0) := by
    intro phi h
    have h0 : 0 < sa.length := by
      rcases Nat.eq_zero_or_pos sa.length with h0 | h0
      · rw [List.eq_nil_of_length_eq_zero h0, C09_compute_phi_empty] at h; cases h
      · exact h0
    simp only [computePhi, assertR, gt_iff_lt, h0, decide_true, if_true, ok_bind] at h
    rcases hf : forRange 1 sa.length (List.replicate sa.length 0) (fun i phi => do
        let p ← rd sa i
        let i1 ← usub i 1
        let q ← rd sa i1
        wr phi p q) with e | mid
    · rw [hf] at h; cases h
    rw [hf, ok_bind, rd_ok h0, ok_bind, usub_ok (by omega), ok_bind, rd_ok (by omega), ok_bind] at h
    obtain ⟨w1, rfl⟩ := wr_eq_ok.1 h
    obtain ⟨⟨a1, a2, a3⟩, b⟩ := forRange_returned
      (fun k (phi : List Nat) => phi.length = sa.length ∧
        (∀ v i y, i + 1 < k → sa[i + 1]? = some v → (∀ j, i + 1 < j → j < k → sa[j]? ≠ some v) →
          sa[i]? = some y → phi[v]? = some y) ∧
        (∀ v, v < sa.length → (∀ j, 0 < j → j < k → sa[j]? ≠ some v) → phi[v]? = some 0))
      (by omega) hf ⟨by simp, by intros; omega, by intro v hv _; simp [hv]⟩ (by
        intro k s s' hk1 hk ⟨e1, e2, e3⟩ hb
        rw [rd_ok hk, ok_bind, usub_ok hk1, ok_bind, rd_ok (by omega), ok_bind] at hb
        obtain ⟨w1, rfl⟩ := wr_eq_ok.1 hb
        refine ⟨by simpa using e1, ?_, ?_⟩
        · intro v i y hi hv hl hy
          by_cases hvk : sa[k] = v
          · have : k = i + 1 := by
              by_contra hne
              exact hl k (by omega) (by omega) (by rw [List.getElem?_eq_getElem hk, hvk])
            subst this
            obtain ⟨_, rfl⟩ := List.getElem?_eq_some_iff.1 hy
            subst hvk
            simp [w1]
          · rw [List.getElem?_set_ne hvk]
            refine e2 v i y ?_ hv (fun j h1 h2 => hl j h1 (by omega)) hy
            rcases Nat.lt_succ_iff_lt_or_eq.1 hi with h | h
            · exact h
            · subst h; rw [List.getElem?_eq_getElem hk] at hv; injection hv with hv; exact absurd hv hvk
        · intro v hv hl
          have hvk : sa[k] ≠ v := fun e => hl k (by omega) (by omega) (by rw [List.getElem?_eq_getElem hk, e])
          rw [List.getElem?_set_ne hvk]
          exact e3 v hv (fun j h1 hj => hl j h1 (by omega)))
    refine ⟨⟨List.length_pos_iff.1 h0, ?_⟩, by simpa using a1, ?_, ?_, ?_⟩
    · intro x hx
      obtain ⟨i, hi, rfl⟩ := List.getElem_of_mem hx
      rcases Nat.eq_zero_or_pos i with rfl | hpos
      · omega
      · obtain ⟨s, s', ⟨e1, -⟩, hb⟩ := b i (by omega) hi
        rw [rd_ok hi, ok_bind, usub_ok hpos, ok_bind, rd_ok (by omega), ok_bind] at hb
        obtain ⟨w1, -⟩ := wr_eq_ok.1 hb
        omega
    · intro x y hx hy
      obtain ⟨_, rfl⟩ := List.getElem?_eq_some_iff.1 hx
      obtain ⟨_, rfl⟩ := List.getElem?_eq_some_iff.1 hy
      simp [w1]
    · intro v i y h00 hv hl hy
      rw [List.getElem?_set_ne (by
        rintro rfl; exact h00 (List.getElem?_eq_getElem h0))]
      exact a2 v i y (List.getElem?_eq_some_iff.1 hv).1 hv (fun j h1 _ => hl j h1) hy
    · intro v hv hn
      rw [List.getElem?_set_ne (by rintro rfl; exact hn (List.getElem_mem h0))]
      exact a3 v hv (fun j _ _ hj => hn (List.mem_of_getElem? hj))
  refine ⟨⟨fun ⟨phi, h⟩ => (back phi h).1, fun ⟨h1, h2⟩ => ?_⟩, fun phi h => (back phi h).2⟩
  have h0 : 0 < sa.length := List.length_pos_iff.2 h1
  obtain ⟨s, e, hs⟩ := forRange_inv (fun _ (s : List Nat) => s.length = sa.length) (lo := 1) (hi := sa.length)
    (s := List.replicate sa.length 0)
    (body := fun i phi => do
        let p ← rd sa i
        let i1 ← usub i 1
        let q ← rd sa i1
        wr phi p q)
    h0 (by simp) (by
      intro i s hi1 hi hs
      have := h2 _ (List.getElem_mem hi)
      exact ⟨s.set sa[i] sa[i - 1], by
        rw [rd_ok hi, ok_bind, usub_ok hi1, ok_bind, rd_ok (by omega), ok_bind, wr_ok (by omega)], by simpa using hs⟩)
  simp only [computePhi, assertR, gt_iff_lt, h0, decide_true, if_true, ok_bind]
  rw [e, ok_bind, rd_ok h0, ok_bind, usub_ok (by omega), ok_bind, rd_ok (by omega), ok_bind,
    wr_ok (by rw [hs]; exact h2 _ (List.getElem_mem h0))]
  exact ⟨_, rfl⟩

example : computePhi [1, 0, 1, 3] = .ok [1, 3, 0, 1] ∧ computePhi [1, 4, 0, 2] = .error .index := by decide

/-- C96: `compute_lcp` of arbitrary arrays returns iff the lengths agree and every entry of the suffix array
is a valid index; the result is the gathered array. -/
theorem C96_compute_lcp (plcp sa : List Nat) :
    ((∃ lcp, computeLcp plcp sa = .ok lcp) ↔ plcp.length = sa.length ∧ ∀ x ∈ sa, x < sa.length) ∧
    ∀ lcp, computeLcp plcp sa = .ok lcp → lcp.map some = sa.map (fun x => plcp[x]?) := by
  by_cases hl : plcp.length = sa.length
  swap
  · have : computeLcp plcp sa = .error .assert := by simp [computeLcp, assertR, hl]
    rw [this]
    exact ⟨⟨fun ⟨_, h⟩ => (by cases h), fun h => absurd h.1 hl⟩, fun _ h => by cases h⟩
  by_cases hx : ∀ x ∈ sa, x < sa.length
  · have e : computeLcp plcp sa = .ok ((List.range plcp.length).map (fun i => plcp.getD (sa.getD i 0) 0)) := by
      simp only [computeLcp, assertR, hl, decide_true, if_true, ok_bind]
      rw [← hl]
      refine forRange_fill (by simp) (fun i w hi hw => ?_)
      have h1 : i < sa.length := by omega
      have h2 := hx _ (List.getElem_mem h1)
      have h3 : sa[i] < plcp.length := by omega
      rw [rd_ok h1, ok_bind, rd_ok h3, ok_bind]
      simp [List.getD_eq_getElem?_getD, h1, h3]
    refine ⟨⟨fun _ => ⟨hl, hx⟩, fun _ => ⟨_, e⟩⟩, fun lcp h => ?_⟩
    rw [e] at h
    injection h with h
    subst h
    apply List.ext_getElem
    · simp [hl]
    · intro i h1 h2
      have h1' : i < sa.length := by simpa using h2
      have h2 := hx _ (List.getElem_mem h1')
      have h3 : sa[i] < plcp.length := by omega
      simp [List.getD_eq_getElem?_getD, h1', h3]
  · have back : ¬ ∃ lcp, computeLcp plcp sa = .ok lcp := by
      rintro ⟨lcp, h⟩
      apply hx
      intro x hm
      simp only [computeLcp, assertR, hl, decide_true, if_true, ok_bind] at h
      obtain ⟨-, b⟩ := forRange_returned (fun _ _ => True) (Nat.zero_le _) h trivial (fun _ _ _ _ _ _ _ => trivial)
      obtain ⟨i, hi, rfl⟩ := List.getElem_of_mem hm
      obtain ⟨s, s', -, hb⟩ := b i (by omega) hi
      rw [rd_ok hi, ok_bind] at hb
      by_contra hc
      rw [rd_err (by omega)] at hb
      cases hb
    exact ⟨⟨fun h => absurd h back, fun h => absurd h.2 hx⟩, fun lcp h => absurd ⟨lcp, h⟩ back⟩

example : computeLcp [7, 8, 9] [2, 2, 0] = .ok [9, 9, 7] ∧ computeLcp [7, 8] [2, 0] = .error .index ∧
    computeLcp [7, 8] [0] = .error .assert := by decide

/-- C96: `compute_plcp` returns for *every* array `phi` of the text's length (its entries are only compared
after bounds checks), with values that never reach past the end of the text, and panics iff the lengths
differ. -/
theorem C96_compute_plcp [DecidableEq α] (text : List α) (phi : List Nat) :
    ((∃ plcp, computePlcp text phi = .ok plcp) ↔ text.length = phi.length) ∧
    ∀ plcp, computePlcp text phi = .ok plcp → plcp.length = text.length ∧
      ∀ b v, plcp[b]? = some v → b + v ≤ text.length := by
  by_cases hl : text.length = phi.length
  swap
  · have : computePlcp text phi = .error .assert := by simp [computePlcp, assertR, hl]
    rw [this]
    exact ⟨⟨fun ⟨_, h⟩ => (by cases h), fun h => absurd h hl⟩, fun _ h => by cases h⟩
  have main : ∃ plcp, computePlcp text phi = .ok plcp ∧ plcp.length = text.length ∧
      ∀ b v, plcp[b]? = some v → b + v ≤ text.length := by
    simp only [computePlcp, assertR, hl, decide_true, if_true, ok_bind]
    obtain ⟨⟨p, len⟩, e, h1, h2, h3⟩ := forRange_inv
      (fun k (s : List Nat × Nat) => s.1.length = text.length ∧ (k ≤ text.length → k + s.2 ≤ text.length) ∧
        ∀ b v, s.1[b]? = some v → b + v ≤ text.length)
      (lo := 0) (hi := phi.length) (s := (List.replicate phi.length 0, 0))
      (body := fun b (s : List Nat × Nat) => do
        let (plcp, length) := s
        let a ← rd phi b
        let length ← whileLoop (phi.length + 1) (plcpCond text a b) (fun l => pure (l + 1)) length
        let plcp ← wr plcp b (asU32 length)
        pure (plcp, length - 1))
      (Nat.zero_le _) ⟨by simp [hl], by simp, by
        intro b v h
        simp only [List.getElem?_replicate] at h
        split at h
        · injection h with h; omega
        · cases h⟩ (by
        rintro i ⟨p, len⟩ _ hi ⟨e1, e2, e3⟩
        simp only at e1 e2 e3
        obtain ⟨l, w1, w2, -⟩ := whileLoop_inv (fun l => i + l ≤ text.length) (fun l => text.length - (i + l))
          (fuel := phi.length + 1) (cond := plcpCond text (phi[i]) i) (body := fun l => pure (l + 1)) (s := len)
          (e2 (by omega)) (by omega) (by
            intro l hI
            unfold plcpCond
            split
            · rename_i hc
              rw [rd_ok hc.1, ok_bind, rd_ok hc.2, ok_bind]
              by_cases hxy : text[phi[i] + l]'hc.1 = text[i + l]'hc.2
              · right
                exact ⟨by rw [pure_ok]; simp [hxy], l + 1, rfl, by omega, by omega⟩
              · left
                rw [pure_ok]; simp [hxy]
            · exact Or.inl rfl)
        refine ⟨(p.set i (asU32 l), l - 1), ?_, by simpa using e1, by simp only; omega, ?_⟩
        · simp only
          rw [rd_ok hi, ok_bind, w1, ok_bind, wr_ok (by omega)]
          rfl
        · intro b v hb
          simp only [List.getElem?_set] at hb
          split at hb
          · rename_i hib
            subst hib
            split at hb
            · injection hb with hb
              subst hb
              have : asU32 l ≤ l := Nat.mod_le _ _
              omega
            · cases hb
          · exact e3 b v hb)
    exact ⟨p, by rw [e]; rfl, by rw [← hl]; exact h1, fun b v hb => by rw [← hl]; exact h3 b v hb⟩
  obtain ⟨p, h1, h2, h3⟩ := main
  refine ⟨⟨fun _ => hl, fun _ => ⟨p, h1⟩⟩, fun q hq => ?_⟩
  rw [h1] at hq
  injection hq with hq
  subst hq
  exact ⟨h2, h3⟩

example : computePlcp [1, 1, 1, 2] [100, 0, 0, 7] = .ok [0, 2, 1, 0] ∧
    computePlcp [1, 1, 1, 2] [0, 0, 0] = .error .assert := by decide

/-- C96: `bwt_from_sa` returns iff the text is non-empty and the array has at least as many entries as the
text has letters; its `i`-th letter is the one at cyclic position `sa[i] - 1`, whatever the entries are. -/
theorem C96_bwt_from_sa (text : List α) (sa : List Nat) :
    ((∃ bwt, bwtFromSa text sa = .ok bwt) ↔ text ≠ [] ∧ text.length ≤ sa.length) ∧
    ∀ bwt, bwtFromSa text sa = .ok bwt → bwt.length = text.length ∧
      ∀ i x, i < text.length → sa[i]? = some x →
        bwt[i]? = text[(text.length + x - 1) % text.length]? := by
  by_cases hne : text = []
  · subst hne
    have : bwtFromSa ([] : List α) sa = .error .index := rfl
    rw [this]
    exact ⟨⟨fun ⟨_, h⟩ => (by cases h), fun h => absurd rfl h.1⟩, fun _ h => by cases h⟩
  have h0 : 0 < text.length := List.length_pos_iff.2 hne
  by_cases hl : text.length ≤ sa.length
  · have e : bwtFromSa text sa = .ok ((List.range text.length).map
        (fun i => text[(text.length + sa.getD i 0 - 1) % text.length]'(Nat.mod_lt _ h0))) := by
      simp only [bwtFromSa]
      rw [rd_ok h0, ok_bind]
      refine forRange_fill (by simp) (fun i w hi hw => ?_)
      have h1 : i < sa.length := by omega
      rw [rd_ok h1, ok_bind, usub_ok (by omega), ok_bind, rd_ok (Nat.mod_lt _ h0), ok_bind]
      simp [List.getD_eq_getElem?_getD, h1]
    refine ⟨⟨fun _ => ⟨hne, hl⟩, fun _ => ⟨_, e⟩⟩, fun bwt h => ?_⟩
    rw [e] at h
    injection h with h
    subst h
    refine ⟨by simp, fun i x hi hx => ?_⟩
    rw [List.getElem?_eq_getElem (Nat.mod_lt _ h0)]
    simp [List.getD_eq_getElem?_getD, hx, hi]
  · have back : ¬ ∃ bwt, bwtFromSa text sa = .ok bwt := by
      rintro ⟨bwt, h⟩
      simp only [bwtFromSa] at h
      rw [rd_ok h0, ok_bind] at h
      obtain ⟨-, b⟩ := forRange_returned (fun _ _ => True) (Nat.zero_le _) h trivial (fun _ _ _ _ _ _ _ => trivial)
      obtain ⟨s, s', -, hb⟩ := b sa.length (by omega) (by omega)
      rw [rd_err (Nat.le_refl _)] at hb
      cases hb
    exact ⟨⟨fun h => absurd h back, fun h => absurd h.2 hl⟩, fun bwt h => absurd ⟨bwt, h⟩ back⟩

example : bwtFromSa [5, 6, 7] [0, 2, 100, 3] = .ok [7, 6, 5] ∧ bwtFromSa [5, 6, 7] [0, 1] = .error .index := by
  decide

/-- C96: `smallest_period` of an arbitrary array returns iff it is non-empty and its last entry is below its
length; the result is length − 1 − last entry. -/
theorem C96_smallest_period (border : List Nat) (p : Nat) :
    smallestPeriod border = .ok p ↔
      ∃ l, border[border.length - 1]? = some l ∧ l < border.length ∧ p = border.length - 1 - l := by
  rcases Nat.eq_zero_or_pos border.length with h0 | h0
  · rw [List.eq_nil_of_length_eq_zero h0]
    constructor
    · intro h; cases h
    · rintro ⟨l, h, -⟩; cases h
  · simp only [smallestPeriod]
    rw [usub_ok (show 1 ≤ border.length from h0), ok_bind, rd_ok (by omega), ok_bind,
      List.getElem?_eq_getElem (by omega)]
    unfold usub
    constructor
    · intro h
      split at h
      · injection h with h
        exact ⟨_, rfl, by omega, h.symm⟩
      · cases h
    · rintro ⟨l, h, h1, rfl⟩
      injection h with h
      rw [if_pos (by omega), h]

example : smallestPeriod [0, 0, 1, 2] = .ok 1 ∧ smallestPeriod [3, 4] = .error .arith ∧
    smallestPeriod [] = .error .arith := by decide

/-- C96: `isa_lyndon_factorization` of an arbitrary array returns iff it is non-empty; it then lists, in
increasing order, the positions before the strict prefix minima and the last position. -/
theorem C96_isa_factorization (isa : List Nat) :
    ((∃ ends, isaLyndonFactorization isa = .ok ends) ↔ isa ≠ []) ∧
    ∀ ends, isaLyndonFactorization isa = .ok ends → ends.Pairwise (· < ·) ∧
      ∀ e, e ∈ ends ↔ (e + 1 = isa.length ∨
        ∃ v, isa[e + 1]? = some v ∧ ∀ i w, i ≤ e → isa[i]? = some w → v < w) := by
  by_cases hne : isa = []
  · subst hne
    have : isaLyndonFactorization [] = .error .index := rfl
    rw [this]
    exact ⟨⟨fun ⟨_, h⟩ => (by cases h), fun h => absurd rfl h⟩, fun _ h => by cases h⟩
  have h0 : 0 < isa.length := List.length_pos_iff.2 hne
  have main : ∃ ends, isaLyndonFactorization isa = .ok ends ∧ ends.Pairwise (· < ·) ∧
      ∀ e, e ∈ ends ↔ (e + 1 = isa.length ∨
        ∃ v, isa[e + 1]? = some v ∧ ∀ i w, i ≤ e → isa[i]? = some w → v < w) := by
    simp only [isaLyndonFactorization]
    rw [rd_ok h0, ok_bind]
    obtain ⟨⟨k, cur, out⟩, e, ⟨i1, i2, i3, i4, i5, i6⟩, hc⟩ := whileLoop_inv
      (fun (s : Nat × Nat × List Nat) => 1 ≤ s.1 ∧ s.1 ≤ isa.length ∧
        (∃ i, i < s.1 ∧ isa[i]? = some s.2.1) ∧ (∀ i w, i < s.1 → isa[i]? = some w → s.2.1 ≤ w) ∧
        s.2.2.Pairwise (· < ·) ∧
        ∀ e, e ∈ s.2.2 ↔ (e + 1 < s.1 ∧
          ∃ v, isa[e + 1]? = some v ∧ ∀ i w, i ≤ e → isa[i]? = some w → v < w))
      (fun s => isa.length - s.1) (fuel := isa.length + 1)
      (cond := fun (s : Nat × Nat × List Nat) => pure (decide (s.1 < isa.length)))
      (body := fun (k, cur, out) => do
        let v ← rd isa k
        if v < cur then
          let e ← usub k 1
          pure (k + 1, v, out ++ [e])
        else pure (k + 1, cur, out))
      (s := (1, isa[0], []))
      ⟨by simp, h0, ⟨0, by simp, by simp [h0]⟩, by
        intro i w hi hw
        obtain rfl : i = 0 := by simpa using hi
        obtain ⟨_, rfl⟩ := List.getElem?_eq_some_iff.1 hw
        simp, by simp, by
        intro e
        simp⟩ (by simp only; omega) (by
        rintro ⟨k, cur, out⟩ ⟨i1, i2, ⟨m, m1, m2⟩, i4, i5, i6⟩
        simp only at i1 i2 m1 m2 i4 i5 i6
        by_cases hk : k < isa.length
        swap
        · left; simp [pure_ok, hk]
        right
        refine ⟨by simp [pure_ok, hk], ?_⟩
        simp only
        rw [rd_ok hk, ok_bind]
        by_cases hv : isa[k] < cur
        · rw [if_pos hv, usub_ok i1, ok_bind]
          refine ⟨(k + 1, isa[k], out ++ [k - 1]), rfl, ⟨by simp, hk,
            ⟨k, by simp, List.getElem?_eq_getElem hk⟩, ?_, ?_, ?_⟩, by simp only; omega⟩
          · intro i w hi hw
            simp only at hi ⊢
            rcases Nat.lt_succ_iff_lt_or_eq.1 hi with h | rfl
            · exact (hv.le).trans (i4 i w h hw)
            · rw [List.getElem?_eq_getElem hk] at hw; injection hw with hw; omega
          · simp only [List.pairwise_append, i5, true_and]
            refine ⟨by simp, ?_⟩
            intro a ha b hb
            have := (i6 a).1 ha
            simp only [List.mem_singleton] at hb
            omega
          · intro e
            simp only [List.mem_append, List.mem_singleton, i6]
            constructor
            · rintro (⟨h1, h2⟩ | rfl)
              · exact ⟨by omega, h2⟩
              · refine ⟨by omega, isa[k], ?_, ?_⟩
                · rw [Nat.sub_add_cancel i1, List.getElem?_eq_getElem hk]
                · intro i w hi hw
                  exact lt_of_lt_of_le hv (i4 i w (by omega) hw)
            · rintro ⟨h1, h2⟩
              rcases Nat.lt_succ_iff_lt_or_eq.1 h1 with h | h
              · exact Or.inl ⟨h, h2⟩
              · right; omega
        · rw [if_neg hv]
          refine ⟨(k + 1, cur, out), rfl, ⟨by simp, hk, ⟨m, by simp only; omega, m2⟩, ?_, i5, ?_⟩,
            by simp only; omega⟩
          · intro i w hi hw
            simp only at hi ⊢
            rcases Nat.lt_succ_iff_lt_or_eq.1 hi with h | rfl
            · exact i4 i w h hw
            · rw [List.getElem?_eq_getElem hk] at hw; injection hw with hw; omega
          · intro e
            simp only [i6]
            constructor
            · rintro ⟨h1, h2⟩; exact ⟨by omega, h2⟩
            · rintro ⟨h1, v, h2, h3⟩
              refine ⟨?_, v, h2, h3⟩
              rcases Nat.lt_succ_iff_lt_or_eq.1 h1 with h | h
              · exact h
              · exfalso
                rw [h, List.getElem?_eq_getElem hk] at h2
                injection h2 with h2
                have := h3 m cur (by omega) m2
                omega)
    simp only at i1 i2 i3 i4 i5 i6
    have hk : k = isa.length := by
      simp only [pure_ok, Except.ok.injEq, decide_eq_false_iff_not] at hc
      omega
    rw [e, ok_bind]
    simp only
    rw [usub_ok h0, ok_bind]
    refine ⟨_, rfl, ?_, ?_⟩
    · simp only [List.pairwise_append, i5, true_and]
      refine ⟨by simp, ?_⟩
      intro a ha b hb
      have := (i6 a).1 ha
      simp only [List.mem_singleton] at hb
      omega
    · intro e
      simp only [List.mem_append, List.mem_singleton, i6]
      constructor
      · rintro (⟨-, h2⟩ | rfl)
        · exact Or.inr h2
        · left; omega
      · rintro (h | ⟨v, h2, h3⟩)
        · right; omega
        · left
          refine ⟨?_, v, h2, h3⟩
          rw [hk]; exact (List.getElem?_eq_some_iff.1 h2).1
  obtain ⟨r, h1, h2⟩ := main
  refine ⟨⟨fun _ => hne, fun _ => ⟨r, h1⟩⟩, fun q hq => ?_⟩
  rw [h1] at hq
  injection hq with hq
  subst hq
  exact h2

example : isaLyndonFactorization [5, 7, 3, 3, 9, 1] = .ok [1, 4, 5] := by decide

/-- C96, texts over any ordered alphabet: `duval`, the naive suffix array, the naive matrix transform,
`border_array` and `is_primitive` (which calls the empty text primitive) never panic; `lyndon_conjugate`,
`bbwt_naive`, `compute_psv` and `compute_nsv` panic exactly on the empty input. -/
theorem C96_texts [LinearOrder α] (text : List α) :
    (∃ r, duval text = .ok r) ∧ (∃ r, suffixarrayNaive text = .ok r) ∧ (∃ r, bwtByMatrixNaive text = .ok r) ∧
    (∃ r, borderArray text = .ok r) ∧ (∃ r, isPrimitive text = .ok r ∧ (text = [] → r = true)) ∧
    ((∃ r, lyndonConjugate text = .ok r) ↔ text ≠ []) ∧ ((∃ r, bbwtNaive text = .ok r) ↔ text ≠ []) ∧
    (text.length < 4294967296 → ((∃ r, computePsv text = .ok r) ↔ text ≠ []) ∧
      ((∃ r, computeNsv text = .ok r) ↔ text ≠ [])) := by
  obtain ⟨a, ha, -⟩ := C01_duval_factorizes text
  obtain ⟨b, hb, -⟩ := C08_suffixarray_naive text
  obtain ⟨c, hc, -⟩ := bwtByMatrixNaive_ok text
  obtain ⟨d, hd, -⟩ := C05_border_array text
  refine ⟨⟨a, ha⟩, ⟨b, hb⟩, ⟨c, hc⟩, ⟨d, hd⟩, ?_, ?_, ?_, ?_⟩
  · by_cases hne : text = []
    · subst hne; exact ⟨true, rfl, fun _ => rfl⟩
    · obtain ⟨r, hr, -⟩ := C07_is_primitive text hne
      exact ⟨r, hr, fun h => absurd h hne⟩
  · constructor
    · rintro ⟨r, h⟩ rfl; rw [C04_lyndon_conjugate_empty] at h; cases h
    · intro hne; obtain ⟨r, hr, -⟩ := C04_lyndon_conjugate text hne; exact ⟨r, hr⟩
  · constructor
    · rintro ⟨r, h⟩ rfl; rw [C17_bbwt_empty] at h; cases h
    · exact fun hne => bbwt_total hne
  · intro hl
    refine ⟨⟨?_, fun hne => ?_⟩, ⟨?_, fun hne => ?_⟩⟩
    · rintro ⟨r, h⟩ rfl; rw [C11_empty.1] at h; cases h
    · obtain ⟨r, hr, -⟩ := C11_compute_psv text hne hl; exact ⟨r, hr⟩
    · rintro ⟨r, h⟩ rfl; rw [C11_empty.2] at h; cases h
    · obtain ⟨r, hr, -⟩ := C11_compute_nsv text hne hl; exact ⟨r, hr⟩

/-- C96, byte texts: with a sorter meeting its contract, `bwt_from_text_by_sa` returns iff the text is
non-empty and has no zero byte before its last position, `bwt_by_matrix` iff it is non-empty and has no zero
byte at all. -/
theorem C96_byte_texts (sufsort : List UInt8 → List Nat) (hs : SortsSuffixes sufsort) (text : List UInt8)
    (hlen : text.length < 2147483647) :
    ((∃ r, bwtFromTextBySa sufsort text = .ok r) ↔
      text ≠ [] ∧ ∀ i, i + 1 < text.length → text[i]? ≠ some 0) ∧
    ((∃ r, bwtByMatrix sufsort text = .ok r) ↔ text ≠ [] ∧ (0 : UInt8) ∉ text) := by
  constructor
  · constructor
    · rintro ⟨r, h⟩
      refine ⟨?_, fun i hi h0 => ?_⟩
      · rintro rfl; rw [(C12_bwt_sa_panics sufsort).1] at h; cases h
      · rw [(C12_bwt_sa_panics sufsort).2 text i hi h0] at h; cases h
    · rintro ⟨hne, h0⟩
      rcases List.eq_nil_or_concat text with rfl | ⟨w, z, rfl⟩
      · exact absurd rfl hne
      · simp only [List.concat_eq_append] at *
        obtain ⟨b, hb, -⟩ := bwtFromTextBySa_ok hs (w := w) (z := z) (by
          intro x hx hx0
          obtain ⟨i, hi, rfl⟩ := List.getElem_of_mem hx
          exact h0 i (by simpa using hi) (by rw [List.getElem?_append_left hi, List.getElem?_eq_getElem hi, hx0]))
          (by simp at hlen; omega)
        exact ⟨b, hb⟩
  · constructor
    · rintro ⟨r, h⟩
      refine ⟨?_, fun h0 => ?_⟩
      · rintro rfl; rw [C15_fast_matrix_empty] at h; cases h
      · rw [C15_fast_matrix_zero_panics sufsort text h0] at h; cases h
    · rintro ⟨hne, h0⟩
      obtain ⟨b, hb, -⟩ := C15_fast_matrix_eq_naive sufsort hs text hne
        (fun x hx e => h0 (e ▸ hx)) hlen
      exact ⟨b, hb⟩

example := C96_byte_texts naiveSufsort naiveSufsort_sorts [97, 0, 98] (by decide)

/-- A zero byte in the last place is accepted by the first transform only. -/
example : (∃ r, bwtFromTextBySa naiveSufsort [98, 0] = .ok r) ∧
    bwtByMatrix naiveSufsort [98, 0] = .error .assert := ⟨⟨[98, 0], by decide⟩, by decide⟩

end Verif.Props
