import Verif.Lemmas.Cost
import Verif.Props.Lyndon
import Verif.Props.LyndonMore
import Verif.Props.Borders
import Verif.Props.Domains

/-! # Property C97: the number of letter comparisons is linear

The statements speak about the counting programs of Model/Cost (the same code with a counter), and say at the
same time that the counted run returns exactly what the function of Model/Core returns. -/

namespace Verif

open Model

variable {α : Type}

/-! ### Duval -/

theorem duvalCondC_cost [LinearOrder α] {text : List α} {n i j c c' : Nat} {b : Bool}
    (h : duvalCondC text n (i, j) c = .ok (b, c')) : c' ≤ c + 1 ∧ (b = true → j ≠ n) := by
  unfold duvalCondC at h
  simp only at h
  split at h
  · rename_i hj
    obtain ⟨_, _, h1, h⟩ := RC.bind_ok.1 h
    obtain ⟨_, _, h2, h⟩ := RC.bind_ok.1 h
    obtain ⟨_, _, h3, h⟩ := RC.bind_ok.1 h
    have h1 := (RC.lift_ok.1 h1).2
    have h2 := (RC.lift_ok.1 h2).2
    have h3 := tick_ok.1 h3
    have h := RC.pure_eq_ok.1 h
    simp only [Prod.mk.injEq] at h h3
    exact ⟨by omega, fun _ => hj⟩
  · have h := RC.pure_eq_ok.1 h
    simp only [Prod.mk.injEq] at h
    exact ⟨by omega, fun hb => by rw [h.1] at hb; cases hb⟩

theorem duvalBodyC_cost [LinearOrder α] {text : List α} {k i j c c' : Nat} {s : Nat × Nat} (hk : k ≤ i) (hij : i < j)
    (h : duvalBodyC text k (i, j) c = .ok (s, c')) : c' = c + 2 ∧ s.2 = j + 1 ∧ k ≤ s.1 ∧ s.1 < s.2 := by
  unfold duvalBodyC at h
  simp only at h
  obtain ⟨a, _, h1, h⟩ := RC.bind_ok.1 h
  obtain ⟨b, _, h2, h⟩ := RC.bind_ok.1 h
  obtain ⟨_, _, h3, h⟩ := RC.bind_ok.1 h
  obtain ⟨a', _, h4, h⟩ := RC.bind_ok.1 h
  obtain ⟨b', _, h5, h⟩ := RC.bind_ok.1 h
  obtain ⟨_, _, h6, h⟩ := RC.bind_ok.1 h
  have h1 := (RC.lift_ok.1 h1).2
  have h2 := (RC.lift_ok.1 h2).2
  have h3 := tick_ok.1 h3
  have h4 := (RC.lift_ok.1 h4).2
  have h5 := (RC.lift_ok.1 h5).2
  have h6 := tick_ok.1 h6
  have h := RC.pure_eq_ok.1 h
  simp only [Prod.mk.injEq] at h h3 h6
  obtain ⟨rfl, h⟩ := h
  have hx : k ≤ (if a < b then k else i) ∧ (if a < b then k else i) ≤ i := by split <;> omega
  generalize (if a < b then k else i) = x at hx
  refine ⟨by omega, rfl, ?_, ?_⟩ <;> simp only <;> split <;> omega

theorem duvalEmit_progress {i j k fuel : Nat} {out : List Nat} {r : Nat × List Nat} (hki : k ≤ i)
    (h : loopR fuel (duvalEmit i j) (k, out) = .ok r) : i ≤ r.1 ∧ k + (j - i) ≤ r.1 ∧ r.1 ≤ j := by
  induction fuel generalizing k out with
  | zero => cases h
  | succ fuel ih =>
    unfold loopR at h
    simp only [duvalEmit, assertR] at h
    split at h
    swap
    · cases h
    rename_i hij
    simp only [decide_eq_true_eq] at hij
    rw [ok_bind, usub_ok hij.le, ok_bind, usub_ok (by omega), ok_bind] at h
    simp only [pure_ok, ok_bind] at h
    split at h
    · rename_i hc
      simp only [decide_eq_true_eq] at hc
      injection h with h
      subst h
      exact ⟨hc, le_refl _, by simp only; omega⟩
    · rename_i hc
      simp only [decide_eq_true_eq] at hc
      have := ih (by omega) h
      omega

theorem duvalOuterC_cost [LinearOrder α] {text : List α} {k c c' : Nat} {out : List Nat} {s : Nat × List Nat}
    (hk : k < text.length) (h : duvalOuterC text (k, out) c = .ok (s, c')) :
    k < s.1 ∧ s.1 ≤ text.length ∧ c' + 2 ≤ c + 6 * (s.1 - k) := by
  unfold duvalOuterC at h
  simp only at h
  obtain ⟨⟨i, j⟩, c1, h1, h⟩ := RC.bind_ok.1 h
  simp only at h
  obtain ⟨h, e⟩ := RC.lift_ok.1 h
  simp only at h e
  have hI : k ≤ i ∧ i < j ∧ j ≤ text.length ∧ c1 + 3 * (k + 1) ≤ c + 3 * j + 1 := by
    refine whileC_returned (fun (s : Nat × Nat) c1 => k ≤ s.1 ∧ s.1 < s.2 ∧ s.2 ≤ text.length ∧ c1 + 3 * (k + 1) ≤ c + 3 * s.2)
      (fun (s : Nat × Nat) c1 => k ≤ s.1 ∧ s.1 < s.2 ∧ s.2 ≤ text.length ∧ c1 + 3 * (k + 1) ≤ c + 3 * s.2 + 1) ?_ ?_ ?_ h1
    · exact ⟨le_refl _, by simp, hk, by simp⟩
    · rintro ⟨i, j⟩ c c' ⟨e1, e2, e4, e3⟩ hc
      have := (duvalCondC_cost hc).1
      exact ⟨e1, e2, e4, by simp only at *; omega⟩
    · rintro ⟨i, j⟩ c c' s' c'' ⟨e1, e2, e4, e3⟩ hc hb
      obtain ⟨this, hj⟩ := duvalCondC_cost hc
      have hj := hj rfl
      obtain ⟨g1, g2, g3, g4⟩ := duvalBodyC_cost e1 e2 hb
      simp only at *
      exact ⟨g3, g4, by omega, by omega⟩
  have := duvalEmit_progress hI.1 h
  omega

theorem duvalC_cost [LinearOrder α] {text : List α} {out : List Nat} {c c' : Nat}
    (h : duvalC text c = .ok (out, c')) : c' ≤ c + 6 * text.length := by
  unfold duvalC at h
  obtain ⟨⟨k, o⟩, c1, h1, h⟩ := RC.bind_ok.1 h
  have h := RC.pure_eq_ok.1 h
  simp only [Prod.mk.injEq] at h
  have : k ≤ text.length ∧ c1 ≤ c + 6 * k := by
    refine whileC_returned (fun (s : Nat × List Nat) c1 => s.1 ≤ text.length ∧ c1 ≤ c + 6 * s.1)
      (fun (s : Nat × List Nat) c1 => s.1 ≤ text.length ∧ c1 ≤ c + 6 * s.1) ?_ ?_ ?_ h1
    · exact ⟨by simp, by simp⟩
    · rintro s c c' ⟨e1, e2⟩ hc
      have hc := RC.pure_eq_ok.1 hc
      simp only [Prod.mk.injEq] at hc
      exact ⟨e1, by omega⟩
    · rintro ⟨k, o⟩ c c' s' c'' ⟨e1, e2⟩ hc hb
      have hc := RC.pure_eq_ok.1 hc
      simp only [Prod.mk.injEq] at hc
      have hk : k < text.length := by simpa using hc.1.symm
      have := duvalOuterC_cost hk hb
      simp only at *
      omega
  omega

/-! ### Border array -/

theorem borderStepC_cost [DecidableEq α] {text : List α} {i c c' : Nat} {border b' : List Nat}
    (hb : ∀ j v : Nat, border[j]? = some v → v ≤ j)
    (h : borderStepC text i border c = .ok (b', c')) :
    ∃ l l', border[i]? = some l ∧ b' = border ++ [l'] ∧ 1 ≤ l' ∧ l' ≤ l + 1 ∧ c' + l' ≤ c + l + 2 := by
  unfold borderStepC at h
  obtain ⟨l, c1, h1, h⟩ := RC.bind_ok.1 h
  obtain ⟨h1, e1⟩ := RC.lift_ok.1 h1
  obtain ⟨l2, c2, h2, h⟩ := RC.bind_ok.1 h
  have h := RC.pure_eq_ok.1 h
  simp only [Prod.mk.injEq] at h
  simp only at h1 e1
  have hq : l2 ≤ l ∧ c2 + l2 ≤ c1 + l + 1 := by
    refine whileC_returned (fun l2 c2 => l2 ≤ l ∧ c2 + l2 ≤ c1 + l)
      (fun l2 c2 => l2 ≤ l ∧ c2 + l2 ≤ c1 + l + 1) ⟨le_refl _, le_refl _⟩ ?_ ?_ h2
    · rintro x c c' ⟨e1, e2⟩ hc
      unfold borderCondC at hc
      split at hc
      · obtain ⟨_, _, g1, hc⟩ := RC.bind_ok.1 hc
        obtain ⟨_, _, g2, hc⟩ := RC.bind_ok.1 hc
        obtain ⟨_, _, g3, hc⟩ := RC.bind_ok.1 hc
        have g1 := (RC.lift_ok.1 g1).2
        have g2 := (RC.lift_ok.1 g2).2
        have g3 := tick_ok.1 g3
        have hc := RC.pure_eq_ok.1 hc
        simp only [Prod.mk.injEq] at hc g3
        exact ⟨e1, by omega⟩
      · have hc := RC.pure_eq_ok.1 hc
        simp only [Prod.mk.injEq] at hc
        exact ⟨e1, by omega⟩
    · rintro x c c' s' c'' ⟨e1, e2⟩ hc hbd
      unfold borderCondC at hc
      split at hc
      · rename_i hx
        obtain ⟨_, _, g1, hc⟩ := RC.bind_ok.1 hc
        obtain ⟨_, _, g2, hc⟩ := RC.bind_ok.1 hc
        obtain ⟨_, _, g3, hc⟩ := RC.bind_ok.1 hc
        have g1 := (RC.lift_ok.1 g1).2
        have g2 := (RC.lift_ok.1 g2).2
        have g3 := tick_ok.1 g3
        have hc := RC.pure_eq_ok.1 hc
        simp only [Prod.mk.injEq] at hc g3
        obtain ⟨y, c3, f1, f2⟩ := RC.bind_ok.1 hbd
        obtain ⟨f1, f3⟩ := RC.lift_ok.1 f1
        obtain ⟨f2, f4⟩ := RC.lift_ok.1 f2
        simp only at f1 f2 f3 f4
        rw [usub_ok hx] at f1
        injection f1 with f1
        have := hb y s' (rd_eq_ok.1 f2)
        omega
      · have hc := RC.pure_eq_ok.1 hc
        simp at hc
  exact ⟨l, l2 + 1, rd_eq_ok.1 h1, h.1, by omega, by omega, by omega⟩

theorem borderArrayC_cost [DecidableEq α] {text : List α} {out : List Nat} {c c' : Nat}
    (h : borderArrayC text c = .ok (out, c')) : c' ≤ c + 2 * text.length := by
  unfold borderArrayC at h
  obtain ⟨b, c1, h1, h⟩ := RC.bind_ok.1 h
  have e : c' = c1 := by
    cases b with
    | nil =>
      have h := RC.pure_eq_ok.1 h
      simp only [Prod.mk.injEq] at h
      exact h.2
    | cons a l =>
      obtain ⟨_, _, h2, h⟩ := RC.bind_ok.1 h
      have h2 := (RC.lift_ok.1 h2).2
      have h := RC.pure_eq_ok.1 h
      simp only [Prod.mk.injEq] at h
      simp only at h2
      omega
  subst e
  obtain ⟨-, -, l, hl, hc⟩ := forRangeC_returned
    (fun i (b : List Nat) c1 => b.length = i + 1 ∧ (∀ j v : Nat, b[j]? = some v → v ≤ j) ∧
      ∃ l, b[i]? = some l ∧ c1 + l ≤ c + 2 * i) (Nat.zero_le _)
    ⟨rfl, by
      intro j v hv
      have := (List.getElem?_eq_some_iff.1 hv).1
      simp only [List.length_cons, List.length_nil] at this
      obtain rfl : j = 0 := by omega
      simp at hv
      omega, 0, rfl, by omega⟩ (by
      rintro i b c1 b' c2 - hi ⟨e1, e2, l, e3, e4⟩ hs
      obtain ⟨l0, l', g1, g2, g3, g4, g5⟩ := borderStepC_cost e2 hs
      rw [e3] at g1
      injection g1 with g1
      subst g1
      subst g2
      refine ⟨by simp [e1], ?_, l', ?_, by omega⟩
      · intro j v hv
        rcases Nat.lt_or_ge j b.length with hj | hj
        · rw [List.getElem?_append_left hj] at hv
          exact e2 j v hv
        · rw [List.getElem?_append_right hj] at hv
          have hj' := (List.getElem?_eq_some_iff.1 hv).1
          simp only [List.length_cons, List.length_nil] at hj'
          rw [show j - b.length = 0 by omega] at hv
          simp at hv
          have := e2 i l e3
          omega
      · rw [List.getElem?_append_right (by omega), e1]; simp) h1
  omega

/-! ### PLCP -/

theorem computePlcpC_cost [DecidableEq α] {text : List α} {phi out : List Nat} {c c' : Nat}
    (h : computePlcpC text phi c = .ok (out, c')) : c' ≤ c + 2 * text.length := by
  unfold computePlcpC at h
  obtain ⟨_, c0, h0, h⟩ := RC.bind_ok.1 h
  have h0 := (RC.lift_ok.1 h0).2
  obtain ⟨⟨p, len⟩, c1, h1, h⟩ := RC.bind_ok.1 h
  have h := RC.pure_eq_ok.1 h
  simp only [Prod.mk.injEq] at h
  simp only at h0
  have : text.length + len ≤ text.length ∧ c1 ≤ c0 + 2 * text.length + len := by
    refine forRangeC_returned
      (fun b (s : List Nat × Nat) c1 => b + s.2 ≤ text.length ∧ c1 ≤ c0 + 2 * b + s.2) (Nat.zero_le _)
      ⟨by simp, by simp only; omega⟩ ?_ h1
    rintro b ⟨p, len⟩ c1 ⟨p', len'⟩ c2 - hb ⟨e1, e2⟩ hs
    simp only at hs e1 e2 ⊢
    obtain ⟨a, c3, g1, hs⟩ := RC.bind_ok.1 hs
    have g1 := (RC.lift_ok.1 g1).2
    simp only at g1
    obtain ⟨l2, c4, g2, hs⟩ := RC.bind_ok.1 hs
    obtain ⟨_, c5, g3, hs⟩ := RC.bind_ok.1 hs
    have g3 := (RC.lift_ok.1 g3).2
    have hs := RC.pure_eq_ok.1 hs
    simp only [Prod.mk.injEq] at hs
    simp only at g3
    have hq : b + l2 ≤ text.length ∧ c4 ≤ c0 + 2 * b + l2 + 1 := by
      refine whileC_returned (fun l2 c4 => b + l2 ≤ text.length ∧ c4 ≤ c0 + 2 * b + l2)
        (fun l2 c4 => b + l2 ≤ text.length ∧ c4 ≤ c0 + 2 * b + l2 + 1) ⟨e1, by omega⟩ ?_ ?_ g2
      · rintro x c c' ⟨e1, e2⟩ hc
        unfold plcpCondC at hc
        split at hc
        · obtain ⟨_, _, g1, hc⟩ := RC.bind_ok.1 hc
          obtain ⟨_, _, g2, hc⟩ := RC.bind_ok.1 hc
          obtain ⟨_, _, g3, hc⟩ := RC.bind_ok.1 hc
          have g1 := (RC.lift_ok.1 g1).2
          have g2 := (RC.lift_ok.1 g2).2
          have g3 := tick_ok.1 g3
          have hc := RC.pure_eq_ok.1 hc
          simp only [Prod.mk.injEq] at hc g3
          exact ⟨e1, by omega⟩
        · have hc := RC.pure_eq_ok.1 hc
          simp only [Prod.mk.injEq] at hc
          exact ⟨e1, by omega⟩
      · rintro x c c' s' c'' ⟨e1, e2⟩ hc hbd
        have hbd := RC.pure_eq_ok.1 hbd
        simp only [Prod.mk.injEq] at hbd
        unfold plcpCondC at hc
        split at hc
        · obtain ⟨_, _, g1, hc⟩ := RC.bind_ok.1 hc
          obtain ⟨_, _, g2, hc⟩ := RC.bind_ok.1 hc
          obtain ⟨_, _, g3, hc⟩ := RC.bind_ok.1 hc
          have g1 := (RC.lift_ok.1 g1).2
          have g2 := (RC.lift_ok.1 g2).2
          have g3 := tick_ok.1 g3
          have hc := RC.pure_eq_ok.1 hc
          simp only [Prod.mk.injEq] at hc g3
          omega
        · have hc := RC.pure_eq_ok.1 hc
          simp at hc
    omega
  omega

/-! ### Smaller values -/

/-- `st` is the chain of pointers of `sv` starting at `p`. -/
def PChain (sv : List Nat) : Nat → List Nat → Prop
  | p, [] => p = INVALID
  | p, q :: st => p = q ∧ q ≠ INVALID ∧ ∃ p', sv[q]? = some p' ∧ PChain sv p' st

theorem PChain.set {sv : List Nat} {i v p : Nat} {st : List Nat} (h : PChain sv p st) (hi : i ∉ st) :
    PChain (sv.set i v) p st := by
  induction st generalizing p with
  | nil => exact h
  | cons q st ih =>
    obtain ⟨h1, h2, p', h3, h4⟩ := h
    simp only [List.mem_cons, not_or] at hi
    exact ⟨h1, h2, p', by rw [List.getElem?_set_ne (by omega)]; exact h3, ih h4 hi.2⟩

theorem jumpC_cost [LinearOrder α] {arr : List α} {sv : List Nat} {i fuel p v c c' : Nat} {st : List Nat}
    (hn : arr.length < 4294967296) (hch : PChain sv p st)
    (h : jumpC arr sv i fuel p c = .ok (v, c')) :
    ∃ st', st' <:+ st ∧ PChain sv v st' ∧ c' + st'.length ≤ c + st.length + 1 := by
  induction fuel generalizing p c st with
  | zero => cases h
  | succ fuel ih =>
    unfold jumpC at h
    split at h
    · rename_i hp
      obtain ⟨x, _, g1, h⟩ := RC.bind_ok.1 h
      obtain ⟨y, _, g2, h⟩ := RC.bind_ok.1 h
      obtain ⟨_, _, g3, h⟩ := RC.bind_ok.1 h
      obtain ⟨g0, g1⟩ := RC.lift_ok.1 g1
      have g2 := (RC.lift_ok.1 g2).2
      have g3 := tick_ok.1 g3
      simp only [Prod.mk.injEq] at g3
      simp only at g1 g2 g0
      have hpl := (List.getElem?_eq_some_iff.1 (rd_eq_ok.1 g0)).1
      split at h
      · have h := RC.pure_eq_ok.1 h
        simp only [Prod.mk.injEq] at h
        have : asU32 p = p := Nat.mod_eq_of_lt (by omega)
        rw [this] at h
        exact ⟨st, List.suffix_refl _, by rw [h.1]; exact hch, by omega⟩
      · obtain ⟨p', _, g4, h⟩ := RC.bind_ok.1 h
        obtain ⟨g4, g5⟩ := RC.lift_ok.1 g4
        simp only at g4 g5
        cases st with
        | nil => exact absurd hch hp
        | cons q st =>
          obtain ⟨rfl, -, p'', h3, h4⟩ := hch
          rw [rd_eq_ok.1 g4] at h3
          injection h3 with h3
          subst h3
          obtain ⟨st', f1, f2, f3⟩ := ih h4 h
          refine ⟨st', f1.trans (List.suffix_cons _ _), f2, ?_⟩
          simp only [List.length_cons]
          omega
    · rename_i hp
      simp only [ne_eq, not_not] at hp
      have h := RC.pure_eq_ok.1 h
      simp only [Prod.mk.injEq] at h
      refine ⟨st, List.suffix_refl _, ?_, by omega⟩
      rw [h.1, ← hp]; exact hch

theorem computePsvC_cost [LinearOrder α] {arr : List α} {out : List Nat} {c c' : Nat}
    (hn : arr.length < 4294967296)
    (h : computePsvC arr c = .ok (out, c')) : c' + 2 ≤ c + 2 * arr.length := by
  unfold computePsvC at h
  obtain ⟨sv0, _, h1, h⟩ := RC.bind_ok.1 h
  obtain ⟨h1, e⟩ := RC.lift_ok.1 h1
  simp only at h1 e
  obtain ⟨w1, rfl⟩ := wr_eq_ok.1 h1
  simp only [List.length_replicate] at w1
  have hI : INVALID = 4294967295 := rfl
  obtain ⟨-, st, -, hs, hc⟩ := forRangeC_returned
    (fun i (sv : List Nat) c1 => sv.length = arr.length ∧ ∃ st, (∀ x ∈ st, x < i) ∧ PChain sv (i - 1) (st) ∧
      c1 + st.length + 1 ≤ c + 2 * i ∧ 1 ≤ st.length) w1
    ⟨by simp, [0], by simp, ⟨rfl, by omega, INVALID, by simp [w1], rfl⟩, by simp; omega, by simp⟩ (by
      rintro i sv c1 sv' c2 hi1 hi ⟨e1, st, e2, e3, e4, -⟩ hb
      obtain ⟨p, _, g1, hb⟩ := RC.bind_ok.1 hb
      obtain ⟨g1, f1⟩ := RC.lift_ok.1 g1
      obtain ⟨sv1, _, g2, hb⟩ := RC.bind_ok.1 hb
      obtain ⟨g2, f2⟩ := RC.lift_ok.1 g2
      obtain ⟨v, c3, g3, hb⟩ := RC.bind_ok.1 hb
      obtain ⟨g4, f4⟩ := RC.lift_ok.1 hb
      simp only at g1 g2 g4 f1 f2 f4
      rw [usub_ok hi1] at g1
      injection g1 with g1
      obtain ⟨w2, rfl⟩ := wr_eq_ok.1 g2
      obtain ⟨w3, rfl⟩ := wr_eq_ok.1 g4
      have hni : i ∉ st := fun hx => by have := e2 i hx; omega
      obtain ⟨st', k1, k2, k3⟩ := jumpC_cost hn (PChain.set (v := INVALID) e3 hni) (g1 ▸ g3)
      have hni' : i ∉ st' := fun hx => hni (k1.subset hx)
      refine ⟨by simpa using e1, i :: st', ?_, ⟨by omega, by omega, v, ?_, k2.set hni'⟩, ?_, by simp⟩
      · intro x hx
        rcases List.mem_cons.1 hx with rfl | hx
        · omega
        · have := e2 x (k1.subset hx); omega
      · rw [List.getElem?_set_self w3]
      · simp only [List.length_cons]; omega) h
  omega

theorem computeNsvC_cost [LinearOrder α] {arr : List α} {out : List Nat} {c c' : Nat}
    (hn : arr.length < 4294967296)
    (h : computeNsvC arr c = .ok (out, c')) : c' + 2 ≤ c + 2 * arr.length := by
  unfold computeNsvC at h
  simp only at h
  obtain ⟨l, _, h0, h⟩ := RC.bind_ok.1 h
  obtain ⟨h0, e0⟩ := RC.lift_ok.1 h0
  obtain ⟨sv0, _, h1, h⟩ := RC.bind_ok.1 h
  obtain ⟨h1, e⟩ := RC.lift_ok.1 h1
  simp only at h0 h1 e e0
  obtain ⟨w1, rfl⟩ := wr_eq_ok.1 h1
  simp only [List.length_replicate] at w1
  unfold usub at h0
  split at h0
  swap
  · cases h0
  rename_i hpos
  injection h0 with h0
  have hI : INVALID = 4294967295 := rfl
  obtain ⟨-, st, -, hs, hc⟩ := forRangeC_returned
    (fun t (sv : List Nat) c1 => sv.length = arr.length ∧ ∃ st, (∀ x ∈ st, l - t ≤ x) ∧ PChain sv (l - t) (st) ∧
      c1 + st.length ≤ c + 2 * t + 1 ∧ 1 ≤ st.length) (Nat.zero_le _)
    ⟨by simp, [l], by simp, ⟨rfl, by omega, INVALID, by simp [w1], rfl⟩, by simp; omega, by simp⟩ (by
      rintro t sv c1 sv' c2 - ht ⟨e1, st, e2, e3, e4, -⟩ hb
      generalize hi : l - 1 - t = i at hb
      obtain ⟨sv1, _, g2, hb⟩ := RC.bind_ok.1 hb
      obtain ⟨g2, f2⟩ := RC.lift_ok.1 g2
      obtain ⟨v, c3, g3, hb⟩ := RC.bind_ok.1 hb
      obtain ⟨g4, f4⟩ := RC.lift_ok.1 hb
      simp only at g2 g4 f2 f4
      obtain ⟨w2, rfl⟩ := wr_eq_ok.1 g2
      obtain ⟨w3, rfl⟩ := wr_eq_ok.1 g4
      have hni : i ∉ st := fun hx => by have := e2 i hx; omega
      rw [show l - t = i + 1 by omega] at e3
      obtain ⟨st', k1, k2, k3⟩ := jumpC_cost hn (PChain.set (v := INVALID) e3 hni) g3
      have hni' : i ∉ st' := fun hx => hni (k1.subset hx)
      refine ⟨by simpa using e1, i :: st', ?_, ⟨by omega, by omega, v, ?_, k2.set hni'⟩, ?_, by simp⟩
      · intro x hx
        rcases List.mem_cons.1 hx with rfl | hx
        · omega
        · have := e2 x (k1.subset hx); omega
      · rw [List.getElem?_set_self w3]
      · simp only [List.length_cons]; omega) h
  omega

/-! ### Conjugates and primitivity -/

theorem RC.lift_cost {β : Type} {r : Res β} {c c' : Nat} {b : β} (h : (liftM r : RC β) c = .ok (b, c')) : c' = c :=
  (RC.lift_ok.1 h).2

theorem lyndonConjugateC_cost [LinearOrder α] {text : List α} {p c c' : Nat}
    (h : lyndonConjugateC text c = .ok (p, c')) : c' ≤ c + 12 * text.length := by
  unfold lyndonConjugateC at h
  obtain ⟨f, c1, h1, h⟩ := RC.bind_ok.1 h
  have h1 := duvalC_cost h1
  rw [List.length_append] at h1
  obtain ⟨f0, c2, h2, h⟩ := RC.bind_ok.1 h
  have h2 := RC.lift_cost h2
  have : c' = c2 := by
    split at h
    · have h := RC.pure_eq_ok.1 h
      simp only [Prod.mk.injEq] at h
      exact h.2
    · obtain ⟨hi, c3, h3, h⟩ := RC.bind_ok.1 h
      have h3 := RC.lift_cost h3
      obtain ⟨r, c4, h4, h⟩ := RC.bind_ok.1 h
      have h4 := RC.lift_cost h4
      cases r with
      | some q =>
        have h := RC.pure_eq_ok.1 h
        simp only [Prod.mk.injEq] at h
        omega
      | none =>
        have h := RC.lift_cost h
        omega
  omega

theorem isPrimitiveC_cost [DecidableEq α] {text : List α} {b : Bool} {c c' : Nat}
    (h : isPrimitiveC text c = .ok (b, c')) : c' ≤ c + 2 * text.length := by
  unfold isPrimitiveC at h
  obtain ⟨f, c1, h1, h⟩ := RC.bind_ok.1 h
  have h1 := borderArrayC_cost h1
  obtain ⟨f0, c2, h2, h⟩ := RC.bind_ok.1 h
  have h2 := RC.lift_cost h2
  have : c' = c2 := by
    split at h
    · have h := RC.pure_eq_ok.1 h
      simp only [Prod.mk.injEq] at h
      exact h.2
    · obtain ⟨hi, c3, h3, h⟩ := RC.bind_ok.1 h
      have h3 := RC.lift_cost h3
      split at h
      · have h := RC.lift_cost h
        omega
      · have h := RC.pure_eq_ok.1 h
        simp only [Prod.mk.injEq] at h
        omega
  omega

end Verif

namespace Verif.Props

open Verif Spec Model

variable {α : Type}

/-- C97: Duval's algorithm makes at most `6n` letter comparisons, and the counted run returns the value of
`duval`. -/
theorem C97_duval [LinearOrder α] (text : List α) :
    ∃ r count, duvalC text 0 = .ok (r, count) ∧ duval text = .ok r ∧ count ≤ 6 * text.length := by
  obtain ⟨r, h, -⟩ := C01_duval_factorizes text
  obtain ⟨c, hc⟩ := (duvalC_erase text).ok h 0
  exact ⟨r, c, hc, h, by have := duvalC_cost hc; omega⟩

/-- C97: the border array takes at most `2n` letter comparisons. -/
theorem C97_border_array [LinearOrder α] (text : List α) :
    ∃ r count, borderArrayC text 0 = .ok (r, count) ∧ borderArray text = .ok r ∧ count ≤ 2 * text.length := by
  obtain ⟨r, h, -⟩ := C05_border_array text
  obtain ⟨c, hc⟩ := (borderArrayC_erase text).ok h 0
  exact ⟨r, c, hc, h, by have := borderArrayC_cost hc; omega⟩

/-- C97: `lyndon_conjugate` makes at most `12n` letter comparisons, `is_primitive` at most `2n`. -/
theorem C97_conjugate_primitive [LinearOrder α] (text : List α) (h0 : text ≠ []) :
    (∃ r count, lyndonConjugateC text 0 = .ok (r, count) ∧ lyndonConjugate text = .ok r ∧ count ≤ 12 * text.length) ∧
    (∃ r count, isPrimitiveC text 0 = .ok (r, count) ∧ isPrimitive text = .ok r ∧ count ≤ 2 * text.length) := by
  constructor
  · obtain ⟨r, h, -⟩ := C04_lyndon_conjugate text h0
    obtain ⟨c, hc⟩ := (lyndonConjugateC_erase text).ok h 0
    exact ⟨r, c, hc, h, by have := lyndonConjugateC_cost hc; omega⟩
  · obtain ⟨r, h, -⟩ := C07_is_primitive text h0
    obtain ⟨c, hc⟩ := (isPrimitiveC_erase text).ok h 0
    exact ⟨r, c, hc, h, by have := isPrimitiveC_cost hc; omega⟩

example := C97_conjugate_primitive [2, 1, 3, 1, 3, 1] (by decide)

/-- C97: `compute_plcp` makes at most `2n` letter comparisons, whatever `phi` contains. -/
theorem C97_plcp [DecidableEq α] (text : List α) (phi : List Nat) (hl : text.length = phi.length) :
    ∃ r count, computePlcpC text phi 0 = .ok (r, count) ∧ computePlcp text phi = .ok r ∧
      count ≤ 2 * text.length := by
  obtain ⟨r, h⟩ := (C96_compute_plcp text phi).1.2 hl
  obtain ⟨c, hc⟩ := (computePlcpC_erase text phi).ok h 0
  exact ⟨r, c, hc, h, by have := computePlcpC_cost hc; omega⟩

example := C97_plcp [2, 1, 3, 1, 3, 1] [1, 3, 4, 5, 0, 2] rfl

/-- C97: previous and next smaller values take at most `2n - 2` comparisons each. -/
theorem C97_smaller_values [LinearOrder α] (arr : List α) (hne : arr ≠ []) (hn : arr.length < 4294967296) :
    (∃ r count, computePsvC arr 0 = .ok (r, count) ∧ computePsv arr = .ok r ∧ count ≤ 2 * arr.length - 2) ∧
    (∃ r count, computeNsvC arr 0 = .ok (r, count) ∧ computeNsv arr = .ok r ∧ count ≤ 2 * arr.length - 2) := by
  constructor
  · obtain ⟨r, h, -⟩ := C11_compute_psv arr hne hn
    obtain ⟨c, hc⟩ := (computePsvC_erase arr).ok h 0
    exact ⟨r, c, hc, h, by have := computePsvC_cost hn hc; omega⟩
  · obtain ⟨r, h, -⟩ := C11_compute_nsv arr hne hn
    obtain ⟨c, hc⟩ := (computeNsvC_erase arr).ok h 0
    exact ⟨r, c, hc, h, by have := computeNsvC_cost hn hc; omega⟩

example := C97_smaller_values [3, 1, 2, 2, 5, 1] (by decide) (by decide)

/-- Concrete counted runs. -/
example : duvalC [2, 1, 3, 1, 3, 1, 1, 2] 0 = .ok ([0, 2, 4, 7], 20) ∧
    borderArrayC [1, 2, 1, 2, 3] 0 = .ok ([0, 0, 0, 1, 2, 0], 5) ∧
    computePsvC [1, 1, 1, 1] 0 = .ok ([4294967295, 4294967295, 4294967295, 4294967295], 3) ∧
    computePsvC [1, 2, 3, 0, 5, 4, 7, 1] 0 =
      .ok ([4294967295, 0, 1, 4294967295, 3, 3, 5, 3], 12) := by decide +kernel

end Verif.Props
