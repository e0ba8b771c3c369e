import Verif.Rust

/-! # Common loop shapes -/

namespace Verif

variable {β : Type}

/-- A loop writing `g i` to pairwise distinct cells `f i`. -/
theorem forRange_scatter {lo hi : Nat} {v : List β} {body : Nat → List β → Res (List β)}
    {f : Nat → Nat} {g : Nat → β} (hle : lo ≤ hi)
    (hbody : ∀ i w, lo ≤ i → i < hi → w.length = v.length → body i w = wr w (f i) (g i))
    (hf : ∀ i, lo ≤ i → i < hi → f i < v.length)
    (hinj : ∀ i j, lo ≤ i → i < hi → lo ≤ j → j < hi → f i = f j → i = j) :
    ∃ w, forRange lo hi v body = .ok w ∧ w.length = v.length ∧
      (∀ i, lo ≤ i → i < hi → w[f i]? = some (g i)) ∧
      (∀ j, (∀ i, lo ≤ i → i < hi → f i ≠ j) → w[j]? = v[j]?) := by
  obtain ⟨w, h1, h2, h3, h4⟩ := forRange_inv
    (fun k (w : List β) => w.length = v.length ∧
      (∀ i, lo ≤ i → i < k → w[f i]? = some (g i)) ∧
      (∀ j, (∀ i, lo ≤ i → i < k → f i ≠ j) → w[j]? = v[j]?))
    hle (s := v) (body := body) ⟨rfl, by intros; omega, by intros; rfl⟩ (by
      intro k w hk1 hk2 ⟨e1, e2, e3⟩
      have hl : f k < w.length := by rw [e1]; exact hf k hk1 hk2
      refine ⟨w.set (f k) (g k), ?_, by simpa using e1, ?_, ?_⟩
      · rw [hbody k w hk1 hk2 e1, wr_ok hl]
      · intro i hi1 hi2
        by_cases hik : i = k
        · subst hik; simp [hl]
        · rw [List.getElem?_set_ne (fun e => hik (hinj i k hi1 (by omega) hk1 hk2 e.symm))]
          exact e2 i hi1 (by omega)
      · intro j hj
        rw [List.getElem?_set_ne (hj k hk1 (by omega))]
        exact e3 j (fun i a b => hj i a (by omega)))
  exact ⟨w, h1, h2, h3, h4⟩

/-- A loop filling cell `i` with `g i`, for all cells. -/
theorem forRange_fill {n : Nat} {v : List β} {body : Nat → List β → Res (List β)} {g : Nat → β}
    (hv : v.length = n)
    (hbody : ∀ i w, i < n → w.length = n → body i w = wr w i (g i)) :
    forRange 0 n v body = .ok ((List.range n).map g) := by
  obtain ⟨w, h1, h2, h3, _⟩ := forRange_scatter (lo := 0) (hi := n) (v := v) (body := body)
    (f := fun i => i) (g := g) (Nat.zero_le _)
    (fun i w _ h hw => hbody i w h (by omega)) (fun i _ h => by omega) (fun i j _ _ _ _ h => h)
  rw [h1]
  congr 1
  apply List.ext_getElem?
  intro i
  by_cases hi : i < n
  · rw [h3 i (Nat.zero_le _) hi]; simp [hi]
  · rw [List.getElem?_eq_none (by omega), List.getElem?_eq_none (by simp; omega)]

/-- A loop pushing `g i`. -/
theorem forRange_push {lo hi : Nat} {out : List β} {body : Nat → List β → Res (List β)} {g : Nat → β}
    (hbody : ∀ i w, lo ≤ i → i < hi → body i w = .ok (w ++ [g i])) :
    forRange lo hi out body = .ok (out ++ (List.range' lo (hi - lo)).map g) := by
  by_cases hle : lo ≤ hi
  · obtain ⟨w, h1, h2⟩ := forRange_inv
      (fun k (w : List β) => w = out ++ (List.range' lo (k - lo)).map g) hle (s := out)
      (body := body) (by simp) (by
        intro k w hk1 hk2 hw
        refine ⟨_, hbody k w hk1 hk2, ?_⟩
        rw [hw, show k + 1 - lo = (k - lo) + 1 by omega, List.range'_1_concat]
        simp [show lo + (k - lo) = k by omega])
    rw [h1, h2]
  · rw [forRange_done (by omega), show hi - lo = 0 by omega]; simp

theorem forRange_push0 {n : Nat} {out : List β} {body : Nat → List β → Res (List β)} {g : Nat → β}
    (hbody : ∀ i w, i < n → body i w = .ok (w ++ [g i])) :
    forRange 0 n out body = .ok (out ++ (List.range n).map g) := by
  rw [forRange_push (g := g) (fun i w _ h => hbody i w h), List.range_eq_range']; rfl

/-- Congruence: loops with equal bodies (on the states that occur) are equal. -/
theorem forRange_congr {σ : Type} {lo hi : Nat} {s : σ} {b1 b2 : Nat → σ → Res σ}
    (h : ∀ i s, lo ≤ i → i < hi → b1 i s = b2 i s) : forRange lo hi s b1 = forRange lo hi s b2 := by
  by_cases hle : lo ≤ hi
  · obtain ⟨d, rfl⟩ : ∃ d, hi = lo + d := ⟨hi - lo, by omega⟩
    clear hle
    induction d generalizing lo s with
    | zero => rw [forRange_done (by omega), forRange_done (by omega)]
    | succ d ih =>
      rw [forRange_step (by omega), forRange_step (by omega), h lo s (le_refl _) (by omega)]
      cases b2 lo s with
      | error e => rfl
      | ok s' =>
        simp only [ok_bind]
        rw [show lo + (d + 1) = lo + 1 + d by omega]
        exact ih (fun i s a b => h i s (by omega) (by omega))
  · rw [forRange_done (by omega), forRange_done (by omega)]

end Verif
