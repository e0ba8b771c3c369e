import Verif.Model.Core
import Verif.Spec.Arrays

/-! # Previous and next smaller values -/

namespace Verif

open Spec Model

variable {α : Type} [LinearOrder α]

theorem jump_psv {arr : List α} {sv : List Nat} {i : Nat} (hi : i < arr.length)
    (hn : arr.length < 4294967296)
    (hsv : ∀ j, j < i → ∃ v, sv[j]? = some v ∧ IsPsv INVALID arr j v)
    (fuel p : Nat)
    (hp : (p = INVALID ∧ 0 < fuel ∧ ∀ j y, j < i → arr[j]? = some y → arr[i] ≤ y) ∨
      (p < i ∧ p + 1 < fuel ∧ ∀ j y, p < j → j < i → arr[j]? = some y → arr[i] ≤ y)) :
    ∃ v, jump arr sv i fuel p = .ok v ∧ IsPsv INVALID arr i v := by
  have hI : INVALID = 4294967295 := rfl
  induction fuel generalizing p with
  | zero => omega
  | succ fuel ih =>
    unfold jump
    rcases hp with ⟨rfl, -, hall⟩ | ⟨h1, h2, hall⟩
    · rw [if_neg (by simp)]
      exact ⟨INVALID, rfl, arr[i], List.getElem?_eq_getElem hi, Or.inl ⟨rfl, hall⟩⟩
    · rw [if_pos (by omega), rd_ok (show p < arr.length by omega), ok_bind, rd_ok hi, ok_bind]
      by_cases hlt : arr[p] < arr[i]
      · rw [if_pos hlt]
        refine ⟨p, by rw [asU32, Nat.mod_eq_of_lt (by omega)]; rfl, arr[i],
          List.getElem?_eq_getElem hi, Or.inr ⟨h1, ⟨arr[p], List.getElem?_eq_getElem _, hlt⟩, hall⟩⟩
      · rw [if_neg hlt]
        rw [not_lt] at hlt
        obtain ⟨v, e1, x, e2, e3⟩ := hsv p h1
        rw [List.getElem?_eq_getElem (show p < arr.length by omega)] at e2
        simp only [Option.some.injEq] at e2
        subst e2
        rw [rd_some e1, ok_bind]
        have hsplit : ∀ j y, j < i → arr[j]? = some y → (j < p → arr[p] ≤ y) → arr[i] ≤ y := by
          intro j y hj hy hjp
          rcases lt_trichotomy j p with h | rfl | h
          · exact hlt.trans (hjp h)
          · rw [List.getElem?_eq_getElem (by omega)] at hy
            simp only [Option.some.injEq] at hy
            rw [← hy]; exact hlt
          · exact hall j y h hj hy
        apply ih
        rcases e3 with ⟨rfl, h3⟩ | ⟨h3, -, h4⟩
        · exact Or.inl ⟨rfl, by omega, fun j y hj hy => hsplit j y hj hy (fun hjp => h3 j y hjp hy)⟩
        · exact Or.inr ⟨by omega, by omega, fun j y hvj hj hy =>
            hsplit j y hj hy (fun hjp => h4 j y hvj hjp hy)⟩

theorem computePsv_ok {arr : List α} (h0 : 0 < arr.length) (hn : arr.length < 4294967296) :
    ∃ psv, computePsv arr = .ok psv ∧ psv.length = arr.length ∧
      ∀ i, i < arr.length → ∃ v, psv[i]? = some v ∧ IsPsv INVALID arr i v := by
  simp only [computePsv]
  rw [wr_ok (by simpa using h0), ok_bind]
  obtain ⟨psv, h1, h2, h3⟩ := forRange_inv
    (fun k (psv : List Nat) => psv.length = arr.length ∧
      ∀ i, i < k → ∃ v, psv[i]? = some v ∧ IsPsv INVALID arr i v)
    (lo := 1) (hi := arr.length) (s := (List.replicate arr.length 0).set 0 INVALID)
    (body := fun i psv => do
      let p ← usub i 1
      let psv ← wr psv i INVALID
      let v ← jump arr psv i (arr.length + 1) p
      wr psv i v) h0
    ⟨by simp, fun i hi => by
      have : i = 0 := by omega
      subst this
      exact ⟨INVALID, by simp [h0], arr[0], List.getElem?_eq_getElem h0, Or.inl ⟨rfl, by
        intros; omega⟩⟩⟩ (by
      intro i psv hi1 hi2 ⟨e1, e2⟩
      rw [usub_ok hi1, ok_bind, wr_ok (by omega), ok_bind]
      obtain ⟨v, hv, hpsv⟩ := jump_psv (arr := arr) (sv := psv.set i INVALID) (i := i) hi2 hn
        (by
          intro j hj
          obtain ⟨v, g1, g2⟩ := e2 j hj
          exact ⟨v, by rw [List.getElem?_set_ne (by omega)]; exact g1, g2⟩)
        (arr.length + 1) (i - 1) (Or.inr ⟨by omega, by omega, by intros; omega⟩)
      rw [hv, ok_bind, wr_ok (by simp; omega)]
      refine ⟨_, rfl, by simpa using e1, ?_⟩
      intro j hj
      rcases Nat.lt_or_ge j i with hlt | hge
      · obtain ⟨w, g1, g2⟩ := e2 j hlt
        exact ⟨w, by rw [List.getElem?_set_ne (by omega), List.getElem?_set_ne (by omega)]; exact g1, g2⟩
      · have : j = i := by omega
        subst this
        exact ⟨v, by simp [show j < psv.length by omega], hpsv⟩)
  exact ⟨psv, h1, h2, h3⟩

theorem jump_nsv {arr : List α} {sv : List Nat} {i : Nat} (hi : i < arr.length)
    (hn : arr.length < 4294967296)
    (hsv : ∀ j, i < j → j < arr.length → ∃ v, sv[j]? = some v ∧ IsNsv INVALID arr j v)
    (fuel p : Nat)
    (hp : (p = INVALID ∧ 0 < fuel ∧ ∀ j y, i < j → arr[j]? = some y → arr[i] ≤ y) ∨
      (i < p ∧ p < arr.length ∧ arr.length - p + 1 < fuel ∧
        ∀ j y, i < j → j < p → arr[j]? = some y → arr[i] ≤ y)) :
    ∃ v, jump arr sv i fuel p = .ok v ∧ IsNsv INVALID arr i v := by
  have hI : INVALID = 4294967295 := rfl
  induction fuel generalizing p with
  | zero => omega
  | succ fuel ih =>
    unfold jump
    rcases hp with ⟨rfl, -, hall⟩ | ⟨h1, hpl, h2, hall⟩
    · rw [if_neg (by simp)]
      exact ⟨INVALID, rfl, arr[i], List.getElem?_eq_getElem hi, Or.inl ⟨rfl, hall⟩⟩
    · rw [if_pos (by omega), rd_ok hpl, ok_bind, rd_ok hi, ok_bind]
      by_cases hlt : arr[p] < arr[i]
      · rw [if_pos hlt]
        refine ⟨p, by rw [asU32, Nat.mod_eq_of_lt (by omega)]; rfl, arr[i],
          List.getElem?_eq_getElem hi, Or.inr ⟨h1, ⟨arr[p], List.getElem?_eq_getElem _, hlt⟩, hall⟩⟩
      · rw [if_neg hlt]
        rw [not_lt] at hlt
        obtain ⟨v, e1, x, e2, e3⟩ := hsv p h1 hpl
        rw [List.getElem?_eq_getElem hpl] at e2
        simp only [Option.some.injEq] at e2
        subst e2
        rw [rd_some e1, ok_bind]
        have hsplit : ∀ j y, i < j → arr[j]? = some y → (p < j → arr[p] ≤ y) → arr[i] ≤ y := by
          intro j y hj hy hjp
          rcases lt_trichotomy j p with h | rfl | h
          · exact hall j y hj h hy
          · rw [List.getElem?_eq_getElem (by omega)] at hy
            simp only [Option.some.injEq] at hy
            rw [← hy]; exact hlt
          · exact hlt.trans (hjp h)
        apply ih
        rcases e3 with ⟨rfl, h3⟩ | ⟨h3, ⟨y, hy, -⟩, h4⟩
        · exact Or.inl ⟨rfl, by omega, fun j y hj hy => hsplit j y hj hy (fun hjp => h3 j y hjp hy)⟩
        · have hvl : v < arr.length := (List.getElem?_eq_some_iff.1 hy).1
          exact Or.inr ⟨by omega, hvl, by omega, fun j y hvj hj hy =>
            hsplit j y hvj hy (fun hjp => h4 j y hjp hj hy)⟩

theorem computeNsv_ok {arr : List α} (h0 : 0 < arr.length) (hn : arr.length < 4294967296) :
    ∃ nsv, computeNsv arr = .ok nsv ∧ nsv.length = arr.length ∧
      ∀ i, i < arr.length → ∃ v, nsv[i]? = some v ∧ IsNsv INVALID arr i v := by
  simp only [computeNsv]
  rw [usub_ok h0, ok_bind, wr_ok (by simp; omega), ok_bind]
  obtain ⟨nsv, h1, h2, h3⟩ := forRange_inv
    (fun t (nsv : List Nat) => nsv.length = arr.length ∧
      ∀ i, arr.length - 1 - t ≤ i → i < arr.length →
        ∃ v, nsv[i]? = some v ∧ IsNsv INVALID arr i v)
    (lo := 0) (hi := arr.length - 1)
    (s := (List.replicate arr.length 0).set (arr.length - 1) INVALID)
    (body := fun t nsv => do
      let i := arr.length - 1 - 1 - t
      let nsv ← wr nsv i INVALID
      let v ← jump arr nsv i (arr.length + 1) (i + 1)
      wr nsv i v) (Nat.zero_le _)
    ⟨by simp, fun i hi1 hi2 => by
      have : i = arr.length - 1 := by omega
      subst this
      refine ⟨INVALID, by rw [List.getElem?_set_self (by simpa using hi2)],
        arr[arr.length - 1], List.getElem?_eq_getElem hi2,
        Or.inl ⟨rfl, ?_⟩⟩
      intro j y hj hy
      have := (List.getElem?_eq_some_iff.1 hy).1
      omega⟩ (by
      intro t nsv _ ht ⟨e1, e2⟩
      generalize hidef : arr.length - 1 - 1 - t = i
      have hi2 : i + 1 < arr.length := by omega
      dsimp only
      rw [wr_ok (by omega), ok_bind]
      obtain ⟨v, hv, hnsv⟩ := jump_nsv (arr := arr) (sv := nsv.set i INVALID) (i := i) (by omega) hn
        (by
          intro j hj hjl
          obtain ⟨v, g1, g2⟩ := e2 j (by omega) hjl
          exact ⟨v, by rw [List.getElem?_set_ne (by omega)]; exact g1, g2⟩)
        (arr.length + 1) (i + 1) (Or.inr ⟨by omega, hi2, by omega, by intros; omega⟩)
      rw [hv, ok_bind, wr_ok (by simp; omega)]
      refine ⟨_, rfl, by simpa using e1, ?_⟩
      intro j hj hjl
      rcases Nat.lt_or_ge i j with hlt | hge
      · obtain ⟨w, g1, g2⟩ := e2 j (by omega) hjl
        exact ⟨w, by rw [List.getElem?_set_ne (by omega), List.getElem?_set_ne (by omega)]; exact g1, g2⟩
      · have : j = i := by omega
        subst this
        exact ⟨v, by simp [show j < nsv.length by omega], hnsv⟩)
  exact ⟨nsv, h1, h2, fun i hi => h3 i (by omega) hi⟩

end Verif
