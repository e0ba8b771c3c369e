import Verif.Spec.Morphism
import Verif.Model.Word
import Verif.Lemmas.Loops

/-! # Iterating morphisms -/

namespace Verif
open Spec Model

section general
variable {α : Type}

theorem iter_append (f : α → List α) (k : Nat) (u v : List α) :
    iter f k (u ++ v) = iter f k u ++ iter f k v := by
  induction k with
  | zero => rfl
  | succ k ih => simp [iter, ih, List.flatMap_append]

theorem iter_nil (f : α → List α) (k : Nat) : iter f k [] = [] := by
  induction k with
  | zero => rfl
  | succ k ih => simp [iter, ih]

theorem iter_succ' (f : α → List α) (k : Nat) (w : List α) :
    iter f (k + 1) w = iter f k (w.flatMap f) := by
  induction k with
  | zero => rfl
  | succ k ih => rw [iter, ih]; rfl

theorem iter_succ_singleton (f : α → List α) (k : Nat) (c : α) :
    iter f (k + 1) [c] = iter f k (f c) := by
  rw [iter_succ']; simp

theorem iter_prefix {f : α → List α} {u v : List α} (h : u <+: v) (k : Nat) :
    iter f k u <+: iter f k v := by
  obtain ⟨t, rfl⟩ := h
  rw [iter_append]; exact List.prefix_append _ _

theorem flatMap_prefix {f : α → List α} {u v : List α} (h : u <+: v) :
    u.flatMap f <+: v.flatMap f := by
  obtain ⟨t, rfl⟩ := h
  rw [List.flatMap_append]; exact List.prefix_append _ _

theorem flatMap_length_ge {f : α → List α} (hf : ∀ c, f c ≠ []) (w : List α) :
    w.length ≤ (w.flatMap f).length := by
  induction w with
  | nil => simp
  | cons c w ih =>
    have := List.length_pos_iff.2 (hf c)
    simp only [List.flatMap_cons, List.length_append, List.length_cons]
    omega

/-- A morphism prolongable on `a`: `f a = a r` with `r` non-empty, and no letter is erased. -/
structure Prolongable (f : α → List α) (a : α) (r : List α) : Prop where
  img : f a = a :: r
  ne : r ≠ []
  nonerasing : ∀ c, f c ≠ []

theorem Prolongable.prefix {f : α → List α} {a : α} {r : List α} (h : Prolongable f a r) (k : Nat) :
    iter f k [a] <+: iter f (k + 1) [a] := by
  rw [iter_succ_singleton, h.img]
  exact iter_prefix ⟨r, rfl⟩ k

theorem iter_ne_nil {f : α → List α} (hf : ∀ c, f c ≠ []) {w : List α} (hw : w ≠ []) (k : Nat) :
    iter f k w ≠ [] := by
  induction k with
  | zero => exact hw
  | succ k ih =>
    have := flatMap_length_ge hf (iter f k w)
    have h2 := List.length_pos_iff.2 ih
    exact List.length_pos_iff.1 (by rw [iter]; omega)

theorem Prolongable.length_lt {f : α → List α} {a : α} {r : List α} (h : Prolongable f a r) (k : Nat) :
    (iter f k [a]).length < (iter f (k + 1) [a]).length := by
  rw [iter_succ_singleton, h.img, show a :: r = [a] ++ r from rfl, iter_append, List.length_append]
  have := List.length_pos_iff.2 (iter_ne_nil h.nonerasing h.ne k)
  omega

theorem Prolongable.prefix_le {f : α → List α} {a : α} {r : List α} (h : Prolongable f a r) {j k : Nat}
    (hjk : j ≤ k) : iter f j [a] <+: iter f k [a] := by
  obtain ⟨d, rfl⟩ : ∃ d, k = j + d := ⟨k - j, by omega⟩
  clear hjk
  induction d with
  | zero => exact List.prefix_refl _
  | succ d ih => exact ih.trans (h.prefix _)

theorem Prolongable.length_ge {f : α → List α} {a : α} {r : List α} (h : Prolongable f a r) (k : Nat) :
    k < (iter f k [a]).length := by
  induction k with
  | zero => simp [iter]
  | succ k ih => have := h.length_lt k; omega

/-! ### 2-uniform morphisms -/

/-- The `i`-th letter of the infinite word starting with `x` and generated by `c -> f0 c, f1 c`. -/
def fixLetter (x : α) (f0 f1 : α → α) (i : Nat) : α :=
  if h : i = 0 then x
  else if i % 2 = 0 then f0 (fixLetter x f0 f1 (i / 2)) else f1 (fixLetter x f0 f1 (i / 2))
termination_by i
decreasing_by all_goals omega

theorem fixLetter_even {x : α} {f0 f1 : α → α} (hx : f0 x = x) (i : Nat) :
    fixLetter x f0 f1 (2 * i) = f0 (fixLetter x f0 f1 i) := by
  rcases Nat.eq_zero_or_pos i with rfl | hi
  · rw [Nat.mul_zero, fixLetter]; simp [hx]
  · rw [fixLetter, dif_neg (by omega), if_pos (by omega), show 2 * i / 2 = i by omega]

theorem fixLetter_odd {x : α} {f0 f1 : α → α} (i : Nat) :
    fixLetter x f0 f1 (2 * i + 1) = f1 (fixLetter x f0 f1 i) := by
  rw [fixLetter, dif_neg (by omega), if_neg (by omega), show (2 * i + 1) / 2 = i by omega]

theorem fixLetter_zero {x : α} {f0 f1 : α → α} : fixLetter x f0 f1 0 = x := by
  rw [fixLetter]; simp

theorem range_double (n : Nat) : List.range (2 * n) = (List.range n).flatMap (fun i => [2 * i, 2 * i + 1]) := by
  induction n with
  | zero => rfl
  | succ n ih =>
    rw [show 2 * (n + 1) = 2 * n + 1 + 1 by omega, List.range_succ, List.range_succ, ih, List.range_succ]
    simp [List.flatMap_append]

theorem iter_fixLetter {f : α → List α} {x : α} {f0 f1 : α → α} (hf : ∀ c, f c = [f0 c, f1 c])
    (hx : f0 x = x) (k : Nat) : iter f k [x] = (List.range (2 ^ k)).map (fixLetter x f0 f1) := by
  induction k with
  | zero => simp [iter, fixLetter_zero]
  | succ k ih =>
    rw [iter, ih, Nat.pow_succ, Nat.mul_comm, range_double, List.map_flatMap, List.flatMap_map]
    congr 1
    funext i
    rw [hf, List.map_cons, List.map_cons, List.map_nil, fixLetter_even hx, fixLetter_odd]

end general

/-! ### The code: general morphisms -/

theorem forEach_flatMap (f : UInt8 → List UInt8) (w acc : List UInt8) :
    forEach w acc (fun c text => pure (text ++ f c)) = .ok (acc ++ w.flatMap f) := by
  induction w generalizing acc with
  | nil => simp [forEach_nil]
  | cons c w ih => rw [forEach_cons, pure_bind', ih]; simp

theorem withStart_ok {rounds hint : Nat} {f : UInt8 → List UInt8} {start : List UInt8}
    (hcap : initialCapacity rounds hint = .ok ()) :
    iterateGeneralMorphismWithStartsymbol rounds f hint start = .ok (iter f rounds start) := by
  unfold iterateGeneralMorphismWithStartsymbol
  rw [hcap, ok_bind]
  obtain ⟨w, h1, h2⟩ := forRange_inv (fun k (w : List UInt8) => w = iter f k start)
    (lo := 0) (hi := rounds) (s := start) (body := fun _ oldtext =>
      forEach oldtext [] (fun c text => pure (text ++ f c))) (by omega) rfl (by
      intro k w _ _ hw
      refine ⟨iter f (k + 1) start, ?_, rfl⟩
      rw [forEach_flatMap, hw]; rfl)
  rw [h1, h2]

theorem general_ok {rounds hint fuel : Nat} {f : UInt8 → List UInt8} {r : List UInt8}
    (hf : Prolongable f 97 r) (hcap : rounds = 0 ∨ initialCapacity rounds hint = .ok ())
    (hfuel : (iter f (rounds - 1) [97]).length < fuel) :
    iterateGeneralMorphism fuel rounds f hint = .ok (iter f rounds [97]) := by
  unfold iterateGeneralMorphism
  rcases Nat.eq_zero_or_pos rounds with rfl | hr
  · simp [iter, pure_ok]
  · rw [if_neg (by omega), hcap.resolve_left (by omega), ok_bind]
    have hW1 : iter f 1 [97] = f 97 := by simp [iter]
    have hlen1 : 1 ≤ (f 97).length := by rw [hf.img]; simp
    simp only [usub_ok hlen1, ok_bind]
    obtain ⟨s, h1, ⟨j1, j2, j3, j4, j5, j6, j7⟩, hc⟩ := whileLoop_inv
      (cond := fun (s : MorState) => (pure (decide (s.round < rounds)) : Res Bool))
      (body := morStep f)
      (fun s : MorState => 1 ≤ s.round ∧ s.round ≤ rounds ∧
        s.endLastRound + 1 = (iter f s.round [97]).length ∧
        (iter f (s.round - 1) [97]).length ≤ s.sourcePos ∧ s.sourcePos ≤ s.endLastRound ∧
        s.text = ((iter f s.round [97]).take s.sourcePos).flatMap f ∧
        (s.round < rounds ∨ s.sourcePos = (iter f (s.round - 1) [97]).length))
      (fun s => (iter f (rounds - 1) [97]).length - s.sourcePos)
      (fuel := fuel) (s := ⟨f 97, 1, (f 97).length - 1, 1⟩)
      (by
        refine ⟨le_refl _, hr, ?_, ?_, ?_, ?_, ?_⟩
        · simp only [hW1]; omega
        · simp [iter]
        · have h0 := hf.length_lt 0
          rw [hW1] at h0
          simp [iter] at h0
          simp only; omega
        · simp only [hW1]
          rw [hf.img]
          simp [hf.img]
        · right; simp [iter])
      (by simp only; omega)
      (by
        rintro ⟨text, round, e, sp⟩ ⟨i1, i2, i3, i4, i5, i6, i7⟩
        simp only at i1 i2 i3 i4 i5 i6 i7
        by_cases hlt : round < rounds
        · right
          refine ⟨by simp [hlt, pure_ok], ?_⟩
          obtain ⟨q, rfl⟩ : ∃ q, round = q + 1 := ⟨round - 1, by omega⟩
          rw [Nat.add_sub_cancel] at i4 i7
          -- the previous iterate is a prefix of the processed part
          have hpre : iter f q [97] <+: (iter f (q + 1) [97]).take sp :=
            List.prefix_of_prefix_length_le (hf.prefix q) (List.take_prefix _ _) (by
              rw [List.length_take]; omega)
          have htext : iter f (q + 1) [97] <+: text := by
            rw [i6]; exact flatMap_prefix hpre
          have hget : text[sp]? = some ((iter f (q + 1) [97])[sp]'(by omega)) := by
            obtain ⟨t, ht⟩ := htext
            rw [← ht, List.getElem?_append_left (by omega), List.getElem?_eq_getElem]
          have htake : (iter f (q + 1) [97]).take (sp + 1) =
              (iter f (q + 1) [97]).take sp ++ [(iter f (q + 1) [97])[sp]'(by omega)] := by
            rw [List.take_add_one, List.getElem?_eq_getElem (by omega)]; rfl
          have htext' : text ++ f ((iter f (q + 1) [97])[sp]'(by omega)) =
              ((iter f (q + 1) [97]).take (sp + 1)).flatMap f := by
            rw [htake, List.flatMap_append, ← i6]; simp
          have hmono : (iter f (q + 1) [97]).length ≤ (iter f (rounds - 1) [97]).length :=
            (hf.prefix_le (by omega)).length_le
          by_cases hse : sp = e
          · have hfull : text ++ f ((iter f (q + 1) [97])[sp]'(by omega)) = iter f (q + 2) [97] := by
              rw [htext', List.take_of_length_le (by omega)]; rfl
            have hlt2 : (iter f (q + 1) [97]).length < (iter f (q + 2) [97]).length := hf.length_lt (q + 1)
            refine ⟨⟨iter f (q + 2) [97], q + 2, (iter f (q + 2) [97]).length - 1, sp + 1⟩, ?_,
              ⟨?_, ?_, ?_, ?_, ?_, ?_, ?_⟩, ?_⟩
            · simp only [morStep, rd_some hget, ok_bind]
              rw [if_pos hse, hfull, usub_ok (by omega), ok_bind]; rfl
            · simp only; omega
            · simp only; omega
            · simp only; omega
            · simp only [show q + 2 - 1 = q + 1 by omega]; omega
            · simp only; omega
            · simp only
              have : (iter f (q + 2) [97]).take (sp + 1) = iter f (q + 1) [97] := by
                have := hf.prefix (q + 1)
                rw [List.prefix_iff_eq_take] at this
                rw [show sp + 1 = (iter f (q + 1) [97]).length by omega]
                exact this.symm
              rw [this]; rfl
            · right; simp only [show q + 2 - 1 = q + 1 by omega]; omega
            · simp only; omega
          · refine ⟨⟨((iter f (q + 1) [97]).take (sp + 1)).flatMap f, q + 1, e, sp + 1⟩, ?_,
              ⟨?_, ?_, ?_, ?_, ?_, ?_, ?_⟩, ?_⟩
            · simp only [morStep, rd_some hget, ok_bind]
              rw [if_neg hse, htext']; rfl
            · simp only; omega
            · simp only; omega
            · simp only; omega
            · simp only [Nat.add_sub_cancel]; omega
            · simp only; omega
            · rfl
            · left; exact hlt
            · simp only; omega
        · left; simp [hlt, pure_ok])
    rw [h1, ok_bind, pure_ok]
    simp [pure_ok] at hc
    have hround : s.round = rounds := by omega
    rw [hround] at j6 j7 j4
    obtain ⟨q, rfl⟩ : ∃ q, rounds = q + 1 := ⟨rounds - 1, by omega⟩
    have j7' : s.sourcePos = (iter f q [97]).length := by
      rcases j7 with h | h
      · omega
      · exact h
    rw [j6, j7']
    have := hf.prefix q
    rw [List.prefix_iff_eq_take] at this
    rw [← this]; rfl

end Verif
