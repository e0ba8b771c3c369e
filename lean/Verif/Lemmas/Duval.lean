import Verif.Lemmas.Lyndon
import Verif.Model.Core

/-! # Correctness of `duval` -/

namespace Verif

open Spec Model

variable {α : Type} [LinearOrder α]

/-- `fs` are the greedy factors of `text[..k]`, and any greedy factorization of the rest completes
them. -/
structure Cont (text : List α) (fs : List (List α)) (k : Nat) : Prop where
  split : text = fs.flatten ++ text.drop k
  len : k = fs.flatten.length
  cont : ∀ gs, Greedy gs (text.drop k) → Greedy (fs ++ gs) text

theorem Cont.init (text : List α) : Cont text [] 0 := ⟨by simp, by simp, by simp⟩

theorem Cont.push {text : List α} {fs : List (List α)} {k : Nat} (h : Cont text fs k) {u : List α}
    (hu : LongestLyndonPrefix u (text.drop k)) : Cont text (fs ++ [u]) (k + u.length) := by
  obtain ⟨v, hv⟩ := hu.2.1
  have hd : text.drop (k + u.length) = v := by rw [← List.drop_drop, ← hv]; simp
  refine ⟨?_, ?_, ?_⟩
  · conv_lhs => rw [h.split, ← hv]
    simp [hd]
  · simp [← h.len]
  · intro gs hgs
    rw [hd] at hgs
    have := h.cont (u :: gs) (by rw [← hv]; rw [← hv] at hu; exact Greedy.cons hu hgs)
    simpa using this

/-- Loop invariant of the inner `while`. -/
structure Scan (text : List α) (k i j : Nat) : Prop where
  hki : k ≤ i
  hij : i < j
  hjn : j ≤ text.length
  lyn : IsLyndon (((text.drop k).take (j - k)).take (j - i))
  pow : PPow (((text.drop k).take (j - k)).take (j - i)) ((text.drop k).take (j - k))

section
omit [LinearOrder α]
theorem slice_len {text : List α} {k j : Nat} (hj : j ≤ text.length) :
    ((text.drop k).take (j - k)).length = j - k := by
  rw [List.length_take, List.length_drop]; omega

theorem slice_get {text : List α} {k j m : Nat} (hm : m < j - k) :
    ((text.drop k).take (j - k))[m]? = text[k + m]? := by
  rw [List.getElem?_take_of_lt hm, List.getElem?_drop]

theorem slice_succ {text : List α} {k j : Nat} (hkj : k ≤ j) (hj : j < text.length) :
    (text.drop k).take (j + 1 - k) = (text.drop k).take (j - k) ++ [text[j]] := by
  rw [show j + 1 - k = (j - k) + 1 by omega, List.take_add_one, List.getElem?_drop,
    show k + (j - k) = j by omega, List.getElem?_eq_getElem hj]
  rfl
end

theorem Scan.init {text : List α} {k : Nat} (h : k < text.length) : Scan text k k (k + 1) := by
  have e : (text.drop k).take (k + 1 - k) = [text[k]] := by
    rw [slice_succ (le_refl _) h]; simp
  refine ⟨le_refl _, by omega, by omega, ?_, ?_⟩
  · rw [e]; simpa using isLyndon_singleton _
  · rw [e]; simpa using PPow.refl (by simp)

theorem Scan.ulen {text : List α} {k i j : Nat} (h : Scan text k i j) :
    (((text.drop k).take (j - k)).take (j - i)).length = j - i := by
  have := h.hki; have := h.hjn; have := h.hij
  rw [List.length_take, slice_len h.hjn]; omega

theorem Scan.letter {text : List α} {k i j : Nat} (h : Scan text k i j) :
    ((text.drop k).take (j - k))[((text.drop k).take (j - k)).length -
      (((text.drop k).take (j - k)).take (j - i)).length]? = text[i]? := by
  have := h.hki; have := h.hjn; have := h.hij
  rw [h.ulen, slice_len h.hjn, slice_get (by omega)]
  congr 1; omega

theorem duvalCond_eq {text : List α} {i j : Nat} (hj : j < text.length) (hi : i < text.length) :
    duvalCond text text.length (i, j) = .ok (decide (text[i] ≤ text[j])) := by
  simp only [duvalCond]
  rw [if_pos (by omega), rd_ok hi, rd_ok hj]
  rfl

theorem duvalCond_end {text : List α} {i : Nat} :
    duvalCond text text.length (i, text.length) = .ok false := by
  simp [duvalCond, pure_ok]

theorem Scan.step_eq {text : List α} {k i j : Nat} (h : Scan text k i j) (hj : j < text.length)
    (he : text[i]? = some text[j]) : Scan text k (i + 1) (j + 1) := by
  have h1 := h.hki; have h2 := h.hij
  have hul := h.ulen
  have hsl := slice_len (text := text) (k := k) h.hjn
  have e : ((text.drop k).take (j + 1 - k)).take (j + 1 - (i + 1)) =
      ((text.drop k).take (j - k)).take (j - i) := by
    rw [slice_succ (by omega) hj, List.take_append_of_le_length (by omega)]
    congr 1; omega
  refine ⟨by omega, by omega, by omega, ?_, ?_⟩
  · rw [e]; exact h.lyn
  · rw [e, slice_succ (by omega) hj]
    exact h.pow.push (by rw [h.letter, he])

theorem Scan.step_lt {text : List α} {k i j : Nat} (h : Scan text k i j) (hj : j < text.length)
    {a : α} (he : text[i]? = some a) (hlt : a < text[j]) : Scan text k k (j + 1) := by
  have h1 := h.hki; have h2 := h.hij
  have hl : IsLyndon ((text.drop k).take (j + 1 - k)) := by
    rw [slice_succ (by omega) hj]
    exact h.lyn.extend h.pow (by rw [h.letter, he]) hlt
  have e : ((text.drop k).take (j + 1 - k)).take (j + 1 - k) = (text.drop k).take (j + 1 - k) := by
    rw [List.take_take]; simp
  refine ⟨by omega, by omega, by omega, ?_, ?_⟩
  · rw [e]; exact hl
  · rw [e]; exact PPow.refl hl.1

/-- In a scanned block the first letter is not larger than any later letter. -/
theorem Scan.first_le {text : List α} {k i j : Nat} (h : Scan text k i j) (hk : k < text.length)
    (hi : i < text.length) : text[k] ≤ text[i] := by
  have h1 := h.hki; have h2 := h.hij; have h3 := h.hjn
  set x := (text.drop k).take (j - k) with hx
  set u := x.take (j - i) with hu
  have hul : u.length = j - i := h.ulen
  have hxl : x.length = j - k := slice_len h.hjn
  have hlet := h.letter
  rw [← hx, ← hu, h.pow.eq _ (by rw [← hx]; omega)] at hlet
  have hq := Nat.mod_lt (x.length - u.length) (show 0 < u.length by omega)
  generalize hqd : (x.length - u.length) % u.length = q at hlet hq
  have hu0 : u[0]? = text[k]? := by
    rw [hu, List.getElem?_take_of_lt (by omega), hx, slice_get (by omega)]; rfl
  rw [List.getElem?_eq_getElem hi] at hlet
  rw [List.getElem?_eq_getElem hk] at hu0
  by_cases hq0 : q = 0
  · subst hq0
    rw [hlet] at hu0; exact le_of_eq (by simpa using hu0.symm)
  · obtain ⟨p, a, b, u', v', e1, e2, hab⟩ := h.lyn.mis_drop (Nat.pos_of_ne_zero hq0) hq
    have d0 : (u.drop q)[0]? = some text[i] := by rw [List.getElem?_drop]; simpa using hlet
    rw [← hx, ← hu] at e1 e2
    cases p with
    | nil =>
      rw [e1] at hu0; rw [e2] at d0
      simp at hu0 d0; rw [← hu0, ← d0]; exact hab.le
    | cons c p =>
      rw [e1] at hu0; rw [e2] at d0
      simp at hu0 d0; rw [← hu0, ← d0]

theorem Scan.body {text : List α} {k i j : Nat} (h : Scan text k i j) (hj : j < text.length)
    (hi : i < text.length) (hle : text[i] ≤ text[j]) :
    ∃ i', duvalBody text k (i, j) = .ok (i', j + 1) ∧ Scan text k i' (j + 1) := by
  have h1 := h.hki; have h2 := h.hij
  have hk : k < text.length := by omega
  simp only [duvalBody]
  rw [rd_ok hi, rd_ok hj]
  simp only [ok_bind]
  rcases hle.lt_or_eq with hlt | heq
  · rw [if_pos hlt, rd_ok hk]
    simp only [ok_bind]
    have : ¬ text[k] = text[j] := ((h.first_le hk hi).trans_lt hlt).ne
    rw [if_neg this]
    exact ⟨k, rfl, h.step_lt hj (List.getElem?_eq_getElem hi) hlt⟩
  · rw [if_neg (by rw [heq]; exact lt_irrefl _), rd_ok hi]
    simp only [ok_bind]
    rw [if_pos heq]
    exact ⟨i + 1, rfl, h.step_eq hj (by rw [List.getElem?_eq_getElem hi, heq])⟩

/-- The inner loop of `duval` ends with a block that cannot be extended. -/
theorem duval_inner {text : List α} {k : Nat} (hk : k < text.length) :
    ∃ i j, whileLoop (text.length + 1) (duvalCond text text.length) (duvalBody text k) (k, k + 1)
      = .ok (i, j) ∧ Scan text k i j ∧
        (j = text.length ∨ ∃ (hj : j < text.length) (hi : i < text.length), text[j] < text[i]) := by
  obtain ⟨⟨i, j⟩, h1, h2, h3⟩ := whileLoop_inv (fun s : Nat × Nat => Scan text k s.1 s.2)
    (fun s => text.length - s.2) (fuel := text.length + 1) (cond := duvalCond text text.length)
    (body := duvalBody text k) (s := (k, k + 1)) (Scan.init hk) (by simp; omega) (by
      rintro ⟨i, j⟩ h
      dsimp only at h
      have := h.hjn; have := h.hij
      by_cases hj : j = text.length
      · subst hj; exact Or.inl duvalCond_end
      · have hj' : j < text.length := by omega
        have hi' : i < text.length := by omega
        rw [duvalCond_eq hj' hi']
        by_cases hle : text[i] ≤ text[j]
        · right
          refine ⟨by simp [hle], ?_⟩
          obtain ⟨i', hb, hs⟩ := h.body hj' hi' hle
          exact ⟨(i', j + 1), hb, hs, by simp only; omega⟩
        · left; simp [hle])
  refine ⟨i, j, h1, h2, ?_⟩
  dsimp only at h2
  have := h2.hjn; have := h2.hij
  by_cases hj : j = text.length
  · exact Or.inl hj
  · right
    refine ⟨by omega, by omega, ?_⟩
    rw [duvalCond_eq (by omega) (by omega)] at h3
    have h3 : decide (text[i] ≤ text[j]) = false := by injection h3
    simpa using h3

theorem exit_longest {text : List α} {k i j : Nat} (h : Scan text k i j)
    (he : j = text.length ∨ ∃ (hj : j < text.length) (hi : i < text.length), text[j] < text[i]) :
    LongestLyndonPrefix (((text.drop k).take (j - k)).take (j - i)) (text.drop k) := by
  have h1 := h.hki; have h2 := h.hij; have h3 := h.hjn
  have hsplit : text.drop k = (text.drop k).take (j - k) ++ text.drop j := by
    conv_lhs => rw [← List.take_append_drop (j - k) (text.drop k)]
    rw [List.drop_drop, show k + (j - k) = j by omega]
  conv => arg 2; rw [hsplit]
  apply longest_of_exit h.lyn h.pow
  rcases he with rfl | ⟨hj, hi, hlt⟩
  · left; simp
  · right
    exact ⟨text[i], text[j], text.drop (j + 1), by rw [h.letter, List.getElem?_eq_getElem hi],
      (List.getElem_cons_drop hj).symm, hlt⟩

theorem Scan.advance {text : List α} {k i j : Nat} (h : Scan text k i j)
    (hlt : k + (j - i) < i) : Scan text (k + (j - i)) i j := by
  have h1 := h.hki; have h2 := h.hij; have h3 := h.hjn
  have hul := h.ulen
  have hsl := slice_len (text := text) (k := k) h.hjn
  have e : (text.drop (k + (j - i))).take (j - (k + (j - i))) =
      ((text.drop k).take (j - k)).drop (j - i) := by
    rw [← List.drop_drop, List.drop_take]; congr 1; omega
  have hd := h.pow.drop (by omega)
  rw [h.ulen] at hd
  have hp : ((text.drop k).take (j - k)).take (j - i) =
      (((text.drop k).take (j - k)).drop (j - i)).take (j - i) := by
    have := List.prefix_iff_eq_take.1 hd.prefix
    rw [h.ulen] at this
    exact this
  refine ⟨by omega, h2, h3, ?_, ?_⟩
  · rw [e, ← hp]; exact h.lyn
  · rw [e, ← hp]; exact hd

/-- One turn of the outer loop. -/
theorem duvalOuter_ok {text : List α} {k : Nat} (hk : k < text.length) {fs : List (List α)}
    (hc : Cont text fs k) :
    ∃ k' fs', duvalOuter text (k, ends 0 fs) = .ok (k', ends 0 fs') ∧ Cont text fs' k' ∧ k < k' ∧
      k' ≤ text.length := by
  obtain ⟨i, j, hw, hs, he⟩ := duval_inner hk
  simp only [duvalOuter]
  rw [hw]
  simp only [ok_bind]
  obtain ⟨⟨k', out'⟩, h1, fs', h2, h3, h4, h5⟩ := loopR_inv
    (fun s : Nat × List Nat => ∃ fs', s.2 = ends 0 fs' ∧ Cont text fs' s.1 ∧ Scan text s.1 i j ∧
      k ≤ s.1)
    (fun s : Nat × List Nat => ∃ fs', s.2 = ends 0 fs' ∧ Cont text fs' s.1 ∧ k < s.1 ∧
      s.1 ≤ text.length)
    (fun s => text.length - s.1) (fuel := text.length + 1) (body := duvalEmit i j)
    (s := (k, ends 0 fs)) ⟨fs, rfl, hc, hs, le_refl _⟩ (by simp only; omega) (by
      rintro ⟨k1, out⟩ ⟨fs1, e1, e2, e3, e4⟩
      dsimp only at e1 e2 e3 e4
      have g1 := e3.hki; have g2 := e3.hij; have g3 := e3.hjn
      have hpush := e2.push (exit_longest e3 he)
      rw [e3.ulen] at hpush
      have hbody : duvalEmit i j (k1, out) =
          .ok (decide (k1 + (j - i) ≥ i), (k1 + (j - i),
            ends 0 (fs1 ++ [((text.drop k1).take (j - k1)).take (j - i)]))) := by
        simp only [duvalEmit, assertR]
        rw [if_pos (by simpa using g2), usub_ok (by omega)]
        simp only [ok_bind]
        rw [usub_ok (by omega)]
        simp only [ok_bind, pure_ok]
        rw [ends_append, ← e1]
        simp [ends, ← e2.len, e3.ulen]
      rw [hbody]
      by_cases hge : k1 + (j - i) ≥ i
      · left
        refine ⟨_, by rw [decide_eq_true hge], _, rfl, hpush, by dsimp only; omega, by dsimp only; omega⟩
      · right
        refine ⟨_, by rw [decide_eq_false hge], ⟨_, rfl, hpush, e3.advance (by omega), by dsimp only; omega⟩,
          by dsimp only; omega⟩)
  exact ⟨k', fs', by rw [h1]; simp at h2; rw [h2], h3, h4, h5⟩

/-- `duval` returns the end positions of the greedy factorization. -/
theorem duval_greedy (text : List α) :
    ∃ fs, duval text = .ok (ends 0 fs) ∧ Greedy fs text := by
  obtain ⟨⟨k, out⟩, h1, ⟨fs, h2, h3, h4⟩, h5⟩ := whileLoop_inv
    (fun s : Nat × List Nat => ∃ fs, s.2 = ends 0 fs ∧ Cont text fs s.1 ∧ s.1 ≤ text.length)
    (fun s => text.length - s.1) (fuel := text.length + 1)
    (cond := fun s : Nat × List Nat => pure (decide (s.1 < text.length)))
    (body := duvalOuter text) (s := (0, []))
    ⟨[], rfl, Cont.init text, by simp⟩ (by simp) (by
      rintro ⟨k, out⟩ ⟨fs, e1, e2, e3⟩
      dsimp only at e1 e2 e3 ⊢
      by_cases hk : k < text.length
      · right
        refine ⟨by simp [hk, pure_ok], ?_⟩
        obtain ⟨k', fs', g1, g2, g3, g4⟩ := duvalOuter_ok hk e2
        exact ⟨_, by rw [e1]; exact g1, ⟨fs', rfl, g2, g4⟩, by dsimp only; omega⟩
      · left; simp [hk, pure_ok])
  dsimp only at h2 h3 h4 h5
  have hk : k = text.length := by
    have h5 : decide (k < text.length) = false := by simpa [pure_ok] using h5
    simp at h5; omega
  subst hk
  refine ⟨fs, ?_, by simpa using h3.cont [] (by simpa using Greedy.nil)⟩
  simp only [duval]
  rw [h1]
  simp only [ok_bind, pure_ok]
  rw [h2]

/-- `duval` returns the end positions of the Lyndon factorization. -/
theorem duval_spec (text : List α) :
    ∃ fs, duval text = .ok (ends 0 fs) ∧ IsLyndonFactorization fs text := by
  obtain ⟨fs, h1, h2⟩ := duval_greedy text
  exact ⟨fs, h1, h2.isLyndonFactorization⟩

theorem duval_of_factorization {text : List α} {fs : List (List α)}
    (h : IsLyndonFactorization fs text) : duval text = .ok (ends 0 fs) := by
  obtain ⟨gs, h1, h2⟩ := duval_spec text
  rw [h1, h2.unique h]

theorem exists_factorization (text : List α) : ∃ fs, IsLyndonFactorization fs text := by
  obtain ⟨fs, _, h⟩ := duval_spec text
  exact ⟨fs, h⟩

theorem Spec.IsLyndonFactorization.pieces {text : List α} {fs : List (List α)}
    (h : IsLyndonFactorization fs text) : pieces text 0 (ends 0 fs) = fs :=
  pieces_ends text fs 0 (by simpa using h.1.symm) (fun f hf => (h.2.1 f hf).1)

end Verif
