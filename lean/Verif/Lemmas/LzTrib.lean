import Verif.Lemmas.LzWords
import Verif.Lemmas.WordMore

/-! # The number of Lempel-Ziv phrases of the tribonacci words -/

namespace Verif

open Spec Model

/-- Only the letters of the tribonacci words. -/
def ABC (w : List UInt8) : Prop := ∀ c ∈ w, c = 97 ∨ c = 98 ∨ c = 99

theorem ABC.img (w : List UInt8) : ABC (w.flatMap tribMor) := by
  intro c hc
  obtain ⟨d, -, h⟩ := List.mem_flatMap.1 hc
  unfold tribMor at h
  split at h
  · simp at h; rcases h with h | h <;> simp [h]
  · split at h <;> simp at h
    · rcases h with h | h <;> simp [h]
    · simp [h]

theorem tribWord_succ (n : Nat) : tribWord (n + 1) = (tribWord n).flatMap tribMor := by
  rw [tribWord_eq, tribWord_eq]; rfl

theorem tribWord_abc (n : Nat) : ABC (tribWord n) := by
  cases n with
  | zero => intro c hc; simp [tribWord] at hc; exact .inl hc
  | succ n => rw [tribWord_succ]; exact ABC.img _

theorem tribWord_prefix {m n : Nat} (h : m ≤ n) : tribWord m <+: tribWord n := by
  rw [tribWord_eq, tribWord_eq]; exact tribMor_prolongable.prefix_le h

theorem tribMor_head (d : UInt8) : ∃ r, tribMor d = 97 :: r ∧ 97 ∉ r := by
  unfold tribMor
  split
  · exact ⟨[98], rfl, by decide⟩
  · split
    · exact ⟨[99], rfl, by decide⟩
    · exact ⟨[], rfl, by decide⟩

/-- The letter `a` starts a block. -/
theorem trib_sync_left (w z r : List UInt8) (h : z ++ 97 :: r = w.flatMap tribMor) :
    ∃ z' w', w = z' ++ w' ∧ z = z'.flatMap tribMor ∧ 97 :: r = w'.flatMap tribMor := by
  induction w generalizing z with
  | nil => simp at h
  | cons d w ih =>
    obtain ⟨s, hs, hns⟩ := tribMor_head d
    cases z with
    | nil => exact ⟨[], d :: w, rfl, rfl, by simpa using h⟩
    | cons e z =>
      rw [List.flatMap_cons, hs] at h
      simp only [List.cons_append, List.cons.injEq] at h
      obtain ⟨rfl, h⟩ := h
      -- the `a` is not in the rest `s` of the first block
      have hle : s.length ≤ z.length := by
        by_contra hlt
        have h1 : (z ++ 97 :: r)[z.length]? = some 97 := by simp
        rw [h, List.getElem?_append_left (by omega)] at h1
        exact hns (List.mem_of_getElem? h1)
      have hz : s <+: z := by
        have h1 : s <+: z ++ 97 :: r := ⟨_, h.symm⟩
        exact List.prefix_of_prefix_length_le h1 (List.prefix_append _ _) hle
      obtain ⟨z1, rfl⟩ := hz
      rw [List.append_assoc, List.append_cancel_left_eq] at h
      obtain ⟨z', w', h1, h2, h3⟩ := ih z1 h
      refine ⟨d :: z', w', by rw [h1]; rfl, ?_, h3⟩
      rw [List.flatMap_cons, hs, h2]; rfl

/-- Blocks followed by an `a` are decoded uniquely. -/
theorem trib_sync_right (u w s : List UInt8) (hu : ABC u) (hw : ABC w)
    (h : u.flatMap tribMor ++ 97 :: s = w.flatMap tribMor) : u <+: w := by
  induction u generalizing w with
  | nil => exact List.nil_prefix
  | cons d u ih =>
    cases w with
    | nil => simp at h
    | cons e w =>
      have hu' : ABC u := fun c hc => hu c (List.mem_cons_of_mem _ hc)
      have hw' : ABC w := fun c hc => hw c (List.mem_cons_of_mem _ hc)
      have hstart : ∀ (v : List UInt8) (x : UInt8) (l : List UInt8), x :: l = v.flatMap tribMor → x = 97 := by
        intro v x l hv
        cases v with
        | nil => simp at hv
        | cons y v =>
          obtain ⟨s, hs, -⟩ := tribMor_head y
          rw [List.flatMap_cons, hs] at hv
          exact (List.cons.inj hv).1
      have hstart2 : ∀ (v : List UInt8) (x : UInt8) (l l' : List UInt8), v.flatMap tribMor ++ 97 :: l' = x :: l →
          x = 97 := by
        intro v x l l' hv
        cases v with
        | nil => simp at hv; exact hv.1.symm
        | cons y v =>
          obtain ⟨s, hs, -⟩ := tribMor_head y
          rw [List.flatMap_cons, hs] at hv
          exact (List.cons.inj hv).1.symm
      have hd := hu d List.mem_cons_self
      have he := hw e List.mem_cons_self
      rw [List.flatMap_cons, List.flatMap_cons] at h
      have step : d = e ∧ u.flatMap tribMor ++ 97 :: s = w.flatMap tribMor := by
        rcases hd with rfl | rfl | rfl <;> rcases he with rfl | rfl | rfl <;>
          simp [tribMor] at h
        · exact ⟨rfl, h⟩
        · exact absurd (hstart w _ _ h) (by decide)
        · exact ⟨rfl, h⟩
        · exact absurd (hstart w _ _ h) (by decide)
        · exact absurd (hstart2 u _ _ _ h) (by decide)
        · exact absurd (hstart2 u _ _ _ h) (by decide)
        · exact ⟨rfl, h⟩
      obtain ⟨rfl, h'⟩ := step
      exact (List.prefix_cons_inj d).2 (ih w hu' hw' h')

/-- `u` occurs behind `x` in the tribonacci words, and nowhere earlier. -/
def TribFirst (x u : List UInt8) : Prop :=
  (∃ n, x ++ u <+: tribWord n) ∧ ∀ n z, z ++ u <+: tribWord n → x <+: z

theorem TribFirst.step {x u : List UInt8} (hu : u ≠ []) (h : TribFirst x u) :
    TribFirst (x.flatMap tribMor) (u.flatMap tribMor ++ [97]) := by
  obtain ⟨⟨n, y, hn⟩, h2⟩ := h
  have habc : ABC u := fun c hc => tribWord_abc n c (by rw [← hn]; simp [hc])
  constructor
  · -- one more letter
    have hlt : (tribWord n).length < (tribWord (n + 1)).length := by
      rw [tribWord_eq, tribWord_eq]; exact tribMor_prolongable.length_lt n
    obtain ⟨r, hr⟩ := tribWord_prefix (Nat.le_succ n)
    have hr0 : y ++ r ≠ [] := by
      intro he
      have : r = [] := (List.append_eq_nil_iff.1 he).2
      rw [this, List.append_nil] at hr
      rw [← hr] at hlt
      exact Nat.lt_irrefl _ hlt
    obtain ⟨d, r', hd⟩ := List.exists_cons_of_ne_nil hr0
    obtain ⟨s, hs, -⟩ := tribMor_head d
    refine ⟨n + 2, s ++ r'.flatMap tribMor, ?_⟩
    rw [tribWord_succ, ← hr, ← hn, List.append_assoc (x ++ u), hd]
    simp [hs]
  · intro n z hz
    have hz' : z ++ (u.flatMap tribMor ++ [97]) <+: tribWord (n + 1) := hz.trans (tribWord_prefix (Nat.le_succ n))
    obtain ⟨s, hs⟩ := hz'
    rw [tribWord_succ] at hs
    obtain ⟨d, u', rfl⟩ := List.exists_cons_of_ne_nil hu
    obtain ⟨b, hb, -⟩ := tribMor_head d
    have hs' : z ++ 97 :: (b ++ u'.flatMap tribMor ++ [97] ++ s) = (tribWord n).flatMap tribMor := by
      rw [← hs]; simp [hb]
    obtain ⟨z', w', e1, e2, e3⟩ := trib_sync_left _ _ _ hs'
    have hp : d :: u' <+: w' := by
      refine trib_sync_right (d :: u') w' s habc (fun c hc => tribWord_abc n c (by rw [e1]; simp [hc])) ?_
      rw [← e3]; simp [hb]
    have hx := h2 n z' (by rw [e1]; exact (List.prefix_append_right_inj z').2 hp)
    rw [e2]
    exact flatMap_prefix hx

/-- The letters appended by the steps. -/
def tribTail : Nat → List UInt8
  | 0 => []
  | m + 1 => (tribTail m).flatMap tribMor ++ [97]

theorem tribFirst_all (m : Nat) :
    TribFirst (iter tribMor m [97, 98, 97, 99, 97, 98]) (iter tribMor m [97, 97] ++ tribTail m) := by
  induction m with
  | zero =>
    refine ⟨⟨4, by decide⟩, fun n z hz => ?_⟩
    simp only [iter, tribTail, List.append_nil] at hz ⊢
    -- `aa` is not a factor of the first seven letters
    have hz2 : z ++ [97, 97] <+: tribWord (n + 4) := hz.trans (tribWord_prefix (by omega))
    have h4 : tribWord 4 <+: tribWord (n + 4) := tribWord_prefix (by omega)
    have hlen : (6 : Nat) ≤ z.length := by
      by_contra hlt
      have hp : z ++ [97, 97] <+: tribWord 4 := by
        refine List.prefix_of_prefix_length_le hz2 h4 ?_
        have : (tribWord 4).length = 13 := by decide
        simp only [List.length_append, List.length_cons, List.length_nil]; omega
      obtain ⟨r, hr⟩ := hp
      have hdec : ∀ i, i < 6 → ¬ ((tribWord 4)[i]? = some 97 ∧ (tribWord 4)[i + 1]? = some 97) := by decide
      refine hdec z.length (by omega) ⟨?_, ?_⟩ <;> rw [← hr] <;> simp
    have hx : [97, 98, 97, 99, 97, 98] <+: tribWord (n + 4) := List.IsPrefix.trans (by decide) h4
    exact List.prefix_of_prefix_length_le hx ((List.prefix_append _ _).trans hz2) hlen
  | succ m ih =>
    have := ih.step (by
      have := iter_ne_nil tribMor_prolongable.nonerasing (w := [97, 97]) (by simp) m
      simp [this])
    rw [List.flatMap_append, List.append_assoc] at this
    exact this

theorem tribTail_length (m : Nat) : (tribTail m).length ≤ tribNum (m + 1) := by
  have tail : ∀ m, tribTail (m + 1) = iter tribMor m [97] ++ tribTail m := by
    intro m
    induction m with
    | zero => rfl
    | succ m ih =>
      show (tribTail (m + 1)).flatMap tribMor ++ [97] = _
      rw [ih, List.flatMap_append, List.append_assoc]
      congr 1
      
  induction m with
  | zero => decide
  | succ m ih =>
    rw [tail, List.length_append, ← tribWord_eq, tribWord_length]
    match m with
    | 0 => decide
    | m + 1 => 
      have : tribNum (m + 1 + 1 + 1) = tribNum (m + 2) + tribNum (m + 1) + tribNum m := rfl
      have : tribNum (m + 1 + 1) = tribNum (m + 2) := rfl
      omega

theorem trib_len (m : Nat) : tribNum (m + 1) ≤ (iter tribMor m [98, 97, 99]).length := by
  rw [show [98, 97, 99] = [98] ++ [97] ++ [(99 : UInt8)] from rfl, iter_append, iter_append, ← tribWord_length,
    tribWord_eq, iter_succ_singleton, show tribMor 97 = [97] ++ [98] from rfl, iter_append]
  simp only [List.length_append]
  omega

/-- The word `abacabaa...` in blocks. -/
theorem trib_blocks (m : Nat) :
    iter tribMor (m + 1) [97, 98, 97, 99, 97, 98] =
      iter tribMor m [97, 98, 97, 99, 97, 98] ++ iter tribMor m [97, 97] ++ iter tribMor m [98, 97, 99] ∧
    tribWord (m + 4) = iter tribMor (m + 1) [97, 98, 97, 99, 97, 98] ++ iter tribMor m [97, 98] := by
  constructor
  · rw [iter_succ', ← iter_append, ← iter_append]; rfl
  · rw [iter_succ', ← iter_append, tribWord_eq, show m + 4 = m + 1 + 1 + 1 + 1 from rfl, iter_succ', iter_succ',
      iter_succ', iter_succ']
    rfl

theorem trib_firstAt (m : Nat) : ∃ e,
    FirstAt (tribWord (m + 4)) (iter tribMor m [97, 98, 97, 99, 97, 98]).length e ∧
      e ≤ (iter tribMor (m + 1) [97, 98, 97, 99, 97, 98]).length := by
  have h := tribFirst_all m
  obtain ⟨b1, b2⟩ := trib_blocks m
  have l1 := tribTail_length m
  have l2 := trib_len m
  have l3 : 2 ≤ (iter tribMor m [97, 97]).length := by
    rw [show [97, 97] = [97] ++ [(97 : UInt8)] from rfl, iter_append, List.length_append]
    have := tribMor_prolongable.length_ge m
    omega
  have l4 := tribMor_prolongable.length_ge m
  have l5 : 1 ≤ (iter tribMor m [97, 98]).length := by
    have := iter_ne_nil tribMor_prolongable.nonerasing (w := [97, 98]) (by simp) m
    exact List.length_pos_iff.2 this
  generalize iter tribMor m [97, 98, 97, 99, 97, 98] = x at *
  generalize hu : iter tribMor m [97, 97] ++ tribTail m = u at h
  have hul : u.length = (iter tribMor m [97, 97]).length + (tribTail m).length := by rw [← hu]; simp
  generalize iter tribMor m [97, 97] = v at *
  have hlen : (x ++ u).length ≤ (iter tribMor (m + 1) [97, 98, 97, 99, 97, 98]).length := by
    rw [b1]; simp only [List.length_append]; omega
  have hlen2 : (x ++ u).length < (tribWord (m + 4)).length := by
    rw [b2]; simp only [List.length_append] at hlen ⊢; omega
  obtain ⟨⟨n, hn⟩, h2⟩ := h
  have hp : x ++ u <+: tribWord (m + 4) := by
    have c1 : x ++ u <+: tribWord (n + (m + 4)) := hn.trans (tribWord_prefix (by omega))
    exact List.prefix_of_prefix_length_le c1 (tribWord_prefix (by omega)) (by omega)
  refine ⟨x.length + u.length - 1, ?_, by simp only [List.length_append] at hlen; omega⟩
  obtain ⟨y, hy⟩ := hp
  rw [List.length_append] at hlen2
  refine ⟨by omega, by omega, fun j hj => ?_⟩
  by_contra hc
  push Not at hc
  have e : ((tribWord (m + 4)).drop j).take u.length = u := by
    apply List.ext_getElem?
    intro k
    by_cases hk : k < u.length
    · rw [List.getElem?_take_of_lt hk, List.getElem?_drop, hc k (by omega), ← hy,
        List.getElem?_append_left (by simp; omega), List.getElem?_append_right (by omega)]
      congr 1; omega
    · rw [List.getElem?_eq_none (by simp; omega), List.getElem?_eq_none (by omega)]
  have := (h2 (m + 4) ((tribWord (m + 4)).take j) ⟨((tribWord (m + 4)).drop j).drop u.length, by
    conv_lhs => enter [1, 2]; rw [← e]
    rw [List.append_assoc, List.take_append_drop, List.take_append_drop]⟩).length_le
  rw [List.length_take] at this
  omega

theorem trib_forced (m : Nat) : ∃ e, Forced (tribWord (m + 3)) (m + 4) e ∧
    e ≤ (iter tribMor m [97, 98, 97, 99, 97, 98]).length := by
  induction m with
  | zero =>
    refine ⟨4, ?_, by decide⟩
    have f : ∀ p, p < 4 → ∀ j, j < p → ∃ k, k ≤ p + 1 - p ∧ (tribWord 3)[j + k]? ≠ (tribWord 3)[p + k]? := by
      decide +kernel
    have g : ∀ p, p < 4 → FirstAt (tribWord 3) p (p + 1) := fun p hp =>
      ⟨by omega, by have : (tribWord 3).length = 7 := by decide
                    omega, f p hp⟩
    exact (((Forced.zero.succ (Nat.le_refl _) (g 0 (by omega))).succ (Nat.le_refl _) (g 1 (by omega))).succ
      (Nat.le_refl _) (g 2 (by omega))).succ (Nat.le_refl _) (g 3 (by omega))
  | succ m ih =>
    obtain ⟨e, h1, h2⟩ := ih
    obtain ⟨e', h3, h4⟩ := trib_firstAt m
    obtain ⟨r, hr⟩ := tribWord_prefix (show m + 3 ≤ m + 4 by omega)
    refine ⟨e', Forced.succ (e := e) ?_ h2 h3, h4⟩
    rw [← hr]
    exact h1.append r

theorem trib_parse (k : Nat) : ∃ ls, IsParse (tribWord (k + 2)) 0 ls ∧ ls.length = k + 4 := by
  induction k with
  | zero => exact ⟨List.replicate 4 1, isParse_singles _ _ _ (by decide), by simp⟩
  | succ k ih =>
    obtain ⟨ls, h1, h2⟩ := ih
    have e : tribWord (k + 1 + 2) = tribWord (k + 2) ++ (tribWord (k + 1) ++ tribWord k) := by
      rw [← List.append_assoc]; rfl
    -- the second and the third part are a prefix of the first
    have hp : ∃ y, [] ++ (tribWord (k + 1) ++ tribWord k) ++ y = tribWord (k + 2) := by
      match k with
      | 0 => exact ⟨[99], by decide⟩
      | k + 1 => exact ⟨tribWord k, by simp [tribWord]⟩
    obtain ⟨y, hy⟩ := hp
    refine ⟨ls ++ [(tribWord (k + 1) ++ tribWord k).length], ?_, by simp [h2]⟩
    rw [e]
    refine isParse_copy h1 hy ?_
    intro h
    have := (List.append_eq_nil_iff.1 h).2
    have h3 := tribMor_prolongable.length_ge k
    rw [← tribWord_eq, this] at h3
    simp at h3

end Verif
