import Verif.Lemmas.DeBruijn

/-! # `binary_debruijn_word` misses words for every even order from 4 on -/

namespace Verif
open Spec Model

/-- `(ba)^m` -/
def bas : Nat → List UInt8
  | 0 => []
  | m + 1 => 98 :: 97 :: bas m

theorem bas_snoc (m : Nat) : bas (m + 1) = bas m ++ [98, 97] := by
  induction m with
  | zero => rfl
  | succ m ih =>
    show 98 :: 97 :: bas (m + 1) = (98 :: 97 :: bas m) ++ [98, 97]
    rw [ih]; rfl

theorem bas_length (m : Nat) : (bas m).length = 2 * m := by
  induction m with
  | zero => rfl
  | succ m ih => simp [bas, ih]; omega

theorem bas_ab (m : Nat) : ∀ c ∈ bas m, c = 97 ∨ c = 98 := by
  induction m with
  | zero => simp [bas]
  | succ m ih => intro c hc; simp only [bas, List.mem_cons] at hc; rcases hc with h | h | h <;> simp_all

theorem nkb_true {r u : List UInt8} (hu : IsLyndon u) (h : PPow u (r ++ [98])) : nkb r = true := by
  obtain ⟨b, hb, h1 | h1⟩ := isNecklace_ok (text := r ++ [98]) (by simp)
  · rw [nkb, hb, h1.1]
  · exact absurd ⟨u, hu, h⟩ h1.2.1

theorem nkb_lyndon {r : List UInt8} (h : IsLyndon (r ++ [98])) : nkb r = true :=
  nkb_true h (PPow.refl (by simp))

theorem nkb_false {r : List UInt8} (d : Nat) (h : Mis ((r ++ [98]).drop d) (r ++ [98])) : nkb r = false := by
  obtain ⟨b, hb, h1 | h1⟩ := isNecklace_ok (text := r ++ [98]) (by simp)
  · exact absurd h (h1.2.2 d)
  · rw [nkb, hb, h1.1]

/-- a word that starts with `b` and contains an `a` is refused -/
theorem nkb_b {r : List UInt8} (h : 97 ∈ r) : nkb (98 :: r) = false := by
  obtain ⟨x, y, rfl⟩ := List.append_of_mem h
  refine nkb_false (x.length + 1) ⟨[], 97, 98, y ++ [98], x ++ 97 :: y ++ [98], ?_, by simp, by decide⟩
  simp

/-- a word that starts with `ab` and contains `aa` is refused -/
theorem nkb_ab {x y : List UInt8} : nkb (97 :: 98 :: (x ++ 97 :: 97 :: y)) = false := by
  refine nkb_false (x.length + 2) ⟨[97], 97, 98, y ++ [98], x ++ 97 :: 97 :: y ++ [98], ?_, by simp, by decide⟩
  simp

theorem lyndonAB : IsLyndon ([97, 98] : List UInt8) := by decide +kernel

theorem lyn1 (m : Nat) : IsLyndon (97 :: (bas m ++ [98, 98])) := by
  induction m with
  | zero => show IsLyndon ([97, 98, 98] : List UInt8); decide +kernel
  | succ m ih =>
    have h : ([97, 98] : List UInt8) < 97 :: (bas m ++ [98, 98]) := by
      rw [cons_lt_cons]; right; refine ⟨rfl, ?_⟩
      cases m with
      | zero => show ([98] : List UInt8) < [98, 98]; decide
      | succ m => rw [bas, List.cons_append, cons_lt_cons]; right; exact ⟨rfl, List.nil_lt_cons _ _⟩
    exact lyndonAB.append ih h

theorem lyn2 (m : Nat) : IsLyndon (97 :: 97 :: (bas m ++ [98])) := by
  induction m with
  | zero => show IsLyndon ([97, 97, 98] : List UInt8); decide +kernel
  | succ m ih =>
    have h : (97 :: 97 :: (bas m ++ [98])) < ([97, 98] : List UInt8) := by
      rw [cons_lt_cons]; right; refine ⟨rfl, ?_⟩
      rw [cons_lt_cons]; left; decide
    have := ih.append lyndonAB h
    rw [bas_snoc]
    simpa using this

theorem lyn3 (m : Nat) : IsLyndon (97 :: 97 :: 97 :: (bas m ++ [98, 98])) := by
  have h1 : IsLyndon (97 :: 97 :: (bas m ++ [98, 98])) :=
    (isLyndon_singleton (97 : UInt8)).append (lyn1 m) (by
      rw [cons_lt_cons]; right; refine ⟨rfl, ?_⟩
      cases m <;> exact List.nil_lt_cons _ _)
  exact (isLyndon_singleton (97 : UInt8)).append h1 (by
      rw [cons_lt_cons]; right; exact ⟨rfl, List.nil_lt_cons _ _⟩)

theorem ppow4 (m : Nat) : PPow (97 :: (bas m ++ [98, 98])) (97 :: (bas m ++ [98, 98]) ++ [97] ++ [98]) := by
  have h0 := PPow.refl (u := 97 :: (bas m ++ [98, 98])) (by simp)
  have h1 := h0.push (c := 97) (by simp)
  refine h1.push ?_
  have e : ∀ x : List UInt8, (x ++ [97]).length - x.length = 1 := fun x => by simp
  rw [e]
  cases m <;> rfl

theorem dbNext_flip {c : UInt8} {r : List UInt8} (h : nkb r = true) :
    dbNext (c :: r) = r ++ [if c = 97 then 98 else 97] := by simp [dbNext, dbLetter, h]

theorem dbNext_keep {c : UInt8} {r : List UInt8} (h : nkb r = false) : dbNext (c :: r) = r ++ [c] := by
  simp [dbNext, dbLetter, h]

/-- the registers on the second cycle for words of length `2 m + 5` -/
inductive OddCycle (m : Nat) : List UInt8 → Prop where
  | w1 : OddCycle m (97 :: 97 :: 97 :: bas (m + 1))
  | w2 : OddCycle m (97 :: 97 :: (bas (m + 1) ++ [98]))
  | w3 : OddCycle m (97 :: (bas (m + 1) ++ [98, 98]))
  | w4 : OddCycle m (bas (m + 1) ++ [98, 98, 97])
  | w5 : OddCycle m (97 :: (bas m ++ [98, 98, 97, 97]))
  | wb (p q : Nat) (h : p + q = m) : OddCycle m (bas p ++ 98 :: 98 :: 97 :: 97 :: 97 :: bas q)
  | wa (p q : Nat) (h : p + 1 + q = m) :
      OddCycle m (97 :: (bas p ++ 98 :: 98 :: 97 :: 97 :: 97 :: (bas q ++ [98])))
  | w6 : OddCycle m (98 :: 97 :: 97 :: 97 :: (bas m ++ [98]))

theorem OddCycle.has_b {m : Nat} {w : List UInt8} (h : OddCycle m w) : 98 ∈ w := by
  cases h <;> simp [bas]

theorem OddCycle.reg {m : Nat} {w : List UInt8} (h : OddCycle m w) : Reg (2 * m + 5) w := by
  have hb := bas_ab
  cases h <;> refine ⟨by simp [bas_length]; try omega, ?_⟩ <;>
  · intro c hc
    simp only [List.mem_cons, List.mem_append, List.not_mem_nil, or_false] at hc
    have h1 := bas_ab m c
    have h2 := bas_ab (m + 1) c
    grind

theorem OddCycle.pred {m : Nat} {w : List UInt8} (h : OddCycle m w) : ∃ v, OddCycle m v ∧ dbNext v = w := by
  cases h with
  | w1 =>
    refine ⟨_, .w6, ?_⟩
    have : nkb (97 :: 97 :: 97 :: (bas m ++ [98])) = true := nkb_lyndon (by simpa using lyn3 m)
    rw [dbNext_flip this, bas_snoc]; simp
  | w2 =>
    refine ⟨_, .w1, ?_⟩
    have : nkb (97 :: 97 :: bas (m + 1)) = true := nkb_lyndon (lyn2 (m + 1))
    rw [dbNext_flip this]; simp
  | w3 =>
    refine ⟨_, .w2, ?_⟩
    have : nkb (97 :: (bas (m + 1) ++ [98])) = true := nkb_lyndon (by simpa using lyn1 (m + 1))
    rw [dbNext_flip this]; simp
  | w4 =>
    refine ⟨_, .w3, ?_⟩
    have : nkb (bas (m + 1) ++ [98, 98]) = false := nkb_b (by simp)
    rw [dbNext_keep this]; simp
  | w5 =>
    refine ⟨_, .w4, ?_⟩
    have : nkb (97 :: (bas m ++ [98, 98, 97])) = true := nkb_true (lyn1 m) (by simpa using ppow4 m)
    show dbNext (98 :: (97 :: (bas m ++ [98, 98, 97]))) = _
    rw [dbNext_flip this]; simp
  | wb p q h =>
    match q with
    | 0 =>
      obtain rfl : p = m := by omega
      refine ⟨_, .w5, ?_⟩
      have : nkb (bas p ++ [98, 98, 97, 97]) = false := by
        cases p with
        | zero => exact nkb_b (by simp)
        | succ p => exact nkb_b (by simp)
      rw [dbNext_keep this]; simp [bas]
    | q + 1 =>
      refine ⟨_, .wa p q (by omega), ?_⟩
      have : nkb (bas p ++ 98 :: 98 :: 97 :: 97 :: 97 :: (bas q ++ [98])) = false := by
        cases p with
        | zero => exact nkb_b (by simp)
        | succ p => exact nkb_b (by simp)
      rw [dbNext_keep this, bas_snoc]; simp
  | wa p q h =>
    refine ⟨_, .wb (p + 1) q h, ?_⟩
    have : nkb (97 :: (bas p ++ 98 :: 98 :: 97 :: 97 :: 97 :: bas q)) = false := by
      cases p with
      | zero => exact nkb_ab (x := [98]) (y := 97 :: bas q)
      | succ p =>
        have := nkb_ab (x := 97 :: (bas p ++ [98, 98])) (y := 97 :: bas q)
        simpa [bas] using this
    show dbNext (98 :: (97 :: (bas p ++ 98 :: 98 :: 97 :: 97 :: 97 :: bas q))) = _
    rw [dbNext_keep this]; simp
  | w6 =>
    refine ⟨_, .wb 0 m (by omega), ?_⟩
    have : nkb (98 :: 97 :: 97 :: 97 :: bas m) = false := nkb_b (by simp)
    show dbNext (98 :: (98 :: 97 :: 97 :: 97 :: bas m)) = _
    rw [dbNext_keep this]; simp

theorem not_oddCycle (m t : Nat) : ¬ OddCycle m (reg (2 * m + 5) t) := by
  induction t with
  | zero =>
    intro h
    have := h.has_b
    simp [reg] at this
  | succ t ih =>
    intro h
    obtain ⟨v, hv, e⟩ := h.pred
    have : v = reg (2 * m + 5) t := dbNext_inj hv.reg (reg_reg (by omega) t) e
    exact ih (this ▸ hv)

end Verif
