import Verif.Lemmas.Necklace
import Verif.Lemmas.WordMore
import Mathlib.Data.Finset.Card
import Mathlib.Combinatorics.Pigeonhole

/-! # `binary_debruijn_word` -/

namespace Verif
open Spec Model

/-- the answer of the necklace test for `rest b` -/
def nkb (rest : List UInt8) : Bool :=
  match isNecklace (rest ++ [98]) (rest ++ [98]).length with
  | .ok b => b
  | .error _ => false

/-- the letter appended by one round -/
def dbLetter (w : List UInt8) : UInt8 :=
  match w with
  | [] => 0
  | first :: rest => if nkb rest then (if first = 97 then 98 else 97) else first

/-- the register after one round -/
def dbNext (w : List UInt8) : List UInt8 := w.tail ++ [dbLetter w]

theorem debruijnStep_ok {w : List UInt8} (hw : w ≠ []) : debruijnStep w = .ok (dbLetter w, dbNext w) := by
  match w with
  | first :: rest =>
    obtain ⟨b, hb, _⟩ := isNecklace_ok (text := rest ++ [98]) (by simp)
    simp only [debruijnStep, dbNext, dbLetter, nkb, hb, ok_bind]
    rfl

/-- registers: words of length `n` over `a`, `b` -/
def Reg (n : Nat) (w : List UInt8) : Prop := w.length = n ∧ AB w

theorem dbNext_reg {n : Nat} (hn : 0 < n) {w : List UInt8} (h : Reg n w) : Reg n (dbNext w) := by
  obtain ⟨h1, h2⟩ := h
  match w with
  | [] => simp at h1; omega
  | c :: r =>
    refine ⟨by simpa [dbNext] using h1, ?_⟩
    intro d hd
    simp only [dbNext, List.tail_cons, List.mem_append, List.mem_singleton] at hd
    rcases hd with hd | rfl
    · exact h2 d (by simp [hd])
    · simp only [dbLetter]
      have hc := h2 c (by simp)
      split
      · split <;> simp
      · exact hc

theorem dbNext_inj {n : Nat} {w v : List UInt8} (hw : Reg n w) (hv : Reg n v) (h : dbNext w = dbNext v) : w = v := by
  obtain ⟨h1, h2⟩ := hw
  obtain ⟨h3, h4⟩ := hv
  match w, v with
  | [], [] => rfl
  | [], _ :: _ => simp at h1 h3; omega
  | _ :: _, [] => simp at h1 h3; omega
  | c :: r, d :: s =>
    simp only [dbNext, List.tail_cons] at h
    have hrs := List.append_inj h (by simp at h1 h3; omega)
    obtain ⟨rfl, h5⟩ := hrs
    simp only [dbLetter, List.cons.injEq, and_true] at h5
    have hc := h2 c (by simp)
    have hd := h4 d (by simp)
    congr 1
    by_cases hk : nkb r = true
    · rw [if_pos hk, if_pos hk] at h5
      rcases hc with rfl | rfl <;> rcases hd with rfl | rfl
      · rfl
      · exact absurd h5 (by decide)
      · exact absurd h5 (by decide)
      · rfl
    · rw [if_neg hk, if_neg hk] at h5
      exact h5

/-- all registers of length `n` -/
def allReg : Nat → List (List UInt8)
  | 0 => [[]]
  | n + 1 => (allReg n).map (97 :: ·) ++ (allReg n).map (98 :: ·)

theorem allReg_length (n : Nat) : (allReg n).length = 2 ^ n := by
  induction n with
  | zero => rfl
  | succ n ih => simp [allReg, ih, Nat.pow_succ]; omega

theorem mem_allReg {n : Nat} {w : List UInt8} : w ∈ allReg n ↔ Reg n w := by
  induction n generalizing w with
  | zero =>
    simp only [allReg, List.mem_singleton, Reg]
    constructor
    · rintro rfl; exact ⟨rfl, by simp [AB]⟩
    · rintro ⟨h, _⟩; exact List.length_eq_zero_iff.1 h
  | succ n ih =>
    simp only [allReg, List.mem_append, List.mem_map, ih, Reg]
    constructor
    · rintro (⟨v, ⟨h1, h2⟩, rfl⟩ | ⟨v, ⟨h1, h2⟩, rfl⟩)
      · exact ⟨by simp [h1], fun c hc => by rcases List.mem_cons.1 hc with rfl | hc; exacts [Or.inl rfl, h2 c hc]⟩
      · exact ⟨by simp [h1], fun c hc => by rcases List.mem_cons.1 hc with rfl | hc; exacts [Or.inr rfl, h2 c hc]⟩
    · rintro ⟨h1, h2⟩
      match w with
      | c :: v =>
        have hv : v.length = n ∧ AB v := ⟨by simpa using h1, fun d hd => h2 d (by simp [hd])⟩
        rcases h2 c (by simp) with rfl | rfl
        · exact Or.inl ⟨v, hv, rfl⟩
        · exact Or.inr ⟨v, hv, rfl⟩

/-- the register after `t` rounds -/
def reg (n : Nat) : Nat → List UInt8
  | 0 => List.replicate n 97
  | t + 1 => dbNext (reg n t)

theorem reg_reg {n : Nat} (hn : 0 < n) (t : Nat) : Reg n (reg n t) := by
  induction t with
  | zero => exact ⟨by simp [reg], fun c hc => Or.inl (List.eq_of_mem_replicate hc)⟩
  | succ t ih => exact dbNext_reg hn ih

theorem reg_cancel {n : Nat} (hn : 0 < n) {i d : Nat} (h : reg n (i + d) = reg n i) : reg n d = reg n 0 := by
  induction i with
  | zero => simpa using h
  | succ i ih =>
    apply ih
    refine dbNext_inj (reg_reg hn _) (reg_reg hn _) ?_
    rw [show i + 1 + d = (i + d) + 1 by omega] at h
    exact h

theorem exists_period {n : Nat} (hn : 0 < n) : ∃ P, 0 < P ∧ P ≤ 2 ^ n ∧ reg n P = reg n 0 := by
  have hcard : (allReg n).toFinset.card < (Finset.range (2 ^ n + 1)).card := by
    rw [Finset.card_range]
    exact Nat.lt_succ_of_le (le_trans (List.toFinset_card_le _) (allReg_length n).le)
  obtain ⟨i, hi, j, hj, hne, he⟩ := Finset.exists_ne_map_eq_of_card_lt_of_maps_to hcard
    (f := reg n) (fun t _ => by simpa using mem_allReg.2 (reg_reg hn t))
  simp only [Finset.mem_range] at hi hj
  rcases Nat.lt_or_gt_of_ne hne with h | h
  · refine ⟨j - i, by omega, by omega, reg_cancel hn (i := i) ?_⟩
    rw [show i + (j - i) = j by omega, he]
  · refine ⟨i - j, by omega, by omega, reg_cancel hn (i := j) ?_⟩
    rw [show j + (i - j) = i by omega, he]

/-- the least period -/
theorem exists_min_period {n : Nat} (hn : 0 < n) :
    ∃ P, 0 < P ∧ P ≤ 2 ^ n ∧ reg n P = reg n 0 ∧ ∀ t, 0 < t → t < P → reg n t ≠ reg n 0 := by
  classical
  have hex : ∃ P, 0 < P ∧ reg n P = reg n 0 := by
    obtain ⟨P, h1, _, h3⟩ := exists_period hn
    exact ⟨P, h1, h3⟩
  obtain ⟨P, h1, h2, h3⟩ := exists_period hn
  refine ⟨Nat.find hex, (Nat.find_spec hex).1, le_trans (Nat.find_min' hex ⟨h1, h3⟩) h2, (Nat.find_spec hex).2, ?_⟩
  intro t h0 ht he
  exact Nat.find_min hex ht ⟨h0, he⟩

theorem reg_distinct {n P : Nat} (hn : 0 < n) (hmin : ∀ t, 0 < t → t < P → reg n t ≠ reg n 0) {i j : Nat}
    (hi : i < P) (hj : j < P) (h : reg n i = reg n j) : i = j := by
  by_contra hne
  rcases Nat.lt_or_gt_of_ne hne with hlt | hlt
  · refine hmin (j - i) (by omega) (by omega) (reg_cancel hn (i := i) ?_)
    rw [show i + (j - i) = j by omega, h]
  · refine hmin (i - j) (by omega) (by omega) (reg_cancel hn (i := j) ?_)
    rw [show j + (i - j) = i by omega, h]

theorem debruijnDone_iff {n : Nat} {w : List UInt8} (h : Reg n w) :
    debruijnDone n w = true ↔ w = List.replicate n 97 := by
  obtain ⟨h1, h2⟩ := h
  unfold debruijnDone
  rw [List.take_of_length_le (by omega)]
  simp only [ne_eq, decide_not, Bool.and_eq_true, List.all_eq_true, Bool.not_eq_eq_eq_not, Bool.not_true,
    decide_eq_false_iff_not, decide_eq_true_eq, h1, le_refl, and_true]
  constructor
  · intro h
    rw [List.eq_replicate_iff]
    exact ⟨h1, fun c hc => (h2 c hc).resolve_right (h c hc)⟩
  · rintro rfl c hc
    rw [List.eq_of_mem_replicate hc]; decide

/-- the output letters -/
def dbOut (n P : Nat) : List UInt8 := (List.range P).map (fun t => dbLetter (reg n t))

theorem reg_ne_nil {n : Nat} (hn : 0 < n) (t : Nat) : reg n t ≠ [] := by
  have := (reg_reg hn t).1
  exact List.length_pos_iff.1 (by omega)

theorem debruijnLoop_ok {n P : Nat} (hn : 0 < n) (hP : reg n P = reg n 0)
    (hmin : ∀ t, 0 < t → t < P → reg n t ≠ reg n 0) (d : Nat) :
    ∀ t out fuel, t + d + 1 = P → d < fuel →
      debruijnLoop n fuel (reg n t) out = .ok (out ++ (List.range' t (d + 1)).map (fun t => dbLetter (reg n t))) := by
  induction d with
  | zero =>
    intro t out fuel ht hf
    obtain ⟨fuel, rfl⟩ : ∃ f, fuel = f + 1 := ⟨fuel - 1, by omega⟩
    rw [debruijnLoop, debruijnStep_ok (reg_ne_nil hn t), ok_bind]
    have hd : debruijnDone n (dbNext (reg n t)) = true := by
      rw [debruijnDone_iff (dbNext_reg hn (reg_reg hn t))]
      show reg n (t + 1) = reg n 0
      rw [show t + 1 = P by omega, hP]
    simp only [hd, if_true]
    rfl
  | succ d ih =>
    intro t out fuel ht hf
    obtain ⟨fuel, rfl⟩ : ∃ f, fuel = f + 1 := ⟨fuel - 1, by omega⟩
    rw [debruijnLoop, debruijnStep_ok (reg_ne_nil hn t), ok_bind]
    have hd : debruijnDone n (dbNext (reg n t)) = false := by
      rw [← Bool.not_eq_true, debruijnDone_iff (dbNext_reg hn (reg_reg hn t))]
      exact hmin (t + 1) (by omega) (by omega)
    simp only [hd]
    have := ih (t + 1) (out ++ [dbLetter (reg n t)]) fuel (by omega) (by omega)
    rw [reg] at this
    simp only [Bool.false_eq_true, if_false]
    rw [this, List.range'_succ (s := t) (n := d + 1)]
    simp

/-- The registers are the windows of `a^n` followed by the output. -/
theorem reg_window {n P : Nat} (hn : 0 < n) {t : Nat} (ht : t ≤ P) (m : Nat) (hm : m < n) :
    (reg n t)[m]? = if t + m < n then some 97 else (dbOut n P)[t + m - n]? := by
  induction t generalizing m with
  | zero => rw [if_pos (by omega), reg]; simp [hm]
  | succ t ih =>
    have hl := (reg_reg hn t).1
    rw [reg, dbNext]
    by_cases hml : m + 1 < n
    · rw [List.getElem?_append_left (by rw [List.length_tail]; omega), List.getElem?_tail, ih (by omega) _ hml]
      rw [show t + (m + 1) = t + 1 + m by omega]
    · rw [List.getElem?_append_right (by rw [List.length_tail]; omega), List.length_tail, hl,
        show m - (n - 1) = 0 by omega, if_neg (by omega), show t + 1 + m - n = t by omega, dbOut,
        List.getElem?_map, List.getElem?_range (by omega)]
      rfl

/-- The first round appends `b`. -/
theorem first_letter (n : Nat) : dbLetter (reg (n + 1) 0) = 98 := by
  have hnk : nkb (List.replicate n 97) = true := by
    unfold nkb
    obtain ⟨b, hb, h | h⟩ := isNecklace_ok (text := List.replicate n 97 ++ [98]) (by simp)
    · rw [hb]; exact h.1
    · exfalso
      obtain ⟨_, _, d, hm⟩ := h
      obtain ⟨i, h1, h2, h3, h4⟩ := mis_iff_index.1 hm
      rw [List.length_drop, List.length_append, List.length_replicate, List.length_singleton] at h1
      rw [List.length_append, List.length_replicate, List.length_singleton] at h2
      rw [List.getElem_drop] at h4
      by_cases hin : i < n
      · rw [List.getElem_append_left (as := List.replicate n 97) (i := i) (by simpa using hin), List.getElem_replicate] at h4
        have : ∀ c ∈ List.replicate n (97 : UInt8) ++ [98], ¬ c < 97 := by
          intro c hc
          rcases List.mem_append.1 hc with hc | hc
          · rw [List.eq_of_mem_replicate hc]; decide
          · rw [List.mem_singleton.1 hc]; decide
        exact this _ (List.getElem_mem _) h4
      · have hd0 : d = 0 := by omega
        subst hd0
        simp at h4
  rw [reg, List.replicate_succ, dbLetter, if_pos hnk, if_pos rfl]

theorem period_ge {n P : Nat} (hP0 : 0 < P) (hP : reg (n + 1) P = reg (n + 1) 0) : n + 2 ≤ P := by
  by_contra hlt
  have hw := reg_window (n := n + 1) (P := P) (by omega) (t := P) (le_refl _) (n + 1 - P) (by omega)
  rw [if_neg (by omega), hP, reg, show P + (n + 1 - P) - (n + 1) = 0 by omega, dbOut, List.getElem?_map,
    List.getElem?_range hP0] at hw
  rw [Option.map_some, first_letter, List.getElem?_replicate, if_pos (by omega)] at hw
  exact absurd hw (by decide)

/-- The cyclic windows of the output are the registers. -/
theorem cyclic_window {n P : Nat} (hn : 0 < n) (hnP : n ≤ P) (hP : reg n P = reg n 0) {i : Nat} (hi : i < P) :
    (rot i (dbOut n P)).take n = reg n ((i + n) % P) := by
  have hlen : (dbOut n P).length = P := by simp [dbOut]
  have hlast : ∀ q, q < n → (dbOut n P)[P - n + q]? = some 97 := by
    intro q hq
    have := reg_window hn (le_refl P) q hq
    rw [hP, reg, if_neg (by omega), List.getElem?_replicate, if_pos hq] at this
    rw [show P - n + q = P + q - n by omega]; exact this.symm
  apply List.ext_getElem?
  intro m
  by_cases hm : m < n
  · rw [List.getElem?_take_of_lt hm, rot_get (by omega) (by omega), hlen,
      reg_window hn (P := P) (Nat.mod_lt _ (by omega)).le m hm]
    by_cases hin : i + n < P
    · rw [Nat.mod_eq_of_lt hin, if_neg (by omega), Nat.mod_eq_of_lt (by omega)]
      congr 1; omega
    · have e : (i + n) % P = i + n - P := by
        rw [Nat.mod_eq_sub_mod (by omega), Nat.mod_eq_of_lt (by omega)]
      rw [e]
      by_cases hc : i + n - P + m < n
      · rw [if_pos hc, Nat.mod_eq_of_lt (by omega), show i + m = P - n + (i + n - P + m) by omega, hlast _ hc]
      · rw [if_neg hc, Nat.mod_eq_sub_mod (by omega), Nat.mod_eq_of_lt (by omega)]
        congr 1; omega
  · rw [List.getElem?_eq_none (by rw [List.length_take]; omega),
      List.getElem?_eq_none (by rw [(reg_reg hn _).1]; omega)]

theorem debruijn_ok' (k : Nat) :
    ∃ P, k + 2 ≤ P ∧ P ≤ 2 ^ (k + 1) ∧ (∀ fuel, P ≤ fuel → binaryDebruijnWord fuel k = .ok (dbOut (k + 1) P)) ∧
      (∀ i j, i < P → j < P → (rot i (dbOut (k + 1) P)).take (k + 1) = (rot j (dbOut (k + 1) P)).take (k + 1) → i = j) ∧
      reg (k + 1) P = reg (k + 1) 0 := by
  have hn : 0 < k + 1 := by omega
  obtain ⟨P, h1, h2, h3, h4⟩ := exists_min_period hn
  have hge := period_ge h1 h3
  refine ⟨P, hge, h2, ?_, ?_, h3⟩
  · intro fuel hf
    have := debruijnLoop_ok hn h3 h4 (P - 1) 0 [] fuel (by omega) (by omega)
    unfold binaryDebruijnWord
    rw [reg] at this
    rw [this, dbOut, List.range_eq_range', show P - 1 + 1 = P by omega]; rfl
  · intro i j hi hj h
    rw [cyclic_window hn (by omega) h3 hi, cyclic_window hn (by omega) h3 hj] at h
    have := reg_distinct hn h4 (Nat.mod_lt _ h1) (Nat.mod_lt _ h1) h
    by_cases hin : i + (k + 1) < P <;> by_cases hjn : j + (k + 1) < P
    · rw [Nat.mod_eq_of_lt hin, Nat.mod_eq_of_lt hjn] at this; omega
    · rw [Nat.mod_eq_of_lt hin, Nat.mod_eq_sub_mod (by omega), Nat.mod_eq_of_lt (by omega)] at this; omega
    · rw [Nat.mod_eq_sub_mod (by omega), Nat.mod_eq_of_lt (by omega), Nat.mod_eq_of_lt hjn] at this; omega
    · rw [Nat.mod_eq_sub_mod (by omega), Nat.mod_eq_of_lt (by omega), Nat.mod_eq_sub_mod (by omega),
        Nat.mod_eq_of_lt (by omega)] at this; omega

theorem debruijn_ok (k : Nat) :
    ∃ P, k + 2 ≤ P ∧ P ≤ 2 ^ (k + 1) ∧ (∀ fuel, P ≤ fuel → binaryDebruijnWord fuel k = .ok (dbOut (k + 1) P)) ∧
      ∀ i j, i < P → j < P → (rot i (dbOut (k + 1) P)).take (k + 1) = (rot j (dbOut (k + 1) P)).take (k + 1) → i = j := by
  obtain ⟨P, h1, h2, h3, h4, _⟩ := debruijn_ok' k
  exact ⟨P, h1, h2, h3, h4⟩

end Verif
