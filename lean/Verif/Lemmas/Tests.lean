import Verif.Model.Tests
import Verif.Lemmas.Generators2
import Verif.Lemmas.LyndonMore
import Verif.Lemmas.Lex
import Verif.Lemmas.Period
import Verif.Lemmas.Attractor

/-! # Lemmas about the programs of the unit tests -/

namespace Verif

open Spec Model

/-- A `for` loop without state passes iff every round does. -/
theorem forRange_unit {lo hi : Nat} {body : Nat → Unit → Res Unit} :
    forRange lo hi () body = .ok () ↔ ∀ i, lo ≤ i → i < hi → body i () = .ok () := by
  by_cases h : lo ≤ hi
  · obtain ⟨d, rfl⟩ := Nat.exists_eq_add_of_le h
    clear h
    induction d generalizing lo with
    | zero => exact ⟨fun _ i h1 h2 => by omega, fun _ => forRange_done (by omega) _ _⟩
    | succ d ih =>
      rw [forRange_step (by omega)]
      cases hb : body lo () with
      | error e =>
        rw [error_bind]
        refine ⟨fun h => (by cases h), fun h => ?_⟩
        have := h lo (le_refl _) (by omega)
        rw [hb] at this
        cases this
      | ok u =>
        rw [ok_bind, show lo + (d + 1) = (lo + 1) + d by omega, ih]
        constructor
        · intro h i h1 h2
          rcases Nat.eq_or_lt_of_le h1 with rfl | h1
          · exact hb
          · exact h i h1 h2
        · intro h i h1 h2
          exact h i (by omega) h2
  · refine ⟨fun _ i h1 h2 => by omega, fun _ => forRange_done (by omega) _ _⟩

theorem assertR_iff {b : Bool} : assertR b = .ok () ↔ b = true := by
  unfold assertR
  cases b <;> simp

theorem bind_unit_iff {α : Type} {x : Res α} : (x >>= fun _ => (pure () : Res Unit)) = .ok () ↔ ∃ r, x = .ok r := by
  cases x with
  | error e => simp
  | ok a => simp [pure_ok]

/-- The loop over the test strings passes iff the body passes on each of the `⌈bound/2⌉` strings. -/
theorem forTestStrings_iff {bound log : Nat} (hl1 : 1 ≤ log) (hl7 : log ≤ 7) (hb : bound < 18446744073709551615)
    (body : List UInt8 → Res Unit) :
    forTestStrings bound log body = .ok () ↔
      ∀ r, 1 ≤ r → r ≤ (bound + 1) / 2 → body (rsgText log r) = .ok () := by
  have main : ∀ (d a fuel : Nat), (bound + 1) / 2 - a = d → a * 2 < 18446744073709551616 → d < fuel →
      ((∃ g, loopR fuel (fun (g : RandomStringGenerator) => do
        let (o, g) ← g.next []
        match o with
        | none => pure (true, g)
        | some text => do
          body text
          pure (false, g)) ⟨a, bound, log⟩ = .ok g) ↔
      ∀ r, a + 1 ≤ r → r ≤ (bound + 1) / 2 → body (rsgText log r) = .ok ()) := by
    intro d
    induction d with
    | zero =>
      intro a fuel hd ha hf
      obtain ⟨f, rfl⟩ : ∃ f, fuel = f + 1 := ⟨fuel - 1, by omega⟩
      refine ⟨fun _ r h1 h2 => by omega, fun _ => ⟨⟨a, bound, log⟩, ?_⟩⟩
      rw [loopR]
      simp only [RandomStringGenerator.next]
      rw [if_neg (by omega), if_pos (by omega)]
      rfl
    | succ d ih =>
      intro a fuel hd ha hf
      obtain ⟨f, rfl⟩ : ∃ f, fuel = f + 1 := ⟨fuel - 1, by omega⟩
      rw [loopR]
      rw [rsg_next [] hl1 hl7 (by omega) (show a * 2 < bound by omega)]
      simp only [ok_bind]
      cases hbd : body (rsgText log (a + 1)) with
      | error e =>
        simp only [error_bind]
        refine ⟨fun ⟨g, h⟩ => (by cases h), fun h => ?_⟩
        have := h (a + 1) (le_refl _) (by omega)
        rw [hbd] at this
        cases this
      | ok u =>
        simp only [ok_bind, pure_bind', Bool.false_eq_true, if_false]
        rw [ih (a + 1) f (by omega) (by omega) (by omega)]
        constructor
        · intro h r h1 h2
          rcases Nat.eq_or_lt_of_le h1 with rfl | h1
          · exact hbd
          · exact h r h1 h2
        · intro h r h1 h2
          exact h r (by omega) h2
  have hm := main _ 0 (bound + 1) rfl (by omega) (by omega)
  rw [Nat.zero_add] at hm
  rw [← hm]
  unfold forTestStrings
  exact bind_unit_iff

theorem rsgText_facts {log r : Nat} (hl7 : log ≤ 7) (hr : r < 18446744073709551616) :
    rsgText log r ≠ [] ∧ (rsgText log r).length ≤ 64 ∧
      ∀ x ∈ (rsgText log r).take ((rsgText log r).length - 1), x ≠ 0 := by
  have hsz : Nat.size r ≤ 64 := Nat.size_le.2 (by omega)
  have hd : Nat.size r / log ≤ Nat.size r := Nat.div_le_self _ _
  obtain ⟨body, h1, h2⟩ := rsgText_letters (r := r) hl7
  have hlen : (rsgText log r).length = Nat.size r / log - 1 + 1 := by simp [rsgText]
  refine ⟨by simp [rsgText], ?_, ?_⟩
  · rcases Nat.eq_zero_or_pos (Nat.size r) with h | h
    · rw [hlen, h, Nat.zero_div]; omega
    · rw [hlen]; omega
  · rw [h1]
    intro x hx
    simp at hx
    intro h0
    have := (h2 x hx).1
    rw [h0] at this
    simp at this

/-! ### The oracles -/

/-- Comparing two words of the same length from position `i` on, as the innermost loop of
`test_lyndon_conjugate` does. -/
theorem scan_ok {u v : List UInt8} {n : Nat} (hu : u.length = n) (hv : v.length = n)
    {body : Nat → Res (Option Unit)}
    (hbody : ∀ i x y, u[i]? = some x → v[i]? = some y → body i =
      if x < y then .ok (some ()) else if x = y then .ok none else .error .assert) :
    ∀ d i, n - i = d → i ≤ n → ((∃ r, forFind i n body = .ok r) ↔ u.drop i ≤ v.drop i) := by
  intro d
  induction d with
  | zero =>
    intro i hd hi
    have : i = n := by omega
    subst this
    rw [forFind_done (le_refl _)]
    simp [List.drop_of_length_le hu.le, List.drop_of_length_le hv.le]
  | succ d ih =>
    intro i hd hi
    rw [forFind_step (by omega)]
    have h1 : u[i]? = some u[i] := List.getElem?_eq_getElem _
    have h2 : v[i]? = some v[i] := List.getElem?_eq_getElem _
    rw [hbody i _ _ h1 h2, List.drop_eq_getElem_cons (l := u) (by omega),
      List.drop_eq_getElem_cons (l := v) (by omega)]
    rcases lt_trichotomy u[i] v[i] with h | h | h
    · rw [if_pos h]
      refine ⟨fun _ => le_of_lt (cons_lt_cons.2 (Or.inl h)), fun _ => ⟨some (), rfl⟩⟩
    · rw [if_neg (by rw [h]; exact lt_irrefl _), if_pos h, ok_bind]
      simp only
      rw [ih (i + 1) (by omega) (by omega), h]
      rw [← not_lt, ← not_lt, not_iff_not, cons_lt_cons]
      simp
    · rw [if_neg (not_lt.2 h.le), if_neg (ne_of_gt h), error_bind]
      refine ⟨fun ⟨r, hr⟩ => (by cases hr), fun hle => ?_⟩
      exact absurd (cons_lt_cons.2 (Or.inl h)) (not_lt.2 hle)

theorem conjugateOracle_iff (text : List UInt8) (p : Nat) :
    conjugateOracle text p = .ok () ↔
      p < text.length ∧ ∀ q, q < text.length → rot p text ≤ rot q text := by
  unfold conjugateOracle
  simp only []
  by_cases hp : p < text.length
  · rw [show assertR (decide (p < text.length)) = .ok () by simp [assertR, hp]]
    simp only [ok_bind]
    rw [forRange_unit]
    have key : ∀ q, q < text.length → q ≠ p →
        ((∃ r, forFind 0 text.length (fun len => do
        let lchar ← rd text ((p + len) % text.length)
        let cchar ← rd text ((q + len) % text.length)
        if lchar < cchar then pure (some ())
        else do
          assertR (decide (lchar = cchar))
          pure none) = .ok r) ↔ rot p text ≤ rot q text) := by
      intro q hq _
      have := scan_ok (u := rot p text) (v := rot q text) (n := text.length) (by rw [rot_length]) (by rw [rot_length])
        (body := fun len => do
        let lchar ← rd text ((p + len) % text.length)
        let cchar ← rd text ((q + len) % text.length)
        if lchar < cchar then pure (some ())
        else do
          assertR (decide (lchar = cchar))
          pure none) (fun i x y hx hy => by
            have hi : i < text.length := by
              by_contra h
              rw [List.getElem?_eq_none (by rw [rot_length]; omega)] at hx
              cases hx
            rw [rot_get hp.le hi] at hx
            rw [rot_get hq.le hi] at hy
            rw [rd_some hx, rd_some hy]
            simp only [ok_bind]
            by_cases h1 : x < y
            · rw [if_pos h1, if_pos h1]; rfl
            · rw [if_neg h1, if_neg h1]
              by_cases h2 : x = y
              · rw [if_pos h2]; simp [assertR, h2, pure_ok]
              · rw [if_neg h2]; simp [assertR, h2]) _ 0 rfl (by omega)
      simpa using this
    constructor
    · intro h
      refine ⟨hp, fun q hq => ?_⟩
      by_cases hqp : q = p
      · rw [hqp]
      · have := h q (by omega) hq
        rw [if_neg hqp, bind_unit_iff] at this
        exact (key q hq hqp).1 this
    · rintro ⟨-, h⟩ q - hq
      by_cases hqp : q = p
      · rw [if_pos hqp]; rfl
      · rw [if_neg hqp, bind_unit_iff]
        exact (key q hq hqp).2 (h q hq)
  · rw [show assertR (decide (p < text.length)) = .error .assert by simp [assertR, hp]]
    simp [hp]

theorem periodOracle_iff (text : List UInt8) (p : Nat) :
    periodOracle text p = .ok () ↔ p ≤ text.length ∧ IsPeriod p text := by
  unfold periodOracle usub
  by_cases hp : p ≤ text.length
  · rw [if_pos hp, ok_bind, forRange_unit]
    refine ⟨fun h => ⟨hp, fun i hi => ?_⟩, fun ⟨_, h⟩ i _ hi => ?_⟩
    · have := h i (by omega) (by omega)
      rw [rd_ok (show i < text.length by omega), rd_ok (show i + p < text.length by omega)] at this
      simp only [ok_bind, assertR_iff, decide_eq_true_eq] at this
      rw [List.getElem?_eq_getElem (by omega), List.getElem?_eq_getElem (by omega), this]
    · have := h i (by omega)
      rw [List.getElem?_eq_getElem (by omega), List.getElem?_eq_getElem (by omega)] at this
      rw [rd_ok (show i < text.length by omega), rd_ok (show i + p < text.length by omega)]
      simp only [ok_bind, assertR_iff, decide_eq_true_eq]
      exact Option.some.inj this
  · rw [if_neg hp]
    simp [hp]

/-- One entry of the border array test: letters `0..b` against letters `i - b ..`. -/
theorem borderEntry_iff {text : List UInt8} {i b : Nat} (hi : i < text.length) :
    forRange 0 b () (fun x _ => do
      let c ← rd text x
      let d ← usub i b
      let y ← rd text (d + x)
      assertR (decide (c = y))) = .ok () ↔
      b ≤ i ∧ (text.take i).take b = (text.take i).drop (i - b) := by
  rw [forRange_unit]
  constructor
  · intro h
    have hb : b ≤ i := by
      by_contra hb
      have := h 0 (by omega) (by omega)
      rw [rd_ok (show 0 < text.length by omega)] at this
      rw [ok_bind, usub, if_neg hb] at this
      cases this
    refine ⟨hb, ?_⟩
    apply List.ext_getElem?
    intro x
    by_cases hx : x < b
    · have := h x (by omega) hx
      rw [rd_ok (show x < text.length by omega), usub_ok hb] at this
      simp only [ok_bind] at this
      rw [rd_ok (show i - b + x < text.length by omega)] at this
      simp only [ok_bind, assertR_iff, decide_eq_true_eq] at this
      rw [List.getElem?_take_of_lt hx, List.getElem?_drop, List.getElem?_take_of_lt (by omega),
        List.getElem?_take_of_lt (by omega), List.getElem?_eq_getElem (by omega),
        List.getElem?_eq_getElem (by omega), this]
    · rw [List.getElem?_eq_none (by simp; omega), List.getElem?_eq_none (by simp; omega)]
  · rintro ⟨hb, h⟩ x - hx
    have := congrArg (fun l => l[x]?) h
    beta_reduce at this
    rw [List.getElem?_take_of_lt hx, List.getElem?_drop, List.getElem?_take_of_lt (by omega),
        List.getElem?_take_of_lt (by omega), List.getElem?_eq_getElem (by omega),
        List.getElem?_eq_getElem (by omega)] at this
    rw [rd_ok (show x < text.length by omega), usub_ok hb]
    simp only [ok_bind]
    rw [rd_ok (show i - b + x < text.length by omega)]
    simp only [ok_bind, assertR_iff, decide_eq_true_eq]
    exact Option.some.inj this

theorem borderOracle_iff (text : List UInt8) (border : List Nat) :
    borderOracle text border = .ok () ↔ border[0]? = some 0 ∧ border[1]? = some 0 ∧
      ∀ i, 2 ≤ i → i < text.length → ∃ b, border[i]? = some b ∧ b ≤ i ∧
        (text.take i).take b = (text.take i).drop (i - b) := by
  unfold borderOracle
  have hz : ∀ {k : Nat} {f : Unit → Res Unit}, (rd border k >>= fun b => assertR (decide (b = 0)) >>= f) = .ok () ↔
      border[k]? = some 0 ∧ f () = .ok () := by
    intro k f
    unfold rd
    cases h : border[k]? with
    | none => simp
    | some b =>
      simp only [ok_bind]
      by_cases hb : b = 0
      · simp [assertR, hb]
      · simp [assertR, hb]
  rw [hz, hz, forRange_unit]
  refine and_congr_right fun _ => and_congr_right fun _ => ?_
  refine forall_congr' fun i => forall_congr' fun _ => forall_congr' fun hi => ?_
  unfold rd
  cases h : border[i]? with
  | none => simp
  | some b =>
    simp only [ok_bind]
    have := borderEntry_iff (b := b) hi
    unfold rd at this
    rw [this]
    simp

theorem debruijnOracle_iff (k : Nat) (word : List UInt8) (hab : ∀ c ∈ word, c < 128) :
    debruijnOracle k word = .ok () ↔ k ≤ word.length ∧
      ∀ i j, i < j → j + k < word.length → (word.drop i).take (k + 1) ≠ (word.drop j).take (k + 1) := by
  unfold debruijnOracle
  rw [if_neg (by rw [utf8Valid_ascii word hab]; simp)]
  unfold usub
  by_cases hk : k ≤ word.length
  · rw [if_pos hk, ok_bind, forRange_unit]
    have hpat : ∀ pos, utf8Valid ((word.drop pos).take (1 + k)) = true := fun pos =>
      utf8Valid_ascii _ (fun x hx => hab x (List.mem_of_mem_drop (List.mem_of_mem_take hx)))
    constructor
    · intro h
      refine ⟨hk, fun i j hij hj he => ?_⟩
      have := h i (by omega) (by omega)
      rw [if_neg (by omega)] at this
      simp only [hpat, Bool.true_eq_false, if_false, assertR_iff, Bool.not_eq_true', decide_eq_false_iff_not] at this
      apply this
      rw [Nat.add_comm 1 k, he]
      have h1 : word.drop j = (word.drop (i + 1)).drop (j - (i + 1)) := by
        rw [List.drop_drop]; congr 1; omega
      rw [h1]
      exact (List.take_prefix _ _).isInfix.trans (List.drop_suffix _ _).isInfix
    · rintro ⟨-, h⟩ pos - hpos
      rw [if_neg (by omega)]
      simp only [hpat, Bool.true_eq_false, if_false, assertR_iff, Bool.not_eq_true', decide_eq_false_iff_not]
      rintro ⟨s, t, hst⟩
      have hlen := congrArg List.length hst
      simp at hlen
      apply h pos (pos + 1 + s.length) (by omega) (by omega)
      have h2 : word.drop (pos + 1 + s.length) = (word.drop pos).take (1 + k) ++ t := by
        rw [← List.drop_drop, ← hst, List.append_assoc, List.drop_left]
      rw [h2, Nat.add_comm k 1, List.take_append_of_le_length (by simp; omega), List.take_take]
      simp
  · rw [if_neg hk]
    simp [hk]

end Verif
