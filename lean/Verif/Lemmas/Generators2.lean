import Verif.Lemmas.Generators
import Verif.Lemmas.Mtf
import Mathlib.Data.Nat.Size
import Mathlib.Data.Finset.Card
import Mathlib.Tactic.IntervalCases

/-! # Conjugates, test strings, the `lyndonwords` and `randomstring` binaries -/

namespace Verif
open Model

/-! ### bit_size -/

theorem leadingZeros_aux (m i : Nat) (h : i < 2 ^ m) :
    ((List.range m).reverse.takeWhile (fun b => !i.testBit b)).length = m - Nat.size i := by
  induction m with
  | zero => simp
  | succ m ih =>
    rw [List.range_succ, List.reverse_append, List.reverse_singleton, List.singleton_append,
      List.takeWhile_cons]
    rw [Nat.testBit_eq_decide_div_mod_eq]
    have h2 : i / 2 ^ m < 2 := Nat.div_lt_of_lt_mul (by rw [← Nat.pow_succ]; exact h)
    by_cases hlt : i < 2 ^ m
    · rw [Nat.div_eq_of_lt hlt]
      simp only [Nat.zero_mod, Nat.zero_ne_one, decide_false, Bool.not_false, if_true, List.length_cons]
      rw [ih hlt]
      have := Nat.size_le.2 hlt
      omega
    · have h1 : 0 < i / 2 ^ m := Nat.div_pos (by omega) (Nat.two_pow_pos m)
      rw [show i / 2 ^ m = 1 by omega]
      have h3 : ¬ Nat.size i ≤ m := fun h => hlt (Nat.size_le.1 h)
      have h4 := Nat.size_le.2 h
      simp
      omega

theorem bitSize_eq {i : Nat} (h : i < 18446744073709551616) : bitSize i = Nat.size i := by
  unfold bitSize leadingZeros64
  rw [leadingZeros_aux 64 i (by simpa using h)]
  have := Nat.size_le.2 (show i < 2 ^ 64 by simpa using h)
  omega

/-! ### test strings -/

/-- The text of round `r` (letters: the base-`2^l` digits of `r` without the least and the most
significant one, plus one; then a zero byte). -/
def rsgText (l r : Nat) : List UInt8 :=
  (List.range' 1 (Nat.size r / l - 1)).map (fun i => UInt8.ofNat (r / 2 ^ (l * i) % 2 ^ l + 1)) ++ [0]

theorem rsg_next (rnd : List UInt8) {a b l : Nat} (hl1 : 1 ≤ l) (hl7 : l ≤ 7)
    (hb : b < 18446744073709551616) (ha : a * 2 < b) :
    (⟨a, b, l⟩ : RandomStringGenerator).next rnd = .ok (some (rsgText l (a + 1)), ⟨a + 1, b, l⟩) := by
  have hsz : Nat.size (a + 1) ≤ 64 := Nat.size_le.2 (by omega)
  unfold RandomStringGenerator.next
  rw [if_neg (by simp only; omega), if_neg (by simp only; omega), if_neg (by simp only; omega)]
  simp only [usub_ok (show l ≤ 64 by omega), ok_bind]
  rw [if_neg (show ¬ 64 - l ≥ 64 by omega), if_neg (show ¬ l = 0 by omega),
    bitSize_eq (show a + 1 < 18446744073709551616 by omega)]
  rw [forRange_push (g := fun i => UInt8.ofNat ((a + 1) / 2 ^ (l * i) % 2 ^ l + 1))]
  · simp [pure_ok, rsgText]
  · intro i w hi1 hi2
    have h3 : l * (i + 1) ≤ Nat.size (a + 1) :=
      (Nat.mul_le_mul_left l hi2).trans (Nat.mul_div_le _ _)
    have h4 : i ≤ l * i := Nat.le_mul_of_pos_left _ hl1
    have h5 : l * (i + 1) = l * i + l := by rw [Nat.mul_add, Nat.mul_one]
    have hi : i % 256 = i := Nat.mod_eq_of_lt (by omega)
    have hmask : (18446744073709551615 >>> (64 - l)) = 2 ^ l - 1 := by
      interval_cases l <;> rfl
    simp only [rsgLetter, hi]
    rw [if_pos (by omega), ok_bind, pure_ok, Nat.shiftRight_eq_div_pow, hmask, Nat.and_two_pow_sub_one_eq_mod]

theorem rsg_runIter (rnd : List UInt8) {b l : Nat} (hl1 : 1 ≤ l) (hl7 : l ≤ 7)
    (hb : b < 18446744073709551615) (k a : Nat) (ha : a * 2 < 18446744073709551616) :
    runIter (RandomStringGenerator.next rnd) k ⟨a, b, l⟩ =
      .ok (((List.range' (a + 1) ((b + 1) / 2 - a)).map (fun r => some (rsgText l r)) ++
        List.replicate k none).take k) := by
  induction k generalizing a with
  | zero => simp [runIter]
  | succ k ih =>
    by_cases hlt : a * 2 < b
    · simp only [runIter, rsg_next rnd hl1 hl7 (show b < 18446744073709551616 by omega) hlt, ok_bind]
      rw [show (b + 1) / 2 - a = ((b + 1) / 2 - (a + 1)) + 1 by omega, List.range'_succ, List.map_cons,
        take_cons_none]
      rcases Nat.lt_or_ge ((a + 1) * 2) 18446744073709551616 with h | h
      · rw [ih (a + 1) h, ok_bind, pure_ok]
      · omega
    · have hn : ∀ k, runIter (RandomStringGenerator.next rnd) k ⟨a, b, l⟩ =
          .ok (List.replicate k none) := by
        intro k
        induction k with
        | zero => rfl
        | succ k ih =>
          have : (⟨a, b, l⟩ : RandomStringGenerator).next rnd = .ok (none, ⟨a, b, l⟩) := by
            unfold RandomStringGenerator.next
            rw [if_neg (by simp only; omega), if_pos (by simp only; omega)]; rfl
          simp only [runIter, this, ok_bind, ih, pure_ok, List.replicate_succ]
      rw [hn, show (b + 1) / 2 - a = 0 by omega]
      simp

theorem rsgText_letters {l r : Nat} (hl7 : l ≤ 7) :
    ∃ body, rsgText l r = body ++ [0] ∧ ∀ c ∈ body, 1 ≤ c.toNat ∧ c.toNat ≤ 2 ^ l := by
  refine ⟨_, rfl, ?_⟩
  intro c hc
  rw [List.mem_map] at hc
  obtain ⟨i, _, rfl⟩ := hc
  have h1 : r / 2 ^ (l * i) % 2 ^ l < 2 ^ l := Nat.mod_lt _ (Nat.two_pow_pos l)
  have h2 : 2 ^ l ≤ 2 ^ 7 := Nat.pow_le_pow_right (by omega) hl7
  rw [UInt8.toNat_ofNat', Nat.mod_eq_of_lt (by simp at h2 ⊢; omega)]
  omega

/-! ### conjugates -/

theorem conj_next {α : Type} {t : List α} {p : Nat} (hp : p < t.length) :
    (⟨t, p⟩ : ConjugateIterator α).next = .ok (some (Spec.rot p t), ⟨t, p + 1⟩) := by
  have get : ∀ i, i < t.length → ∃ x, t[i]? = some x := fun i hi => ⟨_, List.getElem?_eq_getElem hi⟩
  obtain ⟨d, hd⟩ := get p hp
  unfold ConjugateIterator.next
  rw [if_neg (by simp only; omega)]
  rw [forRange_push (g := fun i => (t[i]?).getD d), ok_bind,
    forRange_push (g := fun i => (t[i]?).getD d), ok_bind, pure_ok]
  · congr 3
    simp only [Spec.rot, List.nil_append, Nat.sub_zero]
    congr 1
    · apply List.ext_getElem?
      intro i
      rw [List.getElem?_map, List.getElem?_drop]
      by_cases hi : i < t.length - p
      · rw [List.getElem?_eq_getElem (by simp; omega)]
        obtain ⟨x, hx⟩ := get (p + i) (by omega)
        simp [hx]
      · rw [List.getElem?_eq_none (by simp; omega), List.getElem?_eq_none (by omega)]; rfl
    · apply List.ext_getElem?
      intro i
      rw [List.getElem?_map]
      by_cases hi : i < p
      · rw [List.getElem?_eq_getElem (by simp; omega), List.getElem?_take_of_lt hi]
        obtain ⟨x, hx⟩ := get i (by omega)
        simp [hx]
      · rw [List.getElem?_eq_none (by simp; omega), List.getElem?_eq_none (by simp; omega)]; rfl
  · intro i w _ hi
    obtain ⟨x, hx⟩ := get i (by simp only at hi; omega)
    simp [rd_some hx, hx, pure_ok]
  · intro i w _ hi
    obtain ⟨x, hx⟩ := get i (by simpa using hi)
    simp [rd_some hx, hx, pure_ok]

theorem conj_runIter {α : Type} (t : List α) (k p : Nat) (hp : p ≤ t.length) :
    runIter ConjugateIterator.next k (⟨t, p⟩ : ConjugateIterator α) =
      .ok (((List.range' p (t.length - p)).map (fun i => some (Spec.rot i t)) ++
        List.replicate k none).take k) := by
  induction k generalizing p with
  | zero => simp [runIter]
  | succ k ih =>
    by_cases h : p < t.length
    · simp only [runIter, conj_next h, ok_bind, ih (p + 1) (by omega), pure_ok]
      rw [show t.length - p = (t.length - (p + 1)) + 1 by omega, List.range'_succ, List.map_cons,
        take_cons_none]
    · have he : p = t.length := by omega
      have hn : ∀ k, runIter ConjugateIterator.next k (⟨t, p⟩ : ConjugateIterator α) =
          .ok (List.replicate k none) := by
        intro k
        induction k with
        | zero => rfl
        | succ k ih =>
          have : (⟨t, p⟩ : ConjugateIterator α).next = .ok (none, ⟨t, p⟩) := by
            unfold ConjugateIterator.next
            rw [if_pos (by simp only; omega)]; rfl
          simp only [runIter, this, ok_bind, ih, pure_ok, List.replicate_succ]
      rw [hn, show t.length - p = 0 by omega]
      simp

/-! ### lyndonwords -/

theorem lyndonLine_ok {w : List Nat} (hw : Over 159 w) : lyndonLine w = .ok (letters w) := by
  unfold lyndonLine
  induction w with
  | nil => rfl
  | cons c w ih =>
    have hc : c < 159 := hw c (by simp)
    rw [List.mapM_cons, if_pos (by omega), ok_bind, ih (fun d hd => hw d (by simp [hd])), ok_bind, pure_ok]
    simp [letters, Nat.add_comm]

theorem lyndonLine_err {w : List Nat} (hw : ¬ Over 159 w) : lyndonLine w = .error .arith := by
  unfold lyndonLine
  induction w with
  | nil => exact absurd (fun c hc => by simp at hc) hw
  | cons c w ih =>
    rw [List.mapM_cons]
    by_cases hc : c + 97 < 256
    · rw [if_pos hc, ok_bind, ih]
      · rfl
      · intro h
        apply hw
        intro d hd
        rcases List.mem_cons.1 hd with rfl | hd
        · omega
        · exact h d hd
    · rw [if_neg hc]; rfl

theorem lyndonwords_loop (ws : List (List Nat)) (hws : ∀ w ∈ ws, Over 159 w) (g : LyndonWordGenerator)
    (h : ∀ k, runIter LyndonWordGenerator.next k g = .ok ((ws.map some ++ List.replicate k none).take k))
    (fuel : Nat) (hf : ws.length < fuel) :
    lyndonwordsLoop fuel g = (ws.flatMap (fun w => letters w ++ [10]), .ok ()) := by
  induction ws generalizing g fuel with
  | nil =>
    obtain ⟨fuel, rfl⟩ : ∃ f, fuel = f + 1 := ⟨fuel - 1, by simp at hf; omega⟩
    have h1 := h 1
    simp only [runIter] at h1
    unfold lyndonwordsLoop
    cases hg : g.next with
    | error e => rw [hg] at h1; simp at h1
    | ok p =>
      obtain ⟨o, g'⟩ := p
      rw [hg] at h1
      simp [pure_ok] at h1
      subst h1
      rfl
  | cons w ws ih =>
    obtain ⟨fuel, rfl⟩ : ∃ f, fuel = f + 1 := ⟨fuel - 1, by simp at hf; omega⟩
    have hk : ∀ k, runIter LyndonWordGenerator.next (k + 1) g =
        .ok (some w :: (ws.map some ++ List.replicate k none).take k) := by
      intro k; rw [h (k + 1), List.map_cons, take_cons_none]
    simp only [runIter] at hk
    unfold lyndonwordsLoop
    cases hg : g.next with
    | error e => have := hk 0; rw [hg] at this; simp at this
    | ok p =>
      obtain ⟨o, g'⟩ := p
      rw [hg] at hk
      simp only [ok_bind] at hk
      have h0 := hk 0
      simp [runIter, pure_ok] at h0
      subst h0
      have hg' : ∀ k, runIter LyndonWordGenerator.next k g' =
          .ok ((ws.map some ++ List.replicate k none).take k) := by
        intro k
        have := hk k
        cases hr : runIter LyndonWordGenerator.next k g' with
        | error e => rw [hr] at this; simp at this
        | ok os => rw [hr] at this; simp [pure_ok] at this; rw [this]
      simp only [lyndonLine_ok (hws w (by simp))]
      rw [ih (fun v hv => hws v (by simp [hv])) g' hg' fuel (by simpa using hf)]
      simp [emit]

/-! ### randomstring -/

theorem resample_ok {charset rng : List UInt8} {c : UInt8} {c' : UInt8} {rng' : List UInt8}
    (h : resample charset c rng = some (c', rng')) :
    c' ∈ charset ∧ c' ∈ c :: rng ∧ (∀ d ∈ rng', d ∈ rng) := by
  induction rng generalizing c with
  | nil =>
    simp only [resample] at h
    split at h
    · injection h with h; injection h with h1 h2; subst h1; subst h2
      exact ⟨by simpa using ‹charset.contains c = true›, by simp, by simp⟩
    · simp at h
  | cons d rng ih =>
    simp only [resample] at h
    split at h
    · injection h with h; injection h with h1 h2; subst h1; subst h2
      exact ⟨by simpa using ‹charset.contains c = true›, by simp, by simp⟩
    · obtain ⟨h1, h2, h3⟩ := ih h
      exact ⟨h1, by simp at h2 ⊢; tauto, fun e he => by simp [h3 e he]⟩

theorem randomstring_ok (a : Nat) (k : Nat) (charset rng out : List UInt8) (hnd : charset.Nodup)
    (hlen : a ≠ 0 → charset.length ≤ a)
    (h : randomstringLoop a k charset rng = some out) :
    out.length = k ∧ (∀ c ∈ out, c ∈ rng) ∧
    ∃ cs : List UInt8, cs.Nodup ∧ (∀ c ∈ charset, c ∈ cs) ∧ (∀ c ∈ out, c ∈ cs) ∧
      (a ≠ 0 → cs.length ≤ a) := by
  induction k generalizing charset rng out with
  | zero =>
    simp only [randomstringLoop] at h
    injection h with h; subst h
    exact ⟨rfl, by simp, charset, hnd, fun _ h => h, by simp, hlen⟩
  | succ k ih =>
    cases rng with
    | nil => simp [randomstringLoop] at h
    | cons c rng =>
      simp only [randomstringLoop] at h
      split at h
      · simp at h
      · rename_i c' rng' heq
        have hc : (c' ∈ c :: rng) ∧ (∀ d ∈ rng', d ∈ rng) ∧
            (a ≠ 0 → charset.length = a → c' ∈ charset) := by
          split at heq
          · obtain ⟨h1, h2, h3⟩ := resample_ok heq
            exact ⟨h2, h3, fun _ _ => h1⟩
          · rename_i hn
            injection heq with heq; injection heq with h1 h2; subst h1; subst h2
            exact ⟨by simp, fun _ h => h, fun h1 h2 => absurd ⟨h1, h2⟩ hn⟩
        obtain ⟨hc1, hc2, hc3⟩ := hc
        split at h
        · simp at h
        · rename_i out' hrec
          injection h with h; subst h
          obtain ⟨r1, r2, cs, r3, r4, r5, r6⟩ := ih _ _ _ (by
            split
            · exact hnd
            · rename_i hn
              exact List.nodup_cons.2 ⟨by simpa using hn, hnd⟩) (by
            intro ha
            split
            · exact hlen ha
            · rename_i hn
              have h1 := hlen ha
              have h2 : charset.length ≠ a := fun he => hn (by simpa using hc3 ha he)
              simp; omega) hrec
          refine ⟨by simp [r1], ?_, cs, r3, ?_, ?_, r6⟩
          · intro d hd
            rcases List.mem_cons.1 hd with rfl | hd
            · exact hc1
            · exact List.mem_cons_of_mem _ (hc2 d (r2 d hd))
          · intro d hd
            apply r4
            split
            · exact hd
            · exact List.mem_cons_of_mem _ hd
          · intro d hd
            rcases List.mem_cons.1 hd with rfl | hd
            · apply r4
              split
              · rename_i hcon; simpa using hcon
              · simp
            · exact r5 d hd

end Verif
