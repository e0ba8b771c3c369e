import Verif.Spec.Streams
import Verif.Model.Streams
import Verif.Lemmas.Loops

/-! # Stream tools: runs -/

namespace Verif

open Spec Model

/-! ## Runs -/

/-- the runs of `prev^n ++ t` -/
def runsFrom (prev : UInt8) (n : Nat) : List UInt8 → List (UInt8 × Nat)
  | [] => [(prev, n)]
  | c :: t => if c = prev then runsFrom prev (n + 1) t else (prev, n) :: runsFrom c 1 t

def runsOf : List UInt8 → List (UInt8 × Nat)
  | [] => []
  | c :: t => runsFrom c 1 t

/-- written out -/
def flatRuns (rs : List (UInt8 × Nat)) : List UInt8 := rs.flatMap (fun p => List.replicate p.2 p.1)

theorem runsFrom_head (prev : UInt8) (n : Nat) (t : List UInt8) :
    ∃ l rs, n ≤ l ∧ runsFrom prev n t = (prev, l) :: rs := by
  induction t generalizing n with
  | nil => exact ⟨n, [], le_refl _, rfl⟩
  | cons c t ih =>
    simp only [runsFrom]
    split
    · obtain ⟨l, rs, h1, h2⟩ := ih (n + 1)
      exact ⟨l, rs, by omega, h2⟩
    · exact ⟨n, _, le_refl _, rfl⟩

theorem runsFrom_isRuns (prev : UInt8) (n : Nat) (t : List UInt8) (hn : 0 < n) :
    IsRuns (runsFrom prev n t) (List.replicate n prev ++ t) := by
  induction t generalizing n prev with
  | nil => simp [runsFrom, IsRuns, hn]
  | cons c t ih =>
    simp only [runsFrom]
    split
    · rename_i h
      subst h
      have := ih c (n + 1) (by omega)
      rwa [List.replicate_succ', List.append_assoc, List.singleton_append] at this
    · rename_i h
      obtain ⟨h1, h2, h3⟩ := ih c 1 (by omega)
      refine ⟨?_, ?_, ?_⟩
      · rw [List.flatMap_cons, h1]; rfl
      · intro p hp
        rcases List.mem_cons.1 hp with rfl | hp
        · exact hn
        · exact h2 p hp
      · obtain ⟨l, rs, -, he⟩ := runsFrom_head c 1 t
        rw [he] at h3 ⊢
        exact List.isChain_cons_cons.2 ⟨Ne.symm h, h3⟩

theorem runsOf_isRuns (t : List UInt8) : IsRuns (runsOf t) t := by
  cases t with
  | nil => simp [runsOf, IsRuns]
  | cons c t => exact runsFrom_isRuns c 1 t (by omega)

theorem runsFrom_replicate (c : UInt8) (n k : Nat) (t : List UInt8) :
    runsFrom c n (List.replicate k c ++ t) = runsFrom c (n + k) t := by
  induction k generalizing n with
  | zero => simp
  | succ k ih =>
    rw [List.replicate_succ, List.cons_append, runsFrom, if_pos rfl, ih]
    congr 1; omega

theorem runsFrom_flat (c : UInt8) (n : Nat) {rs : List (UInt8 × Nat)} (hp : ∀ p ∈ rs, 0 < p.2)
    (hc : ((c, n) :: rs).IsChain (fun p q => p.1 ≠ q.1)) :
    runsFrom c n (flatRuns rs) = (c, n) :: rs := by
  induction rs generalizing c n with
  | nil => rfl
  | cons p rs ih =>
    obtain ⟨d, l⟩ := p
    rw [List.isChain_cons_cons] at hc
    obtain ⟨hne, hc⟩ := hc
    have hl : 0 < l := hp (d, l) (by simp)
    obtain ⟨l, rfl⟩ : ∃ l', l = l' + 1 := ⟨l - 1, by omega⟩
    have := ih d (l + 1) (fun p h => hp p (List.mem_cons_of_mem _ h)) hc
    simp only [flatRuns, List.flatMap_cons] at this ⊢
    rw [List.replicate_succ, List.cons_append, runsFrom, if_neg (Ne.symm hne), runsFrom_replicate,
      Nat.add_comm 1 l, this]

theorem Spec.IsRuns.eq {rs : List (UInt8 × Nat)} {t : List UInt8} (h : IsRuns rs t) : rs = runsOf t := by
  obtain ⟨h1, h2, h3⟩ := h
  subst h1
  cases rs with
  | nil => rfl
  | cons p rs =>
    obtain ⟨c, l⟩ := p
    have hl : 0 < l := h2 (c, l) (by simp)
    obtain ⟨l, rfl⟩ : ∃ l', l = l' + 1 := ⟨l - 1, by omega⟩
    have := runsFrom_flat c (l + 1) (fun p h => h2 p (List.mem_cons_of_mem _ h)) h3
    simp only [flatRuns] at this
    rw [List.flatMap_cons, List.replicate_succ, List.cons_append, runsOf, runsFrom_replicate,
      Nat.add_comm 1 l, this]

theorem changes_cons (a b : UInt8) (t : List UInt8) :
    changes (a :: b :: t) = (if a ≠ b then 1 else 0) + changes (b :: t) := by
  simp only [changes]
  rw [show (a :: b :: t).length - 1 = (b :: t).length - 1 + 1 by simp, List.range_succ_eq_map,
    List.filter_cons]
  have : (List.filter (fun i => decide ((a :: b :: t)[i]? ≠ (a :: b :: t)[i + 1]?))
      (List.map Nat.succ (List.range ((b :: t).length - 1)))).length =
      ((List.range ((b :: t).length - 1)).filter (fun i => (b :: t)[i]? ≠ (b :: t)[i + 1]?)).length := by
    rw [List.filter_map, List.length_map]
    rfl
  by_cases h : a = b
  · simp [h] at this ⊢
    exact this
  · simp [h] at this ⊢
    rw [this]; omega

theorem runsFrom_length (c : UInt8) (n : Nat) (t : List UInt8) :
    (runsFrom c n t).length = 1 + changes (c :: t) := by
  induction t generalizing c n with
  | nil => simp [runsFrom, changes]
  | cons d t ih =>
    rw [changes_cons, runsFrom]
    by_cases h : d = c
    · subst h; rw [if_pos rfl, ih]; simp
    · rw [if_neg h, List.length_cons, ih, if_pos (Ne.symm h)]; omega

theorem runsOf_length {t : List UInt8} (h : t ≠ []) : (runsOf t).length = 1 + changes t := by
  cases t with
  | nil => exact absurd rfl h
  | cons c t => exact runsFrom_length c 1 t

theorem numberOfRunsLoop_ok (r : Reader) (prev : UInt8) (cnt n : Nat) :
    numberOfRunsLoop r prev cnt + 1 = cnt + (runsFrom prev n (delivered r)).length := by
  induction r generalizing prev cnt n with
  | nil => simp [numberOfRunsLoop, delivered, runsFrom]
  | cons e r ih =>
    cases e with
    | eof => simp [numberOfRunsLoop, delivered, runsFrom]
    | err => simp [numberOfRunsLoop, delivered, runsFrom]
    | byte c =>
      simp only [numberOfRunsLoop, delivered, runsFrom]
      by_cases h : c = prev
      · simp only [h, ne_eq, not_true_eq_false, if_false, if_true]
        exact ih _ _ _
      · simp only [h, ne_eq, not_false_eq_true, if_true, if_false, List.length_cons]
        rw [ih c (cnt + 1) 1]; omega

theorem numberOfRuns_ok (r : Reader) : numberOfRuns r = (runsOf (delivered r)).length := by
  cases r with
  | nil => rfl
  | cons e r =>
    cases e with
    | eof => rfl
    | err => rfl
    | byte c =>
      simp only [numberOfRuns, readChar, delivered, runsOf]
      have := numberOfRunsLoop_ok r c 1 1
      omega

/-! ## rle -/

theorem incU8_ok {m : Build} {a : UInt8} (h : a.toNat + 1 < 256) : incU8 m a = .ok (a + 1) := by
  unfold incU8; rw [if_pos h]

theorem incU8_err {a : UInt8} (h : ¬ a.toNat + 1 < 256) : incU8 .checked a = .error .arith := by
  rw [incU8, if_neg h]

theorem toNat_succ {a : UInt8} (h : a.toNat + 1 < 256) : (a + 1).toNat = a.toNat + 1 := by
  rw [UInt8.toNat_add]
  have : (1 : UInt8).toNat = 1 := rfl
  rw [this, Nat.mod_eq_of_lt h]

/-- the encoding of a list of runs -/
def rleOut : List (UInt8 × Nat) → Out
  | [] => done
  | [(c, l)] => if l ≤ 256 then emit [c, UInt8.ofNat (l - 1)] done else ([], .error .arith)
  | (c, l) :: rs =>
    if l ≤ 255 then emit [c, UInt8.ofNat (l - 1)] (rleOut rs)
    else if l = 256 then ([], .error .assert) else ([], .error .arith)

theorem rleOut_big (c : UInt8) {l : Nat} (rs : List (UInt8 × Nat)) (h : 257 ≤ l) :
    rleOut ((c, l) :: rs) = ([], .error .arith) := by
  cases rs with
  | nil => simp only [rleOut]; rw [if_neg (by omega)]
  | cons p rs => simp only [rleOut]; rw [if_neg (by omega), if_neg (by omega)]

theorem rleLoop_ok (r : Reader) (prev cnt : UInt8) :
    rleLoop .checked r prev cnt = rleOut (runsFrom prev (cnt.toNat + 1) (delivered r)) := by
  have hend : ∀ prev cnt : UInt8, emit [prev, cnt] done = rleOut (runsFrom prev (cnt.toNat + 1) []) := by
    intro prev cnt
    have : cnt.toNat < 256 := cnt.toNat_lt
    simp only [runsFrom, rleOut]
    rw [if_pos (by omega)]
    simp
  induction r generalizing prev cnt with
  | nil => exact hend prev cnt
  | cons e r ih =>
    cases e with
    | eof => exact hend prev cnt
    | err => exact hend prev cnt
    | byte c =>
      have hcnt : cnt.toNat < 256 := cnt.toNat_lt
      simp only [rleLoop, delivered, runsFrom]
      by_cases h : c = prev
      · rw [if_neg (by simpa using h), if_pos h]
        by_cases hc : cnt.toNat + 1 < 256
        · rw [incU8_ok hc]
          simp only [andThen]
          rw [ih, toNat_succ hc]
        · rw [incU8_err hc]
          simp only [andThen]
          obtain ⟨l, rs, h1, h2⟩ := runsFrom_head prev (cnt.toNat + 1 + 1) (delivered r)
          rw [h2, rleOut_big _ _ (by omega)]
      · rw [if_pos h, if_neg h]
        obtain ⟨l, rs, h1, h2⟩ := runsFrom_head c 1 (delivered r)
        have ih' := ih c 0
        rw [show (0 : UInt8).toNat + 1 = 1 from rfl] at ih'
        rw [h2] at ih' ⊢
        simp only [rleOut, assertR]
        by_cases hc : cnt < 255
        · have hc' : cnt.toNat < 255 := by simpa [UInt8.lt_iff_toNat_lt] using hc
          rw [if_pos (by simpa using hc), if_pos (by omega)]
          simp only [andThen]
          rw [ih']
          simp
        · have hc' : ¬ cnt.toNat < 255 := by simpa [UInt8.lt_iff_toNat_lt] using hc
          rw [if_neg (by simpa using hc), if_neg (by omega), if_pos (by omega)]
          rfl

theorem rle_ok (r : Reader) : rle .checked r = rleOut (runsOf (delivered r)) := by
  cases r with
  | nil => rfl
  | cons e r =>
    cases e with
    | eof => rfl
    | err => rfl
    | byte c => simp only [rle, readChar, delivered, runsOf]; exact rleLoop_ok r c 0

theorem rleOut_spec (rs : List (UInt8 × Nat)) :
    ((rleOut rs).2 = .ok () ↔
      (∀ p ∈ rs.dropLast, p.2 ≤ 255) ∧ (∀ p, rs.getLast? = some p → p.2 ≤ 256)) ∧
    ((rleOut rs).2 = .ok () →
      (rleOut rs).1 = rs.flatMap (fun p => [p.1, UInt8.ofNat (p.2 - 1)])) := by
  induction rs with
  | nil => simp [rleOut, done]
  | cons p rs ih =>
    obtain ⟨c, l⟩ := p
    cases rs with
    | nil =>
      simp only [rleOut]
      split
      · rename_i h; simp [emit, done, h]
      · rename_i h; simp; omega
    | cons q rs =>
      simp only [rleOut]
      by_cases h : l ≤ 255
      · rw [if_pos h]
        simp only [emit]
        refine ⟨?_, fun h' => by rw [ih.2 h']; rfl⟩
        rw [ih.1]
        rw [List.dropLast_cons_cons, List.getLast?_cons_cons]
        simp only [List.mem_cons, forall_eq_or_imp, h, true_and]
      · rw [if_neg h]
        have hbad : ∀ e : Panic, ((([], .error e) : Out).2 = .ok () ↔
            (∀ p ∈ ((c, l) :: q :: rs).dropLast, p.2 ≤ 255) ∧
              (∀ p, ((c, l) :: q :: rs).getLast? = some p → p.2 ≤ 256)) := by
          intro e
          rw [List.dropLast_cons_cons]
          simp [h]
        split
        · exact ⟨hbad _, fun h => by simp at h⟩
        · exact ⟨hbad _, fun h => by simp at h⟩

theorem unrle_flat {rs : List (UInt8 × Nat)} (h : ∀ p ∈ rs, 0 < p.2 ∧ p.2 ≤ 256) :
    unrle (rs.flatMap (fun p => [p.1, UInt8.ofNat (p.2 - 1)])) = flatRuns rs := by
  induction rs with
  | nil => rfl
  | cons p rs ih =>
    have hp := h p (by simp)
    simp only [List.flatMap_cons, List.cons_append, List.nil_append, unrle, flatRuns]
    rw [ih (fun p hp => h p (List.mem_cons_of_mem _ hp)), UInt8.toNat_ofNat', Nat.mod_eq_of_lt (by omega),
      Nat.sub_add_cancel hp.1]
    rfl

/-! ## rle_text -/

/-- the printed runs -/
def rleTextOut : List (UInt8 × Nat) → Out
  | [] => done
  | (c, l) :: rs =>
    if l ≤ 255 then emit (rleTextItem c (UInt8.ofNat l)) (rleTextOut rs) else ([], .error .arith)

theorem rleTextLoop_ok (r : Reader) (prev cnt : UInt8) :
    rleTextLoop .checked r prev cnt = rleTextOut (runsFrom prev (cnt.toNat + 1) (delivered r)) := by
  have hsucc : ∀ cnt : UInt8, cnt.toNat + 1 < 256 → UInt8.ofNat (cnt.toNat + 1) = cnt + 1 := by
    intro cnt h
    apply UInt8.toNat.inj
    rw [toNat_succ h, UInt8.toNat_ofNat', Nat.mod_eq_of_lt h]
  have hend : ∀ prev cnt : UInt8,
      rleTextEnd .checked prev cnt = rleTextOut (runsFrom prev (cnt.toNat + 1) []) := by
    intro prev cnt
    simp only [runsFrom, rleTextOut, rleTextEnd]
    by_cases hc : cnt.toNat + 1 < 256
    · rw [incU8_ok hc, if_pos (by omega), hsucc cnt hc]; rfl
    · rw [incU8_err hc, if_neg (by omega)]; rfl
  induction r generalizing prev cnt with
  | nil => exact hend prev cnt
  | cons e r ih =>
    cases e with
    | eof => exact hend prev cnt
    | err => exact hend prev cnt
    | byte c =>
      simp only [rleTextLoop, delivered, runsFrom]
      by_cases h : c = prev
      · rw [if_neg (by simpa using h), if_pos h]
        by_cases hc : cnt.toNat + 1 < 256
        · rw [incU8_ok hc]
          simp only [andThen]
          rw [ih, toNat_succ hc]
        · rw [incU8_err hc]
          simp only [andThen]
          obtain ⟨l, rs, h1, h2⟩ := runsFrom_head prev (cnt.toNat + 1 + 1) (delivered r)
          rw [h2, rleTextOut, if_neg (by omega)]
      · rw [if_pos h, if_neg h, rleTextOut]
        by_cases hc : cnt.toNat + 1 < 256
        · rw [incU8_ok hc, if_pos (by omega), hsucc cnt hc]
          simp only [andThen]
          rw [ih]; rfl
        · rw [incU8_err hc, if_neg (by omega)]; rfl

theorem rleText_ok (r : Reader) : rleText .checked r = rleTextOut (runsOf (delivered r)) := by
  cases r with
  | nil => rfl
  | cons e r =>
    cases e with
    | eof => rfl
    | err => rfl
    | byte c => simp only [rleText, readChar, delivered, runsOf]; exact rleTextLoop_ok r c 0

theorem rleTextOut_spec (rs : List (UInt8 × Nat)) :
    ((rleTextOut rs).2 = .ok () ↔ ∀ p ∈ rs, p.2 ≤ 255) ∧
    ((rleTextOut rs).2 = .ok () →
      (rleTextOut rs).1 = rs.flatMap (fun p => rleTextItem p.1 (UInt8.ofNat p.2))) := by
  induction rs with
  | nil => simp [rleTextOut, done]
  | cons p rs ih =>
    obtain ⟨c, l⟩ := p
    simp only [rleTextOut]
    split
    · rename_i h
      simp only [emit]
      refine ⟨?_, fun h' => by rw [ih.2 h']; rfl⟩
      rw [ih.1]; simp [h]
    · rename_i h; simp [h]

theorem charBytes_inj {a b : UInt8} {u v : List UInt8} (h : charBytes a ++ u = charBytes b ++ v) :
    a = b ∧ u = v := by
  have h1 : ∀ a : UInt8, ¬ a < 128 → 128 ≤ 192 + a / 64 ∧ (192 + a / 64).toNat = 192 + a.toNat / 64 ∧
      (128 + a % 64).toNat = 128 + a.toNat % 64 := by
    intro a ha
    have e1 : (192 + a / 64).toNat = 192 + a.toNat / 64 := by
      rw [UInt8.toNat_add, UInt8.toNat_div]
      have : a.toNat < 256 := a.toNat_lt
      simp; omega
    refine ⟨?_, e1, ?_⟩
    · rw [UInt8.le_iff_toNat_le, e1]; simp; omega
    · rw [UInt8.toNat_add, UInt8.toNat_mod]
      have : a.toNat < 256 := a.toNat_lt
      simp; omega
  unfold charBytes at h
  by_cases ha : a < 128 <;> by_cases hb : b < 128
  · simpa [ha, hb] using h
  · simp only [ha, hb, if_true, if_false, List.cons_append, List.nil_append, List.cons.injEq] at h
    have := (h1 b hb).1
    rw [← h.1] at this
    exact absurd ha (not_lt.2 this)
  · simp only [ha, hb, if_true, if_false, List.cons_append, List.nil_append, List.cons.injEq] at h
    have := (h1 a ha).1
    rw [h.1] at this
    exact absurd hb (not_lt.2 this)
  · simp only [ha, hb, if_false, List.cons_append, List.nil_append, List.cons.injEq] at h
    obtain ⟨e1, e2, e3⟩ := h
    refine ⟨UInt8.toNat.inj ?_, e3⟩
    have d1 := congrArg UInt8.toNat e1
    have d2 := congrArg UInt8.toNat e2
    rw [(h1 a ha).2.1, (h1 b hb).2.1] at d1
    rw [(h1 a ha).2.2, (h1 b hb).2.2] at d2
    omega

theorem decBytes_digit {l x : UInt8} (h : x ∈ decBytes l) : x ≠ 41 := by
  unfold decBytes at h
  split at h
  · rw [List.mem_singleton] at h; subst h; decide
  · rw [List.mem_map] at h
    obtain ⟨d, hd, rfl⟩ := h
    have hd' := Nat.digits_lt_base (by omega) (List.mem_reverse.1 hd)
    intro h
    have := congrArg UInt8.toNat h
    rw [UInt8.toNat_ofNat', Nat.mod_eq_of_lt (by omega)] at this
    simp at this; omega

theorem append_sep_inj {u v x y : List UInt8} {s : UInt8} (hu : ∀ c ∈ u, c ≠ s) (hv : ∀ c ∈ v, c ≠ s)
    (h : u ++ s :: x = v ++ s :: y) : u = v ∧ x = y := by
  induction u generalizing v with
  | nil =>
    cases v with
    | nil => simpa using h
    | cons b v =>
      simp only [List.nil_append, List.cons_append, List.cons.injEq] at h
      exact absurd h.1.symm (hv b (by simp))
  | cons a u ih =>
    cases v with
    | nil =>
      simp only [List.nil_append, List.cons_append, List.cons.injEq] at h
      exact absurd h.1 (hu a (by simp))
    | cons b v =>
      simp only [List.cons_append, List.cons.injEq] at h
      obtain ⟨h1, h2⟩ := ih (fun c hc => hu c (by simp [hc])) (fun c hc => hv c (by simp [hc])) h.2
      exact ⟨by rw [h.1, h1], h2⟩

theorem decBytes_inj {a b : UInt8} (ha : a ≠ 0) (hb : b ≠ 0) (h : decBytes a = decBytes b) : a = b := by
  simp only [decBytes, ha, hb, if_false] at h
  apply UInt8.toNat.inj
  have hlt : ∀ (n d : Nat), d ∈ (Nat.digits 10 n).reverse → d < 10 := fun n d hd =>
    Nat.digits_lt_base (by omega) (List.mem_reverse.1 hd)
  have key : ∀ (u v : List Nat), (∀ d ∈ u, d < 10) → (∀ d ∈ v, d < 10) →
      u.map (fun d => UInt8.ofNat (48 + d)) = v.map (fun d => UInt8.ofNat (48 + d)) → u = v := by
    intro u
    induction u with
    | nil => intro v _ _ h; exact (List.map_eq_nil_iff.1 h.symm).symm
    | cons x u ih =>
      intro v hu hv h
      cases v with
      | nil => simp at h
      | cons y v =>
        rw [List.map_cons, List.map_cons, List.cons.injEq] at h
        have hx := hu x (by simp)
        have hy := hv y (by simp)
        have e := congrArg UInt8.toNat h.1
        rw [UInt8.toNat_ofNat', UInt8.toNat_ofNat', Nat.mod_eq_of_lt (by omega), Nat.mod_eq_of_lt (by omega)] at e
        rw [ih v (fun d hd => hu d (by simp [hd])) (fun d hd => hv d (by simp [hd])) h.2]
        congr 1; omega
  have := key _ _ (hlt _) (hlt _) h
  exact Nat.digits_inj_iff.1 (List.reverse_injective this)

theorem rleTextItem_inj {c d l k : UInt8} {u v : List UInt8} (hl : l ≠ 0) (hk : k ≠ 0)
    (h : rleTextItem c l ++ u = rleTextItem d k ++ v) : c = d ∧ l = k ∧ u = v := by
  simp only [rleTextItem, List.append_assoc, List.cons_append, List.nil_append,
    List.cons.injEq, true_and] at h
  obtain ⟨h1, h2⟩ := charBytes_inj h
  rw [List.cons.injEq] at h2
  obtain ⟨h3, h4⟩ := append_sep_inj (fun x hx => decBytes_digit hx) (fun x hx => decBytes_digit hx) h2.2
  exact ⟨h1, decBytes_inj hl hk h3, h4⟩

theorem rleText_items_inj {rs qs : List (UInt8 × Nat)} (hr : ∀ p ∈ rs, 0 < p.2 ∧ p.2 ≤ 255)
    (hq : ∀ p ∈ qs, 0 < p.2 ∧ p.2 ≤ 255)
    (h : rs.flatMap (fun p => rleTextItem p.1 (UInt8.ofNat p.2)) =
      qs.flatMap (fun p => rleTextItem p.1 (UInt8.ofNat p.2))) : rs = qs := by
  have hne : ∀ n, 0 < n → n ≤ 255 → UInt8.ofNat n ≠ 0 := by
    intro n h0 h1 h
    have := congrArg UInt8.toNat h
    rw [UInt8.toNat_ofNat', Nat.mod_eq_of_lt (by omega)] at this
    simp at this; omega
  induction rs generalizing qs with
  | nil =>
    cases qs with
    | nil => rfl
    | cons q qs => simp [rleTextItem] at h
  | cons p rs ih =>
    cases qs with
    | nil => simp [rleTextItem] at h
    | cons q qs =>
      have hp := hr p (by simp)
      have hq' := hq q (by simp)
      rw [List.flatMap_cons, List.flatMap_cons] at h
      obtain ⟨h1, h2, h3⟩ := rleTextItem_inj (hne _ hp.1 hp.2) (hne _ hq'.1 hq'.2) h
      have e := congrArg UInt8.toNat h2
      rw [UInt8.toNat_ofNat', UInt8.toNat_ofNat', Nat.mod_eq_of_lt (by omega), Nat.mod_eq_of_lt (by omega)] at e
      rw [ih (fun p hp => hr p (by simp [hp])) (fun p hp => hq p (by simp [hp])) h3]
      congr 1
      exact Prod.ext h1 e

end Verif
