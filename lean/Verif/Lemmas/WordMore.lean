import Verif.Lemmas.Fib
import Verif.Lemmas.Lyndon

/-! # Tribonacci words, the ternary Thue–Morse variant, the Lyndon factors of the Fibonacci word -/

namespace Verif
open Spec Model

/-! ### Tribonacci -/

theorem tribMor_prolongable : Prolongable tribMor 97 [98] :=
  ⟨rfl, by simp, fun c => by unfold tribMor; split; · simp
                             split <;> simp⟩

theorem iter_trib_succ (k : Nat) :
    iter tribMor (k + 3) [97] = iter tribMor (k + 2) [97] ++ iter tribMor (k + 1) [97] ++ iter tribMor k [97] := by
  rw [iter_succ_singleton tribMor (k + 2) 97, show tribMor 97 = [97] ++ [98] from rfl, iter_append,
    iter_succ_singleton tribMor (k + 1) 98, show tribMor 98 = [97] ++ [99] from rfl, iter_append,
    iter_succ_singleton tribMor k 99, List.append_assoc]
  rfl

theorem tribWord_eq (k : Nat) : tribWord k = iter tribMor k [97] := by
  induction k using Nat.strong_induction_on with
  | _ k ih =>
    match k, ih with
    | 0, _ => rfl
    | 1, _ => rfl
    | 2, _ => rfl
    | k + 3, ih => rw [tribWord, ih (k + 2) (by omega), ih (k + 1) (by omega), ih k (by omega), iter_trib_succ]

theorem tribWord_length (k : Nat) : (tribWord k).length = tribNum k := by
  induction k using Nat.strong_induction_on with
  | _ k ih =>
    match k, ih with
    | 0, _ => rfl
    | 1, _ => rfl
    | 2, _ => rfl
    | k + 3, ih =>
      rw [tribWord, List.length_append, List.length_append, ih (k + 2) (by omega), ih (k + 1) (by omega),
        ih k (by omega), tribNum]

/-- The sequence `0, 1, 1, 2, 4, 7, ...`, two places ahead. -/
def trib0 (k : Nat) : Nat := if k = 0 then 0 else if k = 1 then 1 else tribNum (k - 2)

theorem trib0_succ (k : Nat) : trib0 (k + 3) = trib0 (k + 2) + trib0 (k + 1) + trib0 k := by
  match k with
  | 0 => rfl
  | 1 => rfl
  | k + 2 => show tribNum (k + 3) = tribNum (k + 2) + tribNum (k + 1) + tribNum k; rfl

theorem trib0_mono (k : Nat) : trib0 k ≤ trib0 (k + 1) := by
  match k with
  | 0 => decide
  | 1 => decide
  | k + 2 => rw [trib0_succ]; omega

theorem trib0_le {j k : Nat} (h : j ≤ k) : trib0 j ≤ trib0 k := monotone_nat_of_le_succ trib0_mono h

/-- one turn of the loop of `tribonacci_number` -/
theorem trib_loop {k : Nat} (hk : trib0 (k + 2) < 18446744073709551616) (hk0 : 0 < k) :
    tribonacciNumber k = .ok (tribNum k) := by
  unfold tribonacciNumber
  rw [if_neg (by omega)]
  obtain ⟨w, h1, h2, h3, h4, h5⟩ := forRange_inv
    (fun i (st : Nat × Nat × Nat × Nat) => st.2.1 = trib0 (i + 2) ∧ st.2.2.1 = trib0 (i + 1) ∧ st.2.2.2 = trib0 i ∧
      (0 < i → st.1 = trib0 (i + 2)))
    (lo := 0) (hi := k) (s := (0, 1, 1, 0)) (body := fun _ (st : Nat × Nat × Nat × Nat) => do
      let x ← uadd st.2.1 st.2.2.1
      let sum ← uadd x st.2.2.2
      pure (sum, sum, st.2.1, st.2.2.1)) (by omega) ⟨rfl, rfl, rfl, by omega⟩ (by
      rintro i ⟨a, b, c, d⟩ _ hi ⟨h1, h2, h3, h4⟩
      simp only at h1 h2 h3 h4
      subst h1 h2 h3
      have hs := trib0_succ i
      have hle : trib0 (i + 3) ≤ trib0 (k + 2) := trib0_le (by omega)
      refine ⟨(trib0 (i + 3), trib0 (i + 3), trib0 (i + 2), trib0 (i + 1)), ?_, rfl, rfl, rfl, fun _ => rfl⟩
      simp only [uadd]
      rw [if_pos (by omega), ok_bind, if_pos (by omega), hs]; rfl)
  rw [h1, ok_bind, h5 hk0]
  simp [trib0, pure_ok]

theorem tribonacciNumber_ok {k : Nat} (hk : k ≤ 72) : tribonacciNumber k = .ok (tribNum k) := by
  rcases Nat.eq_zero_or_pos k with rfl | h0
  · rfl
  · refine trib_loop ?_ h0
    have : trib0 (k + 2) ≤ trib0 74 := trib0_le (by omega)
    have h74 : tribWord 0 = [97] := rfl
    have : trib0 74 = 12903063846126135669 := by
      have e : ∀ n, (trib0 n, trib0 (n + 1), trib0 (n + 2)) =
          (fun s : Nat × Nat × Nat => (s.2.1, s.2.2, s.1 + s.2.1 + s.2.2))^[n] (0, 1, 1) := by
        intro n
        induction n with
        | zero => rfl
        | succ n ih =>
          rw [Function.iterate_succ_apply', ← ih]
          simp only [Prod.mk.injEq, true_and]
          rw [show n + 1 + 2 = n + 3 by omega, trib0_succ]
          omega
      have := congrArg Prod.fst (e 74)
      simp only at this
      rw [this]; decide +kernel
    omega

theorem tribonacciNumber_err {k : Nat} (hk : 73 ≤ k) : tribonacciNumber k = .error .arith := by
  unfold tribonacciNumber
  rw [if_neg (by omega), forRange_split (mid := 73) (by omega) (by omega)]
  have h : forRange 0 73 (0, 1, 1, 0) (fun _ (st : Nat × Nat × Nat × Nat) => do
      let x ← uadd st.2.1 st.2.2.1
      let sum ← uadd x st.2.2.2
      pure (sum, sum, st.2.1, st.2.2.1)) = .error .arith := by decide +kernel
  rw [h]; rfl

/-! ### The ternary variant of the Thue–Morse word -/

theorem vtmMor_prolongable : Prolongable vtmMor 97 [98, 99] :=
  ⟨rfl, by simp, fun c => by unfold vtmMor; split; · simp
                             split <;> simp⟩

theorem i32SizeHint_ok {k : Nat} (hk : k ≤ 29) : i32SizeHint k = .ok (3 * 2 ^ k + 1) := by
  have hp : 2 ^ k ≤ 2 ^ 29 := Nat.pow_le_pow_right (by omega) hk
  unfold i32SizeHint
  rw [if_pos (by omega)]
  simp only
  rw [Nat.mod_eq_of_lt (by omega), if_pos (by omega), if_pos (by omega)]

theorem capacity_ok {k : Nat} (hk : k ≤ 29) : initialCapacity k (3 * 2 ^ k + 1) = .ok () := by
  have hp : 2 ^ k ≤ 2 ^ 29 := Nat.pow_le_pow_right (by omega) hk
  unfold initialCapacity withCapacity
  rw [if_pos (by omega), pure_bind', if_pos (by omega)]

/-- The size hint makes the allocation panic from 30 rounds on. -/
theorem hint_err {β : Type} {k : Nat} (hk : 30 ≤ k) (f : Unit → Res β) :
    (i32SizeHint k >>= fun hint => initialCapacity k hint >>= f) = .error .alloc ∨
      (i32SizeHint k >>= fun hint => initialCapacity k hint >>= f) = .error .arith := by
  by_cases h : k < 32
  · left
    have : k = 30 ∨ k = 31 := by omega
    rcases this with rfl | rfl <;> rfl
  · right
    unfold i32SizeHint
    rw [if_neg h]; rfl

/-! ### The Lyndon factors of the Fibonacci word -/

/-- A suffix of the image of a word: a suffix of the image of one letter, then the image of the rest. -/
theorem suffix_flatMap {β : Type} {f : β → List β} {w s : List β} (hs : s ≠ []) (h : s <:+ w.flatMap f) :
    ∃ u c v t, w = u ++ c :: v ∧ t ≠ [] ∧ t <:+ f c ∧ s = t ++ v.flatMap f := by
  induction w with
  | nil => simp at h; exact absurd h hs
  | cons c w ih =>
    obtain ⟨p, hp⟩ := h
    rw [List.flatMap_cons, List.append_eq_append_iff] at hp
    rcases hp with ⟨t, ht2, ht1⟩ | ⟨t, _, ht⟩
    rotate_left
    · have h : s <:+ w.flatMap f := ⟨t, ht.symm⟩
      obtain ⟨u, d, v, t, rfl, h2, h3, h4⟩ := ih h
      exact ⟨c :: u, d, v, t, rfl, h2, h3, h4⟩
    · by_cases htn : t = []
      · subst htn
        simp only [List.nil_append] at ht1
        obtain ⟨u, d, v, t, rfl, h2, h3, h4⟩ := ih (by rw [ht1])
        exact ⟨c :: u, d, v, t, rfl, h2, h3, h4⟩
      · exact ⟨[], c, w, t, rfl, htn, ⟨p, ht2.symm⟩, ht1⟩

/-- words over `a`, `b` -/
def AB (w : List UInt8) : Prop := ∀ c ∈ w, c = 97 ∨ c = 98

theorem AB.append {u v : List UInt8} (h : AB (u ++ v)) : AB u ∧ AB v :=
  ⟨fun c hc => h c (List.mem_append_left _ hc), fun c hc => h c (List.mem_append_right _ hc)⟩

theorem AB.img (w : List UInt8) : AB (w.flatMap lyndonMor) := by
  intro c hc
  obtain ⟨d, _, hd⟩ := List.mem_flatMap.1 hc
  unfold lyndonMor at hd
  split at hd <;> simp at hd <;> rcases hd with h | h <;> simp [h]

/-- The morphism preserves mismatches. -/
theorem lyndonMor_mis {u v : List UInt8} (hu : AB u) (hv : AB v) (h : Mis u v) :
    Mis (u.flatMap lyndonMor) (v.flatMap lyndonMor) := by
  obtain ⟨p, a, b, x, y, rfl, rfl, hab⟩ := h
  have ha := hu a (by simp)
  have hb := hv b (by simp)
  have : a = 97 ∧ b = 98 := by
    rcases ha with rfl | rfl <;> rcases hb with rfl | rfl
    · exact absurd hab (by decide)
    · exact ⟨rfl, rfl⟩
    · exact absurd hab (by decide)
    · exact absurd hab (by decide)
  obtain ⟨rfl, rfl⟩ := this
  refine ⟨p.flatMap lyndonMor ++ [97], 97, 98, [98] ++ x.flatMap lyndonMor, y.flatMap lyndonMor, ?_, ?_, by decide⟩
  · simp [lyndonMor]
  · simp [lyndonMor]

/-- The morphism `a -> aab, b -> ab` maps Lyndon words starting with `a` to Lyndon words. -/
theorem lyndonMor_lyndon {w : List UInt8} (hab : AB (97 :: w)) (h : IsLyndon (97 :: w)) :
    IsLyndon ((97 :: w).flatMap lyndonMor) := by
  refine ⟨by simp [lyndonMor], ?_⟩
  intro u v hu hv e
  obtain ⟨p, c, q, t, hw, ht, htc, hv'⟩ := suffix_flatMap hv ⟨u, e.symm⟩
  have hstart : ∃ r, (97 :: w).flatMap lyndonMor = 97 :: 97 :: r := by simp [lyndonMor]
  obtain ⟨r, hr⟩ := hstart
  have hqAB : AB (c :: q) := by rw [hw] at hab; exact hab.append.2
  have hc := hqAB c (by simp)
  -- the suffix starts inside the image of `c`
  by_cases hfull : t = lyndonMor c
  · -- a suffix that is an image
    have hvq : v = (c :: q).flatMap lyndonMor := by rw [hv', hfull]; rfl
    rcases p with _ | ⟨x, p⟩
    · -- the whole word
      exfalso
      rw [List.nil_append] at hw
      rw [hvq, ← hw] at e
      have := congrArg List.length e
      rw [List.length_append] at this
      have := List.length_pos_iff.2 hu
      omega
    · have hm := h.mis (u := x :: p) (v := c :: q) (by simp) (by simp) hw
      rw [hvq]
      exact (lyndonMor_mis hab hqAB hm).lt
  · rw [hr, hv']
    obtain ⟨t0, ht0⟩ := htc
    have ht0n : t0 ≠ [] := by rintro rfl; exact hfull (by simpa using ht0)
    have hcases : (∃ t1, t = 98 :: t1) ∨ ∃ t1, t = 97 :: 98 :: t1 := by
      rcases hc with rfl | rfl
      · match t0, t, ht0n, ht, ht0 with
        | [_], [_, _], _, _, h => simp [lyndonMor] at h; obtain ⟨_, rfl, rfl⟩ := h; exact Or.inr ⟨[], rfl⟩
        | [_, _], [_], _, _, h => simp [lyndonMor] at h; obtain ⟨_, _, rfl⟩ := h; exact Or.inl ⟨[], rfl⟩
        | [_], [_], _, _, h => simp [lyndonMor] at h
        | [_], _ :: _ :: _ :: _, _, _, h => simp [lyndonMor] at h
        | [_, _], _ :: _ :: _, _, _, h => simp [lyndonMor] at h
        | _ :: _ :: _ :: _, _ :: _, _, _, h => simp [lyndonMor] at h
      · match t0, t, ht0n, ht, ht0 with
        | [_], [_], _, _, h => simp [lyndonMor] at h; obtain ⟨_, rfl⟩ := h; exact Or.inl ⟨[], rfl⟩
        | [_], _ :: _ :: _, _, _, h => simp [lyndonMor] at h
        | _ :: _ :: _, _ :: _, _, _, h => simp [lyndonMor] at h
    rcases hcases with ⟨t1, rfl⟩ | ⟨t1, rfl⟩
    · exact cons_lt_cons.2 (Or.inl (by decide))
    · exact cons_lt_cons.2 (Or.inr ⟨rfl, cons_lt_cons.2 (Or.inl (by decide))⟩)

/-- the `k`-th factor -/
def lfac (k : Nat) : List UInt8 := iter lyndonMor k [97, 98]

theorem lfac_AB (k : Nat) : AB (lfac k) := by
  cases k with
  | zero => simp [lfac, iter, AB]
  | succ k => exact AB.img _

theorem lfac_start (k : Nat) : ∃ r, lfac k = 97 :: r := by
  induction k with
  | zero => exact ⟨[98], rfl⟩
  | succ k ih =>
    obtain ⟨r, hr⟩ := ih
    exact ⟨[97, 98] ++ r.flatMap lyndonMor, by unfold lfac at hr ⊢; rw [iter, hr]; rfl⟩

theorem lfac_lyndon (k : Nat) : IsLyndon (lfac k) := by
  induction k with
  | zero => show IsLyndon [97, 98]; decide +kernel
  | succ k ih =>
    obtain ⟨r, hr⟩ := lfac_start k
    have := lfac_AB k
    rw [hr] at ih this
    have := lyndonMor_lyndon this ih
    rw [← hr] at this
    exact this

theorem lfac_mis (k : Nat) : Mis (lfac (k + 1)) (lfac k) := by
  induction k with
  | zero => exact ⟨[97], 97, 98, [98, 97, 98], [], rfl, rfl, by decide⟩
  | succ k ih => exact lyndonMor_mis (lfac_AB _) (lfac_AB _) ih

theorem lfac_lt {j k : Nat} (h : j < k) : lfac k < lfac j := by
  induction k with
  | zero => omega
  | succ k ih =>
    have h1 := (lfac_mis k).lt
    rcases Nat.lt_or_ge j k with h2 | h2
    · exact h1.trans (ih h2)
    · rw [show j = k by omega]; exact h1

/-- the concatenation of the factors `0, ..., k` -/
def lconc (k : Nat) : List UInt8 := ((List.range (k + 1)).map lfac).flatten

theorem lconc_succ (k : Nat) : lconc (k + 1) = [97, 98] ++ (lconc k).flatMap lyndonMor := by
  unfold lconc
  rw [List.range_succ_eq_map, List.map_cons, List.flatten_cons, List.map_map]
  congr 1
  generalize List.range (k + 1) = l
  induction l with
  | nil => rfl
  | cons i l ih => rw [List.map_cons, List.map_cons, List.flatten_cons, List.flatten_cons, List.flatMap_append, ih]; rfl

/-- `ab ψ(x) = φ²(x) ab` -/
theorem conj_fib (x : List UInt8) :
    [97, 98] ++ x.flatMap lyndonMor = (x.flatMap fibMor).flatMap fibMor ++ [97, 98] := by
  induction x with
  | nil => rfl
  | cons c x ih =>
    have hc : [97, 98] ++ lyndonMor c = (fibMor c).flatMap fibMor ++ [97, 98] := by
      unfold lyndonMor fibMor; split <;> rfl
    rw [List.flatMap_cons, List.flatMap_cons, List.flatMap_append, ← List.append_assoc, hc, List.append_assoc, ih,
      List.append_assoc]

theorem lconc_prefix (k : Nat) : ∃ m, lconc k <+: iter fibMor m [97] := by
  induction k with
  | zero => exact ⟨1, by decide⟩
  | succ k ih =>
    obtain ⟨m, hm⟩ := ih
    rw [lconc_succ, conj_fib]
    refine ⟨m + 3, ?_⟩
    have h1 : lconc k <+: iter fibMor (m + 1) [97] := hm.trans (fibMor_prolongable.prefix m)
    have hlt : (lconc k).length < (iter fibMor (m + 1) [97]).length :=
      lt_of_le_of_lt hm.length_le (fibMor_prolongable.length_lt m)
    obtain ⟨t, ht⟩ := h1
    rcases t with _ | ⟨c, t⟩
    · rw [← ht] at hlt; simp at hlt
    · have hc : ∃ r, (fibMor c).flatMap fibMor = [97, 98] ++ r := by
        unfold fibMor; split
        · exact ⟨[97], rfl⟩
        · exact ⟨[], rfl⟩
      obtain ⟨r, hr⟩ := hc
      rw [iter, iter, ← ht, List.flatMap_append, List.flatMap_append, List.flatMap_cons, List.flatMap_append, hr]
      exact ⟨r ++ (t.flatMap fibMor).flatMap fibMor, by simp⟩

/-- A Lyndon prefix followed by something smaller (with a mismatch) is the first factor. -/
theorem fact_head {u v x : List UInt8} {fs : List (List UInt8)} (hu : IsLyndon u) (hm : Mis v u)
    (h : IsLyndonFactorization fs (u ++ (v ++ x))) :
    ∃ gs, fs = u :: gs ∧ IsLyndonFactorization gs (v ++ x) := by
  rcases fs with _ | ⟨z, gs⟩
  · have := h.1
    have h2 := List.length_pos_iff.2 hu.1
    have := congrArg List.length this
    simp at this; omega
  · obtain ⟨hz1, hz2, hz3⟩ := h.longest
    have hl := hz3 u hu ⟨_, rfl⟩
    have hpre : u <+: z := List.prefix_of_prefix_length_le ⟨_, rfl⟩ hz2 hl
    obtain ⟨y, rfl⟩ := hpre
    rcases y with _ | ⟨c, y⟩
    · rw [List.append_nil] at h ⊢
      exact ⟨gs, rfl, h.tail⟩
    · exfalso
      obtain ⟨r, hr⟩ := hz2
      rw [List.append_assoc, List.append_cancel_left_eq] at hr
      have m1 := (hz1.mis hu.1 (v := c :: y) (by simp) rfl).append [] r
      rw [List.append_nil, hr] at m1
      exact lt_irrefl _ ((m1.trans (hm.append x (c :: y))).lt)

theorem fact_prefix (i n : Nat) (x : List UInt8) {fs : List (List UInt8)}
    (h : IsLyndonFactorization fs (((List.range' i n).map lfac).flatten ++ (lfac (i + n) ++ x))) :
    ∃ gs, fs = (List.range' i n).map lfac ++ gs := by
  induction n generalizing i fs with
  | zero => exact ⟨fs, rfl⟩
  | succ n ih =>
    rw [List.range'_succ, List.map_cons, List.flatten_cons, List.append_assoc] at h
    have hv : ∃ x', ((List.range' (i + 1) n).map lfac).flatten ++ (lfac (i + (n + 1)) ++ x) = lfac (i + 1) ++ x' := by
      cases n with
      | zero => exact ⟨x, by simp⟩
      | succ n => exact ⟨_, by rw [List.range'_succ, List.map_cons, List.flatten_cons, List.append_assoc]⟩
    obtain ⟨x', hx'⟩ := hv
    rw [hx'] at h
    obtain ⟨gs, rfl, hgs⟩ := fact_head (lfac_lyndon i) (lfac_mis i) h
    rw [← hx', show i + (n + 1) = i + 1 + n by omega] at hgs
    obtain ⟨gs', rfl⟩ := ih (i + 1) hgs
    exact ⟨gs', by rw [List.range'_succ]; rfl⟩

/-- From some order on, the `k`-th Lyndon factor of the Fibonacci words is `lfac k`. -/
theorem fib_kth_factor (k : Nat) :
    ∃ M, ∀ m, M ≤ m → ∀ fs, IsLyndonFactorization fs (iter fibMor m [97]) → fs[k]? = some (lfac k) := by
  obtain ⟨M, hM⟩ := lconc_prefix (k + 1)
  refine ⟨M, fun m hm fs hfs => ?_⟩
  obtain ⟨x, hx⟩ := hM.trans (fibMor_prolongable.prefix_le hm)
  rw [← hx, lconc, List.range_succ, List.map_append, List.flatten_append, List.append_assoc] at hfs
  rw [List.range_eq_range'] at hfs
  have e : (List.map lfac [k + 1]).flatten = lfac (0 + (k + 1)) := by simp
  rw [e] at hfs
  obtain ⟨gs, rfl⟩ := fact_prefix 0 (k + 1) x hfs
  rw [List.getElem?_append_left (by simp), List.getElem?_map, ← List.range_eq_range', List.getElem?_range (by omega)]
  rfl

end Verif
