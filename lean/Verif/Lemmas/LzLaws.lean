import Verif.Lemmas.LzCount

/-! # Parses of prefixes, concatenations, powers, renamed and edited texts -/

namespace Verif

open Spec Model

/-- A prefix has a parse with at most as many phrases. -/
theorem parse_prefix {u v : List UInt8} (ls : List Nat) (i : Nat) (hi : i ≤ u.length) (h : IsParse (u ++ v) i ls) :
    ∃ ms, IsParse u i ms ∧ ms.length ≤ ls.length := by
  induction ls generalizing i with
  | nil =>
    have : i = u.length := by have h' : i = (u ++ v).length := h; rw [List.length_append] at h'; omega
    exact ⟨[], this, le_refl _⟩
  | cons l ls ih =>
    obtain ⟨h1, h2, h3⟩ := h
    rcases Nat.lt_or_ge u.length (i + l) with hl | hl
    · -- the phrase is cut at the end of the prefix
      rcases Nat.eq_or_lt_of_le hi with he | hlt
      · exact ⟨[], he, by simp⟩
      refine ⟨[u.length - i], ⟨by omega, ?_, ?_⟩, by simp⟩
      · rcases h2 with rfl | ⟨j, hj, o1, o2, o3⟩
        · omega
        · refine Or.inr ⟨j, hj, by omega, by omega, fun k hk => ?_⟩
          have := o3 k (by omega)
          rwa [List.getElem?_append_left (by omega), List.getElem?_append_left (by omega)] at this
      · show i + (u.length - i) = u.length; omega
    · obtain ⟨ms, g1, g2⟩ := ih (i + l) hl h3
      refine ⟨l :: ms, ⟨hl, ?_, g1⟩, by simpa using g2⟩
      rcases h2 with rfl | ⟨j, hj, o1, o2, o3⟩
      · exact .inl rfl
      · refine Or.inr ⟨j, hj, by omega, by omega, fun k hk => ?_⟩
        have := o3 k (by omega)
        rwa [List.getElem?_append_left (by omega), List.getElem?_append_left (by omega)] at this

/-- A parse of `v` is, behind `u`, the end of a parse of `u v`. -/
theorem parse_shift {u v : List UInt8} (ls : List Nat) (i : Nat) (h : IsParse v i ls) : IsParse (u ++ v) (u.length + i) ls := by
  induction ls generalizing i with
  | nil => have : i = v.length := h; show u.length + i = (u ++ v).length; rw [List.length_append]; omega
  | cons l ls ih =>
    obtain ⟨h1, h2, h3⟩ := h
    refine ⟨by rw [List.length_append]; omega, ?_, by rw [Nat.add_assoc]; exact ih _ h3⟩
    rcases h2 with rfl | ⟨j, hj, o1, o2, o3⟩
    · exact .inl rfl
    · refine Or.inr ⟨u.length + j, by omega, by rw [List.length_append]; omega, by rw [List.length_append]; omega, fun k hk => ?_⟩
      rw [List.getElem?_append_right (by omega), List.getElem?_append_right (by omega), show u.length + j + k - u.length = j + k by omega,
        show u.length + i + k - u.length = i + k by omega]
      exact o3 k hk

theorem parse_concat {u v : List UInt8} (ls ms : List Nat) (i : Nat) (h : IsParse u i ls) (g : IsParse (u ++ v) u.length ms) :
    IsParse (u ++ v) i (ls ++ ms) := by
  induction ls generalizing i with
  | nil => have : i = u.length := h; subst this; exact g
  | cons l ls ih =>
    obtain ⟨h1, h2, h3⟩ := h
    refine ⟨by rw [List.length_append]; omega, ?_, ih _ h3⟩
    rcases h2 with rfl | ⟨j, hj, o1, o2, o3⟩
    · exact .inl rfl
    · refine Or.inr ⟨j, hj, by rw [List.length_append]; omega, by rw [List.length_append]; omega, fun k hk => ?_⟩
      rw [List.getElem?_append_left (by omega), List.getElem?_append_left (by omega)]
      exact o3 k hk

theorem parse_append {u v : List UInt8} {ls ms : List Nat} (h : IsParse u 0 ls) (g : IsParse v 0 ms) : IsParse (u ++ v) 0 (ls ++ ms) :=
  parse_concat ls ms 0 h (by simpa using parse_shift (u := u) ms 0 g)

theorem parse_map {f : UInt8 → UInt8} {t : List UInt8} (ls : List Nat) (i : Nat) (h : IsParse t i ls) : IsParse (t.map f) i ls := by
  induction ls generalizing i with
  | nil => have : i = t.length := h; show i = (t.map f).length; simpa using this
  | cons l ls ih =>
    obtain ⟨h1, h2, h3⟩ := h
    refine ⟨by simpa using h1, ?_, ih _ h3⟩
    rcases h2 with rfl | ⟨j, hj, o1, o2, o3⟩
    · exact .inl rfl
    · refine Or.inr ⟨j, hj, by simpa using o1, by simpa using o2, fun k hk => ?_⟩
      rw [List.getElem?_map, List.getElem?_map, o3 k hk]

theorem parse_map_inj {f : UInt8 → UInt8} {t : List UInt8} (hf : ∀ x ∈ t, ∀ y ∈ t, f x = f y → x = y) (ls : List Nat) (i : Nat)
    (h : IsParse (t.map f) i ls) : IsParse t i ls := by
  induction ls generalizing i with
  | nil => have : i = (t.map f).length := h; show i = t.length; simpa using this
  | cons l ls ih =>
    obtain ⟨h1, h2, h3⟩ := h
    refine ⟨by simpa using h1, ?_, ih _ h3⟩
    rcases h2 with rfl | ⟨j, hj, o1, o2, o3⟩
    · exact .inl rfl
    · rw [List.length_map] at o1 o2
      refine Or.inr ⟨j, hj, o1, o2, fun k hk => ?_⟩
      have := o3 k hk
      rw [List.getElem?_map, List.getElem?_map, List.getElem?_eq_getElem (by omega), List.getElem?_eq_getElem (by omega),
        Option.map_some, Option.map_some, Option.some.injEq] at this
      rw [List.getElem?_eq_getElem (by omega), List.getElem?_eq_getElem (by omega),
        hf _ (List.getElem_mem _) _ (List.getElem_mem _) this]

/-! ## powers -/

/-- `t` repeats with period `p` at distance `p`. -/
theorem parse_periodic {t : List UInt8} {p : Nat} (hp : 0 < p) (hper : ∀ i, i + p < t.length → t[i]? = t[i + p]?) {i : Nat}
    (hi : p ≤ i) (hil : i ≤ t.length) : IsParse t i [t.length - i] := by
  refine ⟨by omega, Or.inr ⟨i - p, by omega, by omega, by omega, fun k hk => ?_⟩, by show i + (t.length - i) = t.length; omega⟩
  have := hper (i - p + k) (by omega)
  rw [this, show i - p + k + p = i + k by omega]

theorem periodic_far {t : List UInt8} {p : Nat} (hper : ∀ i, i + p < t.length → t[i]? = t[i + p]?) (m : Nat) {i : Nat}
    (h : i + m * p < t.length) : t[i]? = t[i + m * p]? := by
  induction m with
  | zero => simp
  | succ m ih =>
    have e : i + (m + 1) * p = i + m * p + p := by rw [Nat.add_mul, Nat.one_mul, Nat.add_assoc]
    rw [e] at h ⊢
    rw [ih (by omega), hper _ h]

/-- A copy that agrees for a whole period agrees up to the end. -/
theorem periodic_agree {t : List UInt8} {p : Nat} (hp : 0 < p) (hper : ∀ i, i + p < t.length → t[i]? = t[i + p]?) {i j : Nat} (hji : j ≤ i)
    (h : ∀ k, k < p → t[j + k]? = t[i + k]?) (k : Nat) (hk : i + k < t.length) : t[j + k]? = t[i + k]? := by
  have hlt : k % p < p := Nat.mod_lt _ hp
  have e : k = k % p + (k / p) * p := by rw [Nat.mul_comm]; exact (Nat.mod_add_div k p).symm
  have h1 := periodic_far hper (k / p) (i := j + k % p) (by omega)
  have h2 := periodic_far hper (k / p) (i := i + k % p) (by omega)
  rw [show j + k = j + k % p + k / p * p by omega, show i + k = i + k % p + k / p * p by omega, ← h1, ← h2, h _ hlt]

/-- A parse of a prefix of length at least two periods extends to the whole periodic text without a further phrase. -/
theorem parse_power {t u v : List UInt8} {p : Nat} (ht : t = u ++ v) (hp : 0 < p) (hper : ∀ i, i + p < t.length → t[i]? = t[i + p]?)
    (hu : 2 * p ≤ u.length) (ls : List Nat) (i : Nat) (hi : i < u.length) (h : IsParse u i ls) :
    ∃ ms, IsParse t i ms ∧ ms.length ≤ ls.length := by
  induction ls generalizing i with
  | nil => have : i = u.length := h; omega
  | cons l ls ih =>
    obtain ⟨h1, h2, h3⟩ := h
    have hlen : t.length = u.length + v.length := by rw [ht, List.length_append]
    rcases Nat.eq_or_lt_of_le h1 with he | hl
    · -- the last phrase
      rcases Nat.lt_or_ge i p with hip | hip
      · rcases h2 with rfl | ⟨j, hj, o1, o2, o3⟩
        · omega
        · refine ⟨[t.length - i], ⟨by omega, Or.inr ⟨j, hj, by omega, by omega, fun k hk => ?_⟩,
            by show i + (t.length - i) = t.length; omega⟩, by simp⟩
          refine periodic_agree hp hper hj.le (fun k hk => ?_) k (by omega)
          have := o3 k (by omega)
          rwa [ht, List.getElem?_append_left (by omega), List.getElem?_append_left (by omega)]
      · exact ⟨_, parse_periodic hp hper hip (by omega), by simp⟩
    · obtain ⟨ms, g1, g2⟩ := ih (i + l) hl h3
      refine ⟨l :: ms, ⟨by omega, ?_, g1⟩, by simpa using g2⟩
      rcases h2 with rfl | ⟨j, hj, o1, o2, o3⟩
      · exact .inl rfl
      · refine Or.inr ⟨j, hj, by omega, by omega, fun k hk => ?_⟩
        have := o3 k (by omega)
        rwa [ht, List.getElem?_append_left (by omega), List.getElem?_append_left (by omega)]

theorem power_period (w : List UInt8) (k : Nat) (i : Nat) (h : i + w.length < (List.replicate k w).flatten.length) :
    (List.replicate k w).flatten[i]? = (List.replicate k w).flatten[i + w.length]? := by
  induction k generalizing i with
  | zero => simp at h
  | succ k ih =>
    rw [List.replicate_succ, List.flatten_cons] at h ⊢
    rw [List.length_append] at h
    rw [List.getElem?_append_right (i := i + w.length) (by omega), Nat.add_sub_cancel]
    rcases Nat.lt_or_ge i w.length with hi | hi
    · rw [List.getElem?_append_left hi]
      cases k with
      | zero => simp at h; omega
      | succ k => rw [List.replicate_succ, List.flatten_cons, List.getElem?_append_left hi]
    · rw [List.getElem?_append_right hi, ih _ (by omega), Nat.sub_add_cancel hi]

/-! ## edits -/

section Insert

variable {u v : List UInt8} {c : UInt8}

theorem ins_left {i : Nat} (h : i < u.length) : (u ++ c :: v)[i]? = (u ++ v)[i]? := by
  rw [List.getElem?_append_left h, List.getElem?_append_left h]

theorem ins_right {i : Nat} (h : u.length ≤ i) : (u ++ c :: v)[i + 1]? = (u ++ v)[i]? := by
  rw [List.getElem?_append_right (by omega), List.getElem?_append_right h, show i + 1 - u.length = i - u.length + 1 by omega,
    List.getElem?_cons_succ]

theorem ins_len : (u ++ c :: v).length = (u ++ v).length + 1 := by simp; omega

/-- A copy behind the insertion becomes at most two copies. -/
theorem ins_copy {i j l : Nat} (hi : u.length ≤ i) (hj : j < i) (o : Occ (u ++ v) j i l) :
    ∃ ms : List Nat, ms.length ≤ 2 ∧ ∀ rest, IsParse (u ++ c :: v) (i + l + 1) rest → IsParse (u ++ c :: v) (i + 1) (ms ++ rest) := by
  obtain ⟨o1, o2, o3⟩ := o
  have hL := ins_len (u := u) (v := v) (c := c)
  have hR : ∀ {i : Nat}, u.length ≤ i → (u ++ c :: v)[i + 1]? = (u ++ v)[i]? := ins_right
  rcases Nat.lt_or_ge j u.length with h1 | h1
  · rcases Nat.lt_or_ge u.length (j + l) with h2 | h2
    · refine ⟨[u.length - j, l - (u.length - j)], by simp, fun rest hr => ⟨by omega, ?_, by omega, ?_, ?_⟩⟩
      · refine Or.inr ⟨j, by omega, by omega, by omega, fun k hk => ?_⟩
        rw [ins_left (by omega), show i + 1 + k = i + k + 1 by omega, hR (by omega)]
        exact o3 k (by omega)
      · refine Or.inr ⟨u.length + 1, by omega, by omega, by omega, fun k hk => ?_⟩
        rw [show u.length + 1 + k = u.length + k + 1 by omega, show i + 1 + (u.length - j) + k = i + (u.length - j + k) + 1 by omega,
          hR (by omega), hR (by omega), ← o3 _ (by omega), show j + (u.length - j + k) = u.length + k by omega]
      · rwa [show i + 1 + (u.length - j) + (l - (u.length - j)) = i + l + 1 by omega]
    · refine ⟨[l], by simp, fun rest hr => ⟨by omega, Or.inr ⟨j, by omega, by omega, by omega, fun k hk => ?_⟩, by
        rwa [show i + 1 + l = i + l + 1 by omega]⟩⟩
      rw [ins_left (by omega), show i + 1 + k = i + k + 1 by omega, hR (by omega)]
      exact o3 k hk
  · refine ⟨[l], by simp, fun rest hr => ⟨by omega, Or.inr ⟨j + 1, by omega, by omega, by omega, fun k hk => ?_⟩, by
      rwa [show i + 1 + l = i + l + 1 by omega]⟩⟩
    rw [show j + 1 + k = j + k + 1 by omega, show i + 1 + k = i + k + 1 by omega, hR (by omega), hR (by omega)]
    exact o3 k hk

theorem ins_behind (ls : List Nat) (i : Nat) (hi : u.length ≤ i) (h : IsParse (u ++ v) i ls) :
    ∃ ms, IsParse (u ++ c :: v) (i + 1) ms ∧ ms.length ≤ 2 * ls.length := by
  induction ls generalizing i with
  | nil =>
    have : i = (u ++ v).length := h
    exact ⟨[], by show i + 1 = (u ++ c :: v).length; rw [ins_len, this], by simp⟩
  | cons l ls ih =>
    obtain ⟨h1, h2, h3⟩ := h
    obtain ⟨ms, g1, g2⟩ := ih (i + l) (by omega) h3
    rcases h2 with rfl | ⟨j, hj, o⟩
    · exact ⟨1 :: ms, ⟨by rw [ins_len]; omega, .inl rfl, g1⟩, by simp; omega⟩
    · obtain ⟨ps, p1, p2⟩ := ins_copy (c := c) hi hj o
      exact ⟨ps ++ ms, p2 ms g1, by simp; omega⟩

theorem ins_parse (ls : List Nat) (i : Nat) (hi : i ≤ u.length) (h : IsParse (u ++ v) i ls) :
    ∃ ms, IsParse (u ++ c :: v) i ms ∧ ms.length ≤ 2 * ls.length + 2 := by
  induction ls generalizing i with
  | nil =>
    have h' : i = (u ++ v).length := h
    exact ⟨[1], ⟨by rw [ins_len]; omega, .inl rfl, by show i + 1 = (u ++ c :: v).length; rw [ins_len, h']⟩, by simp⟩
  | cons l ls ih =>
    rcases Nat.eq_or_lt_of_le hi with rfl | hlt
    · obtain ⟨ms, g1, g2⟩ := ins_behind (c := c) (l :: ls) _ (le_refl _) h
      exact ⟨1 :: ms, ⟨by rw [ins_len, List.length_append]; omega, .inl rfl, g1⟩, by simp at g2 ⊢; omega⟩
    obtain ⟨h1, h2, h3⟩ := h
    have hL := ins_len (u := u) (v := v) (c := c)
    rcases Nat.lt_or_ge u.length (i + l) with hl | hl
    · -- the phrase meets the new letter
      rcases h2 with rfl | ⟨j, hj, o1, o2, o3⟩
      · omega
      · obtain ⟨ms, g1, g2⟩ := ins_behind (c := c) ls (i + l) (by omega) h3
        have o' : Occ (u ++ v) (j + (u.length - i)) u.length (l - (u.length - i)) := by
          refine ⟨by omega, by omega, fun k hk => ?_⟩
          have := o3 (u.length - i + k) (by omega)
          rwa [← Nat.add_assoc, ← Nat.add_assoc, show i + (u.length - i) + k = u.length + k by omega] at this
        obtain ⟨ps, p1, p2⟩ := ins_copy (c := c) (le_refl _) (by omega) o'
        have hr := p2 ms (by rwa [show u.length + (l - (u.length - i)) + 1 = i + l + 1 by omega])
        refine ⟨(u.length - i) :: 1 :: (ps ++ ms), ⟨by omega, Or.inr ⟨j, hj, by omega, by omega, fun k hk => ?_⟩, by omega, .inl rfl, ?_⟩,
          by simp; omega⟩
        · rw [ins_left (by omega), ins_left (by omega)]; exact o3 k (by omega)
        · rwa [show i + (u.length - i) + 1 = u.length + 1 by omega]
    · obtain ⟨ms, g1, g2⟩ := ih (i + l) hl h3
      refine ⟨l :: ms, ⟨by omega, ?_, g1⟩, by simp; omega⟩
      rcases h2 with rfl | ⟨j, hj, o1, o2, o3⟩
      · exact .inl rfl
      · refine Or.inr ⟨j, hj, by omega, by omega, fun k hk => ?_⟩
        rw [ins_left (by omega), ins_left (by omega)]; exact o3 k hk

/-- A copy behind the deletion becomes at most three phrases. -/
theorem del_copy {i j l : Nat} (hi : u.length ≤ i) (hj : j < i + 1) (o : Occ (u ++ c :: v) j (i + 1) l) :
    ∃ ms : List Nat, ms.length ≤ 3 ∧ ∀ rest, IsParse (u ++ v) (i + l) rest → IsParse (u ++ v) i (ms ++ rest) := by
  obtain ⟨o1, o2, o3⟩ := o
  have hL := ins_len (u := u) (v := v) (c := c)
  have hR : ∀ {i : Nat}, u.length ≤ i → (u ++ c :: v)[i + 1]? = (u ++ v)[i]? := ins_right
  rcases Nat.lt_or_ge u.length j with h1 | h1
  · refine ⟨[l], by simp, fun rest hr => ⟨by omega, Or.inr ⟨j - 1, by omega, by omega, by omega, fun k hk => ?_⟩, hr⟩⟩
    rw [← hR (i := j - 1 + k) (by omega), ← hR (i := i + k) (by omega), show j - 1 + k + 1 = j + k by omega, o3 k hk, show i + 1 + k = i + k + 1 by omega]
  rcases Nat.lt_or_ge u.length (j + l) with h2 | h2
  · -- the source contains the deleted letter
    have q1 : ∀ k, k < u.length - j → (u ++ v)[j + k]? = (u ++ v)[i + k]? := fun k hk => by
      rw [← hR (i := i + k) (by omega), ← ins_left (c := c) (i := j + k) (by omega), o3 k (by omega), show i + 1 + k = i + k + 1 by omega]
    have q2 : ∀ k, k < l - (u.length - j) - 1 → (u ++ v)[u.length + k]? = (u ++ v)[i + (u.length - j) + 1 + k]? := fun k hk => by
      rw [← hR (i := u.length + k) (by omega), ← hR (i := i + (u.length - j) + 1 + k) (by omega)]
      have := o3 (u.length - j + 1 + k) (by omega)
      rw [show j + (u.length - j + 1 + k) = u.length + k + 1 by omega] at this
      rw [this, show i + 1 + (u.length - j + 1 + k) = i + (u.length - j) + 1 + k + 1 by omega]
    rcases Nat.eq_or_lt_of_le h1 with he | hlt
    · subst he
      refine ⟨[1, l - 1], by simp, fun rest hr => ⟨by omega, .inl rfl, by omega, ?_, by rwa [show i + 1 + (l - 1) = i + l by omega]⟩⟩
      refine Or.inr ⟨u.length, by omega, by omega, by omega, fun k hk => ?_⟩
      have := q2 k (by omega)
      rwa [show i + (u.length - u.length) + 1 + k = i + 1 + k by omega] at this
    · refine ⟨[u.length - j, 1, l - (u.length - j) - 1], by simp, fun rest hr => ⟨by omega, ?_, by omega, .inl rfl, by omega, ?_, ?_⟩⟩
      · exact Or.inr ⟨j, by omega, by omega, by omega, q1⟩
      · exact Or.inr ⟨u.length, by omega, by omega, by omega, q2⟩
      · rwa [show i + (u.length - j) + 1 + (l - (u.length - j) - 1) = i + l by omega]
  · rcases Nat.eq_zero_or_pos l with rfl | hl
    · exact ⟨[], by simp, fun rest hr => hr⟩
    · refine ⟨[l], by simp, fun rest hr => ⟨by omega, Or.inr ⟨j, by omega, by omega, by omega, fun k hk => ?_⟩, hr⟩⟩
      rw [← hR (i := i + k) (by omega), ← ins_left (c := c) (i := j + k) (by omega), o3 k (by omega), show i + 1 + k = i + k + 1 by omega]

theorem del_behind (ls : List Nat) (i : Nat) (hi : u.length ≤ i) (h : IsParse (u ++ c :: v) (i + 1) ls) :
    ∃ ms, IsParse (u ++ v) i ms ∧ ms.length ≤ 3 * ls.length := by
  induction ls generalizing i with
  | nil =>
    have h' : i + 1 = (u ++ c :: v).length := h
    rw [ins_len] at h'
    exact ⟨[], by show i = (u ++ v).length; omega, by simp⟩
  | cons l ls ih =>
    obtain ⟨h1, h2, h3⟩ := h
    rw [ins_len] at h1
    obtain ⟨ms, g1, g2⟩ := ih (i + l) (by omega) (by rwa [show i + l + 1 = i + 1 + l by omega])
    rcases h2 with rfl | ⟨j, hj, o⟩
    · exact ⟨1 :: ms, ⟨by omega, .inl rfl, g1⟩, by simp; omega⟩
    · obtain ⟨ps, p1, p2⟩ := del_copy hi hj o
      exact ⟨ps ++ ms, p2 ms g1, by simp; omega⟩

theorem del_parse (ls : List Nat) (i : Nat) (hi : i ≤ u.length) (h : IsParse (u ++ c :: v) i ls) :
    ∃ ms, IsParse (u ++ v) i ms ∧ ms.length ≤ 3 * ls.length + 1 := by
  induction ls generalizing i with
  | nil =>
    have h' : i = (u ++ c :: v).length := h
    rw [ins_len, List.length_append] at h'
    omega
  | cons l ls ih =>
    obtain ⟨h1, h2, h3⟩ := h
    rw [ins_len] at h1
    have hL := ins_len (u := u) (v := v) (c := c)
    have hL2 := List.length_append (as := u) (bs := v)
    rcases Nat.lt_or_ge u.length (i + l) with hl | hl
    · obtain ⟨ms, g1, g2⟩ := del_behind (u := u) (v := v) (c := c) ls (i + l - 1) (by omega) (by rwa [show i + l - 1 + 1 = i + l by omega])
      rcases h2 with rfl | ⟨j, hj, o1, o2, o3⟩
      · obtain rfl : i = u.length := by omega
        exact ⟨ms, by simpa using g1, by simp; omega⟩
      · have o' : Occ (u ++ c :: v) (j + (u.length - i) + 1) (u.length + 1) (l - (u.length - i) - 1) := by
          refine ⟨by omega, by omega, fun k hk => ?_⟩
          have := o3 (u.length - i + 1 + k) (by omega)
          rwa [show j + (u.length - i + 1 + k) = j + (u.length - i) + 1 + k by omega,
            show i + (u.length - i + 1 + k) = u.length + 1 + k by omega] at this
        obtain ⟨ps, p1, p2⟩ := del_copy (le_refl u.length) (by omega) o'
        have hr := p2 ms (by rwa [show u.length + (l - (u.length - i) - 1) = i + l - 1 by omega])
        rcases Nat.eq_or_lt_of_le hi with rfl | hlt
        · exact ⟨ps ++ ms, hr, by simp; omega⟩
        · refine ⟨(u.length - i) :: (ps ++ ms), ⟨by omega, Or.inr ⟨j, hj, by omega, by omega, fun k hk => ?_⟩, ?_⟩, by simp; omega⟩
          · rw [← ins_left (c := c) (i := j + k) (by omega), ← ins_left (c := c) (i := i + k) (by omega)]; exact o3 k (by omega)
          · rwa [show i + (u.length - i) = u.length by omega]
    · obtain ⟨ms, g1, g2⟩ := ih (i + l) hl h3
      refine ⟨l :: ms, ⟨by omega, ?_, g1⟩, by simp; omega⟩
      rcases h2 with rfl | ⟨j, hj, o1, o2, o3⟩
      · exact .inl rfl
      · refine Or.inr ⟨j, hj, by omega, by omega, fun k hk => ?_⟩
        rw [← ins_left (c := c) (i := j + k) (by omega), ← ins_left (c := c) (i := i + k) (by omega)]; exact o3 k hk

end Insert

end Verif
