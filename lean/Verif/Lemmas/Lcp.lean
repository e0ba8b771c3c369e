import Verif.Lemmas.Perm

/-! # Longest common prefixes, `compute_plcp`, `compute_lcp` -/

namespace Verif

open Spec Model

section basic
variable {α : Type} [DecidableEq α]

theorem lcpLen_comm (u v : List α) : lcpLen u v = lcpLen v u := by
  induction u generalizing v with
  | nil => cases v <;> rfl
  | cons a u ih =>
    cases v with
    | nil => rfl
    | cons b v =>
      simp only [lcpLen]
      by_cases h : a = b
      · rw [if_pos h, if_pos h.symm, ih]
      · rw [if_neg h, if_neg (fun e => h e.symm)]

@[simp] theorem lcpLen_nil_left (v : List α) : lcpLen [] v = 0 := rfl
@[simp] theorem lcpLen_nil_right (u : List α) : lcpLen u [] = 0 := by cases u <;> rfl

theorem lcpLen_self (u : List α) : lcpLen u u = u.length := by
  induction u with
  | nil => rfl
  | cons a u ih => simp [lcpLen, ih]

theorem lcpLen_append_left (p u v : List α) : lcpLen (p ++ u) (p ++ v) = p.length + lcpLen u v := by
  induction p with
  | nil => simp
  | cons a p ih => simp [lcpLen, ih]; omega

/-- The defining property: the longest common prefix length. -/
theorem le_lcpLen {u v : List α} {k : Nat} :
    k ≤ lcpLen u v ↔ k ≤ u.length ∧ k ≤ v.length ∧ u.take k = v.take k := by
  induction u generalizing v k with
  | nil =>
    cases k with
    | zero => simp
    | succ k => simp
  | cons a u ih =>
    cases v with
    | nil =>
      cases k with
      | zero => simp
      | succ k => simp
    | cons b v =>
      cases k with
      | zero => simp
      | succ k =>
        simp only [lcpLen]
        by_cases h : a = b
        · subst h; rw [if_pos rfl]; simp [ih]
        · rw [if_neg h]; simp [h]

theorem le_lcpLen_iff_get {u v : List α} {k : Nat} :
    k ≤ lcpLen u v ↔ k ≤ u.length ∧ k ≤ v.length ∧ ∀ x, x < k → u[x]? = v[x]? := by
  rw [le_lcpLen]
  refine and_congr_right (fun h1 => and_congr_right (fun h2 => ⟨fun h x hx => ?_, fun h => ?_⟩))
  · have := congrArg (·[x]?) h
    simpa [hx] using this
  · apply List.ext_getElem?
    intro x
    by_cases hx : x < k
    · rw [List.getElem?_take_of_lt hx, List.getElem?_take_of_lt hx, h x hx]
    · simp [hx]

theorem lcpLen_le_left (u v : List α) : lcpLen u v ≤ u.length := (le_lcpLen.1 (le_refl _)).1
theorem lcpLen_le_right (u v : List α) : lcpLen u v ≤ v.length := (le_lcpLen.1 (le_refl _)).2.1
theorem lcpLen_take (u v : List α) : u.take (lcpLen u v) = v.take (lcpLen u v) :=
  (le_lcpLen.1 (le_refl _)).2.2

theorem lcpLen_mismatch {u v : List α} (h1 : lcpLen u v < u.length) (h2 : lcpLen u v < v.length) :
    u[lcpLen u v]? ≠ v[lcpLen u v]? := by
  intro e
  have := (le_lcpLen_iff_get (u := u) (v := v) (k := lcpLen u v + 1)).2 ⟨h1, h2, fun x hx => by
    rcases Nat.lt_or_ge x (lcpLen u v) with h | h
    · exact (le_lcpLen_iff_get.1 (le_refl _)).2.2 x h
    · have : x = lcpLen u v := by omega
      rw [this]; exact e⟩
  omega

theorem le_lcpLen_trans {u v w : List α} {k : Nat} (h1 : k ≤ lcpLen u v) (h2 : k ≤ lcpLen v w) :
    k ≤ lcpLen u w := by
  rw [le_lcpLen] at *
  exact ⟨h1.1, h2.2.1, h1.2.2.trans h2.2.2⟩

theorem lcpLen_pos {u v : List α} : 0 < lcpLen u v ↔ ∃ c u' v', u = c :: u' ∧ v = c :: v' := by
  cases u with
  | nil => simp
  | cons a u =>
    cases v with
    | nil => simp
    | cons b v =>
      simp only [lcpLen]
      by_cases h : a = b
      · subst h; simp
      · rw [if_neg h]
        constructor
        · omega
        · rintro ⟨c, u', v', e1, e2⟩
          simp at e1 e2
          exact absurd (e1.1.trans e2.1.symm) h

end basic

variable {α : Type} [LinearOrder α]

/-- Between `u ≤ v ≤ w` the common prefix of the outer words is shared by all. -/
theorem lcpLen_le_of_between {u v w : List α} (h1 : u ≤ v) (h2 : v ≤ w) :
    lcpLen u w ≤ lcpLen u v ∧ lcpLen u w ≤ lcpLen v w := by
  suffices H : lcpLen u w ≤ lcpLen u v by
    refine ⟨H, ?_⟩
    rw [lcpLen_comm v w]
    exact le_lcpLen_trans (v := u) (by rw [lcpLen_comm w u]) H
  induction u generalizing v w with
  | nil => simp
  | cons a u ih =>
    cases w with
    | nil => simp
    | cons c w =>
      by_cases hac : a = c
      · subst hac
        cases v with
        | nil => exact absurd h1 (not_le.2 (List.nil_lt_cons _ _))
        | cons b v =>
          have hab : a = b := by
            rcases lt_trichotomy a b with h | h | h
            · exact absurd h2 (not_le.2 (cons_lt_cons.2 (Or.inl h)))
            · exact h
            · exact absurd h1 (not_le.2 (cons_lt_cons.2 (Or.inl h)))
          subst hab
          have h1' : u ≤ v := by simpa using (append_le_left (p := [a])).1 h1
          have h2' : v ≤ w := by simpa using (append_le_left (p := [a])).1 h2
          simpa [lcpLen] using ih h1' h2'
      · simp [lcpLen, hac]

theorem lcpLen_between_eq {u v w : List α} (h1 : u ≤ v) (h2 : v ≤ w) :
    lcpLen u w = min (lcpLen u v) (lcpLen v w) := by
  obtain ⟨a, b⟩ := lcpLen_le_of_between h1 h2
  apply le_antisymm (by omega)
  exact le_lcpLen_trans (v := v) (by omega) (by omega)

/-- `phi` maps every suffix to its predecessor in the suffix array, cyclically. -/
structure IsPhi (sa phi : List Nat) : Prop where
  len : phi.length = sa.length
  step : ∀ i (_ : 0 < i) (hi : i < sa.length), phi[sa[i]]? = some (sa[i - 1]'(by omega))
  first : ∀ (h : 0 < sa.length), phi[sa[0]]? = some (sa[sa.length - 1]'(by omega))

/-- The cyclic predecessor of a suffix. -/
theorem IsPhi.total {t : List α} {sa phi : List Nat} (hs : IsSuffixArray t sa) (hp : IsPhi sa phi)
    {b : Nat} (hb : b < t.length) : ∃ a, phi[b]? = some a ∧ a < t.length := by
  obtain ⟨i, hi, rfl⟩ := hs.rank hb
  rcases Nat.eq_zero_or_pos i with rfl | h0
  · exact ⟨_, hp.first hi, hs.lt _⟩
  · exact ⟨_, hp.step i h0 hi, hs.lt _⟩

/-- The last suffix has length 1 and lies between the first and last in the suffix array. -/
theorem first_last_lcp_le_one {t : List α} {sa : List Nat} (hs : IsSuffixArray t sa)
    (hn : 0 < sa.length) : lcpLen (t.drop (sa[sa.length - 1]'(by omega))) (t.drop sa[0]) ≤ 1 := by
  by_contra hl
  rw [not_le] at hl
  have hlen := hs.length
  obtain ⟨r, hr, hre⟩ := hs.rank (show t.length - 1 < t.length by omega)
  have h1 : t.drop sa[0] ≤ t.drop sa[r] := (hs.le_iff hn hr).2 (Nat.zero_le _)
  have h2 : t.drop sa[r] ≤ t.drop (sa[sa.length - 1]'(by omega)) := (hs.le_iff hr (by omega)).2 (by omega)
  have h3 := lcpLen_le_of_between h1 h2
  rw [lcpLen_comm] at hl
  have h4 := lcpLen_le_right (t.drop sa[0]) (t.drop sa[r])
  rw [List.length_drop] at h4
  omega

/-- Kasai's lemma for the cyclic predecessor. -/
theorem kasai {t : List α} {sa phi : List Nat} (hs : IsSuffixArray t sa) (hp : IsPhi sa phi)
    {a b a' : Nat} (hb : b + 1 < t.length) (ha : phi[b]? = some a) (ha' : phi[b + 1]? = some a') :
    lcpLen (t.drop a) (t.drop b) - 1 ≤ lcpLen (t.drop a') (t.drop (b + 1)) := by
  by_cases hl : lcpLen (t.drop a) (t.drop b) ≤ 1
  · omega
  rw [not_le] at hl
  obtain ⟨i, hi, hib⟩ := hs.rank (show b < t.length by omega)
  rcases Nat.eq_zero_or_pos i with rfl | h0
  · exfalso
    have e := hp.first hi
    rw [hib, ha] at e
    simp only [Option.some.injEq] at e
    have := first_last_lcp_le_one hs hi
    rw [← e, hib] at this
    omega
  · have e := hp.step i h0 hi
    rw [hib, ha] at e
    simp only [Option.some.injEq] at e
    have hal : a < t.length := by rw [e]; exact hs.lt _
    have hlt : t.drop a < t.drop b := by
      rw [e, ← hib]; exact (hs.lt_iff _ hi).2 (by omega)
    have hla := lcpLen_le_left (t.drop a) (t.drop b)
    rw [List.length_drop] at hla
    have ea : t.drop a = t[a] :: t.drop (a + 1) := (List.getElem_cons_drop hal).symm
    have eb : t.drop b = t[b]'(by omega) :: t.drop (b + 1) := (List.getElem_cons_drop (by omega)).symm
    obtain ⟨c, u', v', c1, c2⟩ := lcpLen_pos.1 (show 0 < lcpLen (t.drop a) (t.drop b) by omega)
    rw [ea] at c1; rw [eb] at c2
    injection c1 with c1 c1'
    injection c2 with c2 c2'
    have heq : t[a] = t[b]'(by omega) := c1.trans c2.symm
    rw [ea, eb, heq] at hlt
    have hlt' : t.drop (a + 1) < t.drop (b + 1) := by
      rcases cons_lt_cons.1 hlt with h | h
      · exact absurd h (lt_irrefl _)
      · exact h.2
    have hlcp : lcpLen (t.drop a) (t.drop b) = lcpLen (t.drop (a + 1)) (t.drop (b + 1)) + 1 := by
      rw [ea, eb, heq]; simp [lcpLen]
    obtain ⟨j, hj, hjb⟩ := hs.rank hb
    obtain ⟨k, hk, hka⟩ := hs.rank (show a + 1 < t.length by omega)
    have hkj : k < j := by rw [← hs.lt_iff hk hj, hka, hjb]; exact hlt'
    have e' := hp.step j (by omega) hj
    rw [hjb, ha'] at e'
    simp only [Option.some.injEq] at e'
    have h1 : t.drop (a + 1) ≤ t.drop a' := by
      rw [← hka, e']; exact (hs.le_iff hk _).2 (by omega)
    have h2 : t.drop a' ≤ t.drop (b + 1) := by
      rw [← hjb, e']; exact (hs.le_iff _ hj).2 (by omega)
    have := (lcpLen_le_of_between h1 h2).2
    omega

/-- The extension loop finds the longest common prefix. -/
theorem plcpLoop {t : List α} {a b l : Nat} (ha : a < t.length) (hb : b < t.length)
    (hl : l ≤ lcpLen (t.drop a) (t.drop b)) :
    whileLoop (t.length + 1) (plcpCond t a b) (fun l => pure (l + 1)) l =
      .ok (lcpLen (t.drop a) (t.drop b)) := by
  set L := lcpLen (t.drop a) (t.drop b) with hL
  have hLa : L ≤ t.length - a := by rw [hL, ← List.length_drop]; exact lcpLen_le_left _ _
  have hLb : L ≤ t.length - b := by rw [hL, ← List.length_drop]; exact lcpLen_le_right _ _
  have hcond : ∀ m, m < L → plcpCond t a b m = .ok true := by
    intro m hm
    simp only [plcpCond]
    rw [if_pos (by omega), rd_ok (show a + m < t.length by omega), ok_bind,
      rd_ok (show b + m < t.length by omega), ok_bind]
    have := (le_lcpLen_iff_get.1 (le_refl L)).2.2 m hm
    rw [List.getElem?_drop, List.getElem?_drop, List.getElem?_eq_getElem (by omega),
      List.getElem?_eq_getElem (by omega)] at this
    simp only [Option.some.injEq] at this
    simp [this, pure_ok]
  have hend : plcpCond t a b L = .ok false := by
    simp only [plcpCond]
    by_cases h : a + L < t.length ∧ b + L < t.length
    · rw [if_pos h, rd_ok h.1, ok_bind, rd_ok h.2, ok_bind]
      have := lcpLen_mismatch (u := t.drop a) (v := t.drop b) (by rw [List.length_drop]; omega)
        (by rw [List.length_drop]; omega)
      rw [← hL, List.getElem?_drop, List.getElem?_drop, List.getElem?_eq_getElem h.1,
        List.getElem?_eq_getElem h.2] at this
      simp only [ne_eq, Option.some.injEq] at this
      simp [this, pure_ok]
    · rw [if_neg h]; rfl
  obtain ⟨s, h1, h2, h3⟩ := whileLoop_inv (fun m => m ≤ L) (fun m => L - m) (fuel := t.length + 1)
    (cond := plcpCond t a b) (body := fun l => pure (l + 1)) (s := l) hl (by omega) (by
      intro m hm
      rcases Nat.lt_or_ge m L with h | h
      · exact Or.inr ⟨hcond m h, m + 1, rfl, h, by omega⟩
      · have : m = L := by omega
        subst this; exact Or.inl hend)
  rw [h1]
  congr 1
  rcases Nat.lt_or_ge s L with h | h
  · rw [hcond s h] at h3; injection h3 with h3; cases h3
  · omega

theorem computePlcp_ok {t : List α} {sa phi : List Nat} (hs : IsSuffixArray t sa)
    (hp : IsPhi sa phi) (hn : t.length < 4294967296) :
    ∃ plcp, computePlcp t phi = .ok plcp ∧ plcp.length = t.length ∧
      ∀ b, b < t.length → ∃ a, phi[b]? = some a ∧ a < t.length ∧
        plcp[b]? = some (lcpLen (t.drop a) (t.drop b)) := by
  simp only [computePlcp, assertR]
  rw [if_pos (by simp [hp.len, hs.length]), ok_bind]
  obtain ⟨⟨plcp, l⟩, h1, h2, h3, -⟩ := forRange_inv
    (fun k (s : List Nat × Nat) => s.1.length = t.length ∧
      (∀ b, b < k → ∃ a, phi[b]? = some a ∧ a < t.length ∧
        s.1[b]? = some (lcpLen (t.drop a) (t.drop b))) ∧
      (∀ a, k < t.length → phi[k]? = some a → s.2 ≤ lcpLen (t.drop a) (t.drop k)))
    (lo := 0) (hi := t.length) (s := (List.replicate t.length 0, 0))
    (body := fun b (s : List Nat × Nat) => do
      let (plcp, length) := s
      let a ← rd phi b
      let length ← whileLoop (t.length + 1) (plcpCond t a b) (fun l => pure (l + 1)) length
      let plcp ← wr plcp b (asU32 length)
      pure (plcp, length - 1)) (Nat.zero_le _)
    ⟨by simp, by intros; omega, by intros; simp⟩ (by
      rintro b ⟨plcp, l⟩ - hb ⟨e1, e2, e3⟩
      dsimp only at e1 e2 e3 ⊢
      obtain ⟨a, ha, hal⟩ := hp.total hs hb
      have hL := lcpLen_le_right (t.drop a) (t.drop b)
      rw [List.length_drop] at hL
      rw [rd_some ha, ok_bind, plcpLoop hal hb (e3 a hb ha), ok_bind, wr_ok (by omega), ok_bind]
      refine ⟨_, rfl, by simpa using e1, ?_, ?_⟩
      · intro c hc
        dsimp only
        rcases Nat.lt_or_ge c b with h | h
        · rw [List.getElem?_set_ne (by omega)]; exact e2 c h
        · have : c = b := by omega
          subst this
          refine ⟨a, ha, hal, ?_⟩
          rw [List.getElem?_set_self (by omega), asU32, Nat.mod_eq_of_lt (by omega)]
      · intro a' hb' ha'
        exact kasai hs hp hb' ha ha')
  dsimp only at h2 h3
  exact ⟨plcp, by rw [h1]; rfl, h2, h3⟩

theorem isPhi_of_computePhi {t : List α} {sa : List Nat} (hs : IsSuffixArray t sa)
    (hne : 0 < t.length) : ∃ phi, computePhi sa = .ok phi ∧ IsPhi sa phi := by
  have h0 : 0 < sa.length := by rw [hs.length]; exact hne
  obtain ⟨phi, h1, h2, h3, h4⟩ := computePhi_ok hs.perm h0
  exact ⟨phi, h1, h2, h3, fun _ => h4⟩

/-- The chain used by every tool: phi, plcp, lcp. -/
theorem lcpChain {t : List α} {sa : List Nat} (hs : IsSuffixArray t sa) (hne : 0 < t.length)
    (hn : t.length < 4294967296) :
    ∃ phi plcp lcp, computePhi sa = .ok phi ∧ IsPhi sa phi ∧ computePlcp t phi = .ok plcp ∧
      plcp.length = t.length ∧
      (∀ b, b < t.length → ∃ a, phi[b]? = some a ∧ a < t.length ∧
        plcp[b]? = some (lcpLen (t.drop a) (t.drop b))) ∧
      computeLcp plcp sa = .ok lcp ∧ lcp.length = t.length ∧
      (∀ i (_ : 0 < i) (hi : i < sa.length),
        lcp[i]? = some (lcpLen (t.drop (sa[i - 1]'(by omega))) (t.drop sa[i]))) ∧
      (∀ (h : 0 < sa.length),
        lcp[0]? = some (lcpLen (t.drop (sa[sa.length - 1]'(by omega))) (t.drop sa[0]))) := by
  obtain ⟨phi, h1, h2⟩ := isPhi_of_computePhi hs hne
  obtain ⟨plcp, h3, h4, h5⟩ := computePlcp_ok hs h2 hn
  have hlen := hs.length
  have hlcp : computeLcp plcp sa =
      .ok ((List.range plcp.length).map (fun i => plcp.getD (sa.getD i 0) 0)) := by
    simp only [computeLcp, assertR]
    rw [if_pos (by simp; omega), ok_bind]
    apply forRange_fill (by simp)
    intro i w hi _
    rw [rd_ok (show i < sa.length by omega), ok_bind]
    have hl := hs.lt (show i < sa.length by omega)
    rw [rd_ok (show sa[i] < plcp.length by omega), ok_bind]
    simp [show i < sa.length by omega, show sa[i] < plcp.length by omega]
  have hval : ∀ i (hi : i < sa.length) a, phi[sa[i]]? = some a →
      ((List.range plcp.length).map (fun i => plcp.getD (sa.getD i 0) 0))[i]? =
        some (lcpLen (t.drop a) (t.drop sa[i])) := by
    intro i hi a ha
    have hl := hs.lt hi
    obtain ⟨a', ha', -, hv⟩ := h5 sa[i] hl
    rw [ha] at ha'
    simp only [Option.some.injEq] at ha'
    subst ha'
    rw [List.getElem?_map, List.getElem?_range (by omega)]
    simp [hi, hv]
  refine ⟨phi, plcp, _, h1, h2, h3, h4, h5, hlcp, by simp [h4], ?_, ?_⟩
  · intro i h0 hi
    exact hval i hi _ (h2.step i h0 hi)
  · intro h
    exact hval 0 h _ (h2.first h)

/-- The cyclic first entry is 1 for one-letter texts and 0 otherwise. -/
theorem first_last_lcp {t : List α} {sa : List Nat} (hs : IsSuffixArray t sa) (h : 0 < sa.length) :
    ((∃ c, ∀ x ∈ t, x = c) → lcpLen (t.drop (sa[sa.length - 1]'(by omega))) (t.drop sa[0]) = 1) ∧
    ((¬ ∃ c, ∀ x ∈ t, x = c) →
      lcpLen (t.drop (sa[sa.length - 1]'(by omega))) (t.drop sa[0]) = 0) := by
  have hle := first_last_lcp_le_one hs h
  have hlen := hs.length
  refine ⟨?_, fun hu => ?_⟩
  · rintro ⟨c, hc⟩
    have h1 := hs.lt (show sa.length - 1 < sa.length by omega)
    have h2 := hs.lt h
    have : 0 < lcpLen (t.drop (sa[sa.length - 1]'(by omega))) (t.drop sa[0]) := by
      rw [lcpLen_pos]
      refine ⟨c, t.drop (sa[sa.length - 1] + 1), t.drop (sa[0] + 1), ?_, ?_⟩
      · rw [← List.getElem_cons_drop h1, hc _ (List.getElem_mem h1)]
      · rw [← List.getElem_cons_drop h2, hc _ (List.getElem_mem h2)]
    omega
  · by_contra hne
    apply hu
    obtain ⟨c, u', v', e1, e2⟩ := lcpLen_pos.1 (Nat.pos_of_ne_zero hne)
    refine ⟨c, fun x hx => ?_⟩
    obtain ⟨p, hp, rfl⟩ := List.getElem_of_mem hx
    obtain ⟨r, hr, hre⟩ := hs.rank hp
    have h1 : t.drop sa[0] ≤ t.drop sa[r] := (hs.le_iff h hr).2 (Nat.zero_le _)
    have h2 : t.drop sa[r] ≤ t.drop (sa[sa.length - 1]'(by omega)) :=
      (hs.le_iff hr (by omega)).2 (by omega)
    have h3 := (lcpLen_le_of_between h1 h2).1
    have h4 : 0 < lcpLen (t.drop sa[0]) (t.drop sa[r]) := by
      refine lt_of_lt_of_le (Nat.pos_of_ne_zero hne) ?_
      rw [lcpLen_comm]; exact h3
    obtain ⟨d, u'', v'', f1, f2⟩ := lcpLen_pos.1 h4
    rw [e2] at f1
    injection f1 with f1
    rw [hre, ← List.getElem_cons_drop hp] at f2
    injection f2 with f2
    rw [f2, f1]

end Verif
