import Verif.Lemmas.Perm
import Verif.Lemmas.Period

/-! # Lyndon factorization by the inverse suffix array; least rotation -/

namespace Verif

open Spec Model

variable {α : Type} [LinearOrder α]

theorem isaLyndon_ok {t : List α} (ht : t ≠ []) {sa isa : List Nat} (hs : IsSuffixArray t sa)
    (hi : IsInverse sa isa) {fs : List (List α)} (hf : IsLyndonFactorization fs t) :
    isaLyndonFactorization isa = .ok (ends 0 fs) := by
  have hn : 0 < t.length := List.length_pos_iff.2 ht
  have hlen : isa.length = t.length := by rw [hi.1, hs.length]
  have hlt : ∀ a b (ha : a < t.length) (hb : b < t.length), isa[a]'(by omega) < isa[b]'(by omega) ↔
      t.drop a < t.drop b := fun a b ha hb => isa_lt_iff hs hi ha hb _ _
  obtain ⟨⟨k, cur, out⟩, h1, ⟨pre, f, post, e1, e2, e3, e4, e5, e6⟩, h3⟩ := whileLoop_inv
    (fun s : Nat × Nat × List Nat => ∃ pre f post, fs = pre ++ f :: post ∧
      pre.flatten.length < s.1 ∧ s.1 ≤ pre.flatten.length + f.length ∧ s.1 ≤ t.length ∧
      isa[pre.flatten.length]? = some s.2.1 ∧ s.2.2 = ends 0 pre)
    (fun s => t.length - s.1) (fuel := isa.length + 1)
    (cond := fun (s : Nat × Nat × List Nat) => pure (decide (s.1 < isa.length)))
    (body := fun (k, cur, out) => do
      let v ← rd isa k
      if v < cur then
        let e ← usub k 1
        pure (k + 1, v, out ++ [e])
      else pure (k + 1, cur, out))
    (s := (1, isa[0]'(by omega), [])) (by
      cases fs with
      | nil => exact absurd hf.1.symm (by simpa using ht)
      | cons f fs =>
        have := (hf.2.1 f (by simp)).length_pos
        refine ⟨[], f, fs, rfl, by simp, by simp; omega, by dsimp only; omega, by simp, rfl⟩)
    (by simp; omega) (by
      rintro ⟨k, cur, out⟩ ⟨pre, f, post, e1, e2, e3, e4, e5, e6⟩
      dsimp only at e2 e3 e4 e5 e6 ⊢
      by_cases hk : k < isa.length
      · right
        refine ⟨by simp [hk, pure_ok], ?_⟩
        have hf' := hf
        rw [e1] at hf'
        have hpl : pre.flatten.length < t.length := by omega
        rw [List.getElem?_eq_getElem (by omega)] at e5
        simp only [Option.some.injEq] at e5
        rw [rd_ok hk, ok_bind]
        by_cases hend : k = pre.flatten.length + f.length
        · -- a new factor starts at `k`
          cases post with
          | nil =>
            have : t.length = k := by rw [← hf.1, e1, hend]; simp
            omega
          | cons g post =>
            have hg := (hf'.2.1 g (by simp)).length_pos
            have hf2 : IsLyndonFactorization ((pre ++ [f]) ++ g :: post) t := by simpa using hf'
            have hk' : (pre ++ [f]).flatten.length = k := by simp [hend]
            have hmin := factor_suffix_min hf2 pre.flatten.length (by omega) (by omega)
            rw [hk', ← hlt k _ (by omega) hpl, e5] at hmin
            rw [if_pos hmin, usub_ok (by omega), ok_bind]
            refine ⟨_, rfl, ⟨pre ++ [f], g, post, by simp [e1], by dsimp only; omega, by
              dsimp only; omega, by dsimp only; omega, ?_, ?_⟩, by dsimp only; omega⟩
            · rw [hk', List.getElem?_eq_getElem hk]
            · dsimp only
              rw [e6, ends_append]
              simp [ends, hend]
        · -- inside the current factor
          have hmin := factor_suffix_min hf' k (by omega) (by omega)
          rw [← hlt _ k hpl (by omega), e5] at hmin
          rw [if_neg (by omega)]
          exact ⟨_, rfl, ⟨pre, f, post, e1, by dsimp only; omega, by dsimp only; omega, by
            dsimp only; omega, by
            rw [List.getElem?_eq_getElem (show _ < isa.length by omega), e5], e6⟩, by dsimp only; omega⟩
      · left; simp [hk, pure_ok])
  dsimp only at e2 e3 e4 e5 e6 h3
  have hk : k = t.length := by
    have h3 : decide (k < isa.length) = false := by simpa [pure_ok] using h3
    simp at h3; omega
  have htl : t.length = pre.flatten.length + f.length + post.flatten.length := by
    rw [← hf.1, e1]; simp; omega
  have hpost : post = [] := by
    cases post with
    | nil => rfl
    | cons g post =>
      have hg := (hf.2.1 g (by rw [e1]; simp)).length_pos
      rw [List.flatten_cons, List.length_append] at htl; omega
  subst hpost
  simp only [isaLyndonFactorization]
  rw [rd_ok (by omega), ok_bind, h1]
  simp only [ok_bind]
  rw [usub_ok (by omega), ok_bind, pure_ok, e6, e1, ends_append]
  simp [ends]
  simp at htl; omega

/-! ### Least rotation -/

omit [LinearOrder α] in
/-- The factor of a concatenation that covers a given position. -/
theorem locate (fs : List (List α)) (m : Nat) (hm : m < fs.flatten.length) :
    ∃ pre f post, fs = pre ++ f :: post ∧ pre.flatten.length ≤ m ∧
      m < pre.flatten.length + f.length := by
  induction fs generalizing m with
  | nil => simp at hm
  | cons f fs ih =>
    by_cases h : m < f.length
    · exact ⟨[], f, fs, rfl, by simp, by simpa using h⟩
    · simp at hm
      obtain ⟨pre, g, post, e1, e2, e3⟩ := ih (m - f.length) (by simp; omega)
      exact ⟨f :: pre, g, post, by simp [e1], by simp; simp at e2; omega, by simp; simp at e3; omega⟩

omit [LinearOrder α] in
theorem drop_double_take {t : List α} {q : Nat} (hq : q ≤ t.length) :
    ((t ++ t).drop q).take t.length = rot q t := by
  rw [List.drop_append_of_le_length hq, List.take_append, rot]
  rw [List.take_of_length_le (by simp)]
  congr 2
  rw [List.length_drop]; omega

/-- `lyndon_conjugate` returns the start of the Lyndon factor of the doubled text covering position
`n - 1`. -/
theorem lyndonConjugate_ok {t : List α} (ht : t ≠ []) :
    ∃ p, lyndonConjugate t = .ok p ∧ p < t.length ∧
      ∀ q, q < t.length → rot p t ≤ rot q t := by
  have hn : 0 < t.length := List.length_pos_iff.2 ht
  obtain ⟨fs, h1, h2⟩ := duval_spec (t ++ t)
  have hfl : fs.flatten.length = t.length + t.length := by rw [h2.1]; simp
  obtain ⟨pre, f, post, rfl, e2, e3⟩ := locate fs (t.length - 1) (by omega)
  have hne : ∀ g ∈ pre ++ f :: post, g ≠ [] := fun g hg => (h2.2.1 g hg).1
  have hpreUp := ends_upper pre 0 (fun g hg => hne g (by simp [hg]))
  refine ⟨pre.flatten.length, ?_, by omega, ?_⟩
  · -- the value computed
    simp only [lyndonConjugate]
    rw [h1, ok_bind]
    have hends : ends 0 (pre ++ f :: post) ++ [2 * t.length] =
        ends 0 pre ++ ((pre.flatten.length + f.length - 1) ::
          (ends (pre.flatten.length + f.length) post ++ [2 * t.length])) := by
      rw [ends_append]; simp [ends]
    rw [hends]
    rcases List.eq_nil_or_concat pre with rfl | ⟨pre', g, rfl⟩
    · -- the first factor covers position n-1; it cannot be longer than n
      simp only [ends, List.nil_append]
      rw [show rd ((([] : List (List α)).flatten.length + f.length - 1) ::
          (ends (([] : List (List α)).flatten.length + f.length) post ++ [2 * t.length])) 0 =
          .ok (f.length - 1) by simp [rd], ok_bind]
      have hfn : f.length = t.length := by
        by_contra hne'
        simp at e3
        have hpre : f <+: t ++ t := by
          rw [← h2.1]; simp
        have htf : t <+: f := List.prefix_of_prefix_length_le (List.prefix_append _ _) hpre (by omega)
        obtain ⟨x, rfl⟩ := htf
        have hx : x ≠ [] := by rintro rfl; simp at hne'
        have hxt : x <+: t := (List.prefix_append_right_inj t).1 hpre
        have hlt := (h2.2.1 (t ++ x) (by simp)).2 t x ht hx rfl
        exact absurd hlt (not_lt.2 (le_of_prefix (hxt.trans (List.prefix_append _ _))))
      rw [if_pos (by omega)]; simp [pure_ok]
    · set P := pre' ++ [g] with hP
      have hPl : (ends 0 P).length = pre'.length + 1 := by rw [ends_length]; simp [hP]
      have hlast : (ends 0 P)[pre'.length]? = some (P.flatten.length - 1) := by
        rw [hP, ends_append, List.getElem?_append_right (by rw [ends_length]), ends_length]
        simp [ends]
      have hg : 0 < g.length := List.length_pos_iff.2 (hne g (by simp))
      have hPf : 0 < P.flatten.length := by simp [hP]; omega
      rw [show pre'.concat g = P by simp [hP]] at *
      set es := ends 0 P ++ ((P.flatten.length + f.length - 1) ::
          (ends (P.flatten.length + f.length) post ++ [2 * t.length])) with hes
      have hesl : es.length = pre'.length + 1 + (1 + (post.length + 1)) := by
        simp [hes, hPl, ends_length]; omega
      have hsmall : ∀ x, x < pre'.length + 1 → ∃ e, es[x]? = some e ∧ e + 1 < t.length := by
        intro x hx
        have hx' : x < (ends 0 P).length := by omega
        refine ⟨(ends 0 P)[x], by rw [hes, List.getElem?_append_left hx',
          List.getElem?_eq_getElem hx'], ?_⟩
        have := hpreUp _ (List.getElem_mem hx')
        omega
      obtain ⟨e0, he0, he0'⟩ := hsmall 0 (by omega)
      rw [rd_some he0, ok_bind, if_neg (by omega), usub_ok (by omega), ok_bind]
      rw [forFind_some (m := pre'.length) (x := P.flatten.length) (by omega) (by omega)]
      · rfl
      · intro x _ hx
        obtain ⟨e, he, he'⟩ := hsmall (x + 1) (by omega)
        rw [rd_some he, ok_bind, if_neg (by omega)]; rfl
      · have e1 : es[pre'.length + 1]? = some (P.flatten.length + f.length - 1) := by
          rw [hes, List.getElem?_append_right (by omega), hPl]; simp
        rw [rd_some e1, ok_bind, if_pos (by omega)]
        have e2 : es[pre'.length]? = some (P.flatten.length - 1) := by
          rw [hes, List.getElem?_append_left (by omega), hlast]
        rw [rd_some e2, ok_bind, Nat.sub_add_cancel hPf]; rfl
  · intro q hq
    by_cases hqp : q = pre.flatten.length
    · rw [hqp]
    · have := factor_suffix_min h2 q (by omega) hqp
      have := take_le_take this.le t.length
        (Or.inl (by rw [List.length_drop, List.length_append]; omega))
      rwa [drop_double_take (by omega), drop_double_take (by omega)] at this

theorem lyndonConjugate_empty : lyndonConjugate ([] : List α) = .error .explicit := by
  simp only [lyndonConjugate, List.append_nil]
  rw [show duval ([] : List α) = .ok [] from rfl, ok_bind]
  rfl

/-! ### Least rotations of primitive words are Lyndon words -/

omit [LinearOrder α] in
theorem rot_length {t : List α} {i : Nat} : (rot i t).length = t.length := by
  rw [rot, List.length_append, List.length_drop, List.length_take]; omega

omit [LinearOrder α] in
theorem rot_get {t : List α} {d i : Nat} (hd : d ≤ t.length) (hi : i < t.length) :
    (rot d t)[i]? = t[(d + i) % t.length]? := by
  rw [rot]
  by_cases h : d + i < t.length
  · rw [List.getElem?_append_left (by rw [List.length_drop]; omega), List.getElem?_drop,
      Nat.mod_eq_of_lt h]
  · rw [List.getElem?_append_right (by rw [List.length_drop]; omega), List.length_drop,
      List.getElem?_take_of_lt (by omega), Nat.mod_eq_sub_mod (by omega), Nat.mod_eq_of_lt (by omega)]
    congr 1; omega

omit [LinearOrder α] in
theorem rot_rot {t : List α} {p d : Nat} (hp : p ≤ t.length) (hd : d ≤ t.length) :
    rot d (rot p t) = rot ((p + d) % t.length) t := by
  rcases Nat.eq_zero_or_pos t.length with h0 | h0
  · have : t = [] := List.eq_nil_of_length_eq_zero h0
    subst this; simp [rot]
  apply List.ext_getElem?
  intro i
  by_cases hi : i < t.length
  · rw [rot_get (by rw [rot_length]; omega) (by rw [rot_length]; omega), rot_length,
      rot_get hp (Nat.mod_lt _ h0), rot_get (Nat.mod_lt _ h0).le hi]
    congr 1
    simp [Nat.add_assoc]
  · rw [List.getElem?_eq_none (by rw [rot_length, rot_length]; omega),
      List.getElem?_eq_none (by rw [rot_length]; omega)]

omit [LinearOrder α] in
theorem rot_append (u v : List α) : rot u.length (u ++ v) = v ++ u := by simp [rot]

omit [LinearOrder α] in
theorem rot_zero (t : List α) : rot 0 t = t := by simp [rot]

omit [LinearOrder α] in
theorem rot_self (t : List α) : rot t.length t = t := by simp [rot]

/-- A word that is strictly smaller than all its other rotations is a Lyndon word. -/
theorem lyndon_of_rot_lt {r : List α} (hr : r ≠ [])
    (h : ∀ d, 0 < d → d < r.length → r < rot d r) : IsLyndon r := by
  refine isLyndon_of_drop hr ?_
  intro d h0 h1
  have hlt := h d h0 h1
  have hdl : (r.drop d).length = r.length - d := by simp
  rcases word_cases r (r.drop d) with e | ⟨hp, -⟩ | ⟨⟨x, hx⟩, -⟩ | hm | ⟨p, a, b, u', v', e1, e2, hab⟩
  · have := congrArg List.length e; rw [hdl] at this; omega
  · have := hp.length_le; omega
  · -- `r.drop d` is a border
    exfalso
    have hxl : x.length = d := by
      have := congrArg List.length hx
      rw [List.length_append, hdl] at this; omega
    have e1 : r = r.take d ++ r.drop d := (List.take_append_drop _ _).symm
    -- r = s x,  rotation s u > r gives x < u
    have l1 : x < r.take d := by
      have : r.drop d ++ x < r.drop d ++ r.take d := by rw [hx]; exact hlt
      exact append_lt_left.1 this
    -- rotation x s ≥ r = u s gives u ≤ x
    have l2 := h (r.length - d) (by omega) (by omega)
    have e2 : rot (r.length - d) r = x ++ r.drop d := by
      have := rot_append (r.drop d) x
      rwa [hx, hdl] at this
    rw [e2] at l2
    have l3 := (mis_of_lt_of_length_le l1 (by simp; omega)).append (r.drop d) (r.drop d)
    rw [List.take_append_drop] at l3
    exact lt_asymm l2 l3.lt
  · exact hm.lt
  · exfalso
    have : Mis (rot d r) r := ⟨p, a, b, u' ++ r.take d, v', by rw [rot, e1]; simp, e2, hab⟩
    exact lt_asymm hlt this.lt

theorem least_rot_lyndon {t : List α} (hprim : IsPrimitive t) {p : Nat} (hp : p < t.length)
    (hmin : ∀ q, q < t.length → rot p t ≤ rot q t) : IsLyndon (rot p t) := by
  have hn : 0 < t.length := by omega
  refine lyndon_of_rot_lt ?_ ?_
  · intro e; have := congrArg List.length e; rw [rot_length] at this; simp at this; subst this
    simp at hn
  · intro d h0 h1
    rw [rot_length] at h1
    rw [rot_rot hp.le h1.le]
    refine (hmin _ (Nat.mod_lt _ hn)).lt_of_ne (fun e => ?_)
    -- equal rotations would make `t` equal to a non-trivial rotation of itself
    apply rot_ne_of_primitive hprim h0 h1
    have e' := congrArg (rot (t.length - p)) e
    rw [rot_rot hp.le (by omega), rot_rot (Nat.mod_lt _ hn).le (by omega)] at e'
    rw [show p + (t.length - p) = t.length by omega, Nat.mod_self, rot_zero, Nat.mod_add_mod,
      show p + d + (t.length - p) = d + t.length by omega, Nat.add_mod_right,
      Nat.mod_eq_of_lt h1] at e'
    exact e'.symm

end Verif
