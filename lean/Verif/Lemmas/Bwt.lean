import Verif.Lemmas.LyndonMore
import Verif.Spec.Bwt

/-! # Burrows-Wheeler transforms -/

namespace Verif

open Spec Model

variable {α : Type}

/-! ### Comparing words of equal length letter by letter -/

section
variable [LinearOrder α]

theorem ucmp_self (x : α) : ucmp x x = .eq := by simp [ucmp]

theorem ucmp_of_lt {x y : α} (h : x < y) : ucmp x y = .lt := by simp [ucmp, h]

theorem ucmp_of_gt {x y : α} (h : y < x) : ucmp x y = .gt := by simp [ucmp, h.not_gt, h.ne']

/-- A `for` loop that returns at the first differing letter computes the lexicographic comparison. -/
theorem lexFind {u v : List α} {n : Nat} (hu : u.length = n) (hv : v.length = n)
    {body : Nat → Res (Option Ordering)}
    (hbody : ∀ i (h1 : i < u.length) (h2 : i < v.length),
      body i = .ok (if u[i] = v[i] then none else some (ucmp u[i] v[i]))) :
    (forFind 0 n body >>= fun r => match r with
      | some o => pure o
      | none => pure .eq) = .ok (ucmp u v) := by
  rcases word_cases u v with rfl | ⟨hp, hne⟩ | ⟨hp, hne⟩ | hm | hm
  · rw [forFind_none (fun i _ hi => by rw [hbody i (by omega) (by omega), if_pos rfl]), ok_bind,
      ucmp_self]
    rfl
  · exact absurd (hp.eq_of_length (by omega)) hne
  · exact absurd (hp.eq_of_length (by omega)).symm hne
  · obtain ⟨i, h1, h2, h3, h4⟩ := mis_iff_index.1 hm
    rw [forFind_some (m := i) (x := .lt) (Nat.zero_le _) (by omega), ok_bind, ucmp_of_lt hm.lt]
    · rfl
    · intro j _ hj
      have := h3 j hj
      rw [List.getElem?_eq_getElem (by omega), List.getElem?_eq_getElem (by omega)] at this
      rw [hbody j (by omega) (by omega), if_pos (by simpa using this)]
    · rw [hbody i h1 h2, if_neg h4.ne, ucmp_of_lt h4]
  · obtain ⟨i, h1, h2, h3, h4⟩ := mis_iff_index.1 hm
    rw [forFind_some (m := i) (x := .gt) (Nat.zero_le _) (by omega), ok_bind, ucmp_of_gt hm.lt]
    · rfl
    · intro j _ hj
      have := h3 j hj
      rw [List.getElem?_eq_getElem (by omega), List.getElem?_eq_getElem (by omega)] at this
      rw [hbody j (by omega) (by omega), if_pos (by simpa using this.symm)]
    · rw [hbody i h2 h1, if_neg h4.ne', ucmp_of_gt h4]

end

/-! ### Rotations -/

theorem rot_perm (i : Nat) (t : List α) : (rot i t).Perm t := by
  rw [rot]
  have : (t.drop i ++ t.take i).Perm (t.take i ++ t.drop i) := List.perm_append_comm
  rwa [List.take_append_drop] at this

theorem rot_getLast {t : List α} {i : Nat} (hi : i < t.length) :
    (rot i t).getLast? = t[(i + t.length - 1) % t.length]? := by
  rw [List.getLast?_eq_getElem?, rot_length, rot_get hi.le (by omega)]
  congr 2; omega

/-- All rotations of `t`. -/
def rots (t : List α) : List (List α) := (List.range t.length).map (fun i => rot i t)

theorem rot_range {n p : Nat} (hp : p ≤ n) :
    rot p (List.range n) = (List.range n).map (fun d => (p + d) % n) := by
  apply List.ext_getElem?
  intro d
  by_cases hd : d < n
  · rw [rot_get (by simpa using hp) (by simpa using hd)]
    simp [hd, Nat.mod_lt _ (show 0 < n by omega)]
  · rw [List.getElem?_eq_none (by rw [rot_length]; simp; omega), List.getElem?_eq_none (by simp; omega)]

/-- Rotating the text permutes the rotations. -/
theorem rots_rot {t : List α} {p : Nat} (hp : p ≤ t.length) : (rots (rot p t)).Perm (rots t) := by
  have e : rots (rot p t) = (rot p (List.range t.length)).map (fun i => rot i t) := by
    rw [rot_range hp, List.map_map, rots, rot_length]
    apply List.map_congr_left
    intro d hd
    simp at hd
    simp [rot_rot hp hd.le]
  rw [e]
  exact (rot_perm p _).map _

/-- The multiset of rotations is closed under rotating every row by one to the right. -/
theorem rots_map_rot {t : List α} {p : Nat} (hp : p ≤ t.length) :
    ((rots t).map (rot p)).Perm (rots t) := by
  have e : (rots t).map (rot p) = rots (rot p t) := by
    rw [rots, rots, List.map_map, rot_length]
    apply List.map_congr_left
    intro d hd
    simp at hd
    simp [rot_rot hp hd.le, rot_rot hd.le hp, Nat.add_comm]
  rw [e]
  exact rots_rot hp

section matrix
variable [LinearOrder α]

/-- The sorted rotation matrix. -/
def matrix (t : List α) : List (List α) := sortKeys (rots t)

theorem matrix_spec (t : List α) : IsRotationMatrix t (matrix t) :=
  ⟨sortKeys_perm _, sortKeys_sorted _⟩

theorem matrix_unique {t : List α} {m : List (List α)} (h : IsRotationMatrix t m) : matrix t = m :=
  sortKeys_eq h.1 h.2

theorem matrix_length (t : List α) : (matrix t).length = t.length := by
  rw [matrix, (sortKeys_perm _).length_eq, rots]; simp

theorem matrix_row_length {t r : List α} (h : r ∈ matrix t) : r.length = t.length := by
  rw [matrix, (sortKeys_perm _).mem_iff, rots] at h
  obtain ⟨i, -, rfl⟩ := List.mem_map.1 h
  exact rot_length

theorem mem_matrix {t r : List α} : r ∈ matrix t ↔ ∃ i, i < t.length ∧ r = rot i t := by
  rw [matrix, (sortKeys_perm _).mem_iff, rots]
  simp [eq_comm]

/-- `bwt` of a sorted order of the rotations. -/
theorem rotCmp_ok {t : List α} {a b : Nat} (ha : a < t.length) (hb : b < t.length) :
    rotCmp t a b = .ok (ucmp (rot a t) (rot b t)) := by
  simp only [rotCmp]
  refine lexFind (u := rot a t) (v := rot b t) rot_length rot_length ?_
  intro i h1 h2
  rw [rot_length] at h1
  have hn : 0 < t.length := by omega
  have ea := rot_get ha.le h1
  have eb := rot_get hb.le h1
  rw [List.getElem?_eq_getElem (by rw [rot_length]; exact h1),
    List.getElem?_eq_getElem (Nat.mod_lt _ hn)] at ea eb
  simp only [Option.some.injEq] at ea eb
  rw [rd_ok (Nat.mod_lt _ hn), ok_bind, rd_ok (Nat.mod_lt _ hn), ok_bind, ea, eb]
  rcases lt_trichotomy (t[(a + i) % t.length]'(Nat.mod_lt _ hn))
    (t[(b + i) % t.length]'(Nat.mod_lt _ hn)) with h | h | h
  · rw [ucmp_of_lt h, if_neg h.ne]; rfl
  · rw [h, ucmp_self, if_pos rfl]; rfl
  · rw [ucmp_of_gt h, if_neg h.ne']; rfl

theorem bwtByMatrixNaive_ok (t : List α) :
    ∃ b, bwtByMatrixNaive t = .ok b ∧ b.map some = (matrix t).map List.getLast? := by
  simp only [bwtByMatrixNaive]
  have hidx : forRange 0 t.length ([] : List Nat) (fun i v => (pure (v ++ [i]) : Res (List Nat))) =
      .ok (List.range t.length) := by
    rw [forRange_push0 (g := fun i => i) (fun i w _ => pure_ok _)]; simp
  rw [hidx, ok_bind]
  obtain ⟨s, h1, h2, h3, -⟩ := sortByR_key (cmp := rotCmp t) (key := fun i => rot i t)
    (l := List.range t.length) (by
      intro a ha b hb
      simp at ha hb
      exact rotCmp_ok ha hb)
  rw [h1, ok_bind]
  have hsl : s.length = t.length := perm_range_length h2
  rcases Nat.eq_zero_or_pos t.length with h0 | h0
  · have : t = [] := List.eq_nil_of_length_eq_zero h0
    subst this
    exact ⟨[], rfl, by simp [matrix, rots, sortKeys]⟩
  · have hd : ∃ d : α, True := ⟨t[0], trivial⟩
    obtain ⟨d, -⟩ := hd
    rw [forRange_push0 (g := fun i => t.getD ((s.getD i 0 + t.length - 1) % t.length) d) (by
      intro i w hi
      rw [rd_ok (show i < s.length by omega), ok_bind, usub_ok (by omega), ok_bind,
        rd_ok (Nat.mod_lt _ h0), ok_bind]
      simp [show i < s.length by omega, Nat.mod_lt _ h0, pure_ok])]
    refine ⟨_, rfl, ?_⟩
    rw [show matrix t = s.map (fun i => rot i t) from h3.symm, List.nil_append]
    apply List.ext_getElem?
    intro i
    by_cases hi : i < t.length
    · have hi' : i < s.length := by omega
      have hs : s[i] < t.length := (perm_range_mem h2).1 (List.getElem_mem hi')
      simp [hi, hi', rot_getLast hs, Nat.mod_lt _ h0]
    · rw [List.getElem?_eq_none (by simp; omega), List.getElem?_eq_none (by simp; omega)]

omit [LinearOrder α] in
theorem map_some_inj {b c : List α} (h : b.map some = c.map some) : b = c :=
  (List.map_injective_iff.2 (Option.some_injective α)) h

/-- The last column rearranges the text. -/
theorem matrix_last_perm {t b : List α} (h : b.map some = (matrix t).map List.getLast?) :
    b.Perm t := by
  rcases Nat.eq_zero_or_pos t.length with h0 | h0
  · have : t = [] := List.eq_nil_of_length_eq_zero h0
    subst this
    have := congrArg List.length h
    simp [matrix_length] at this
    rw [this]
  have h1 : ((matrix t).map List.getLast?).Perm ((rots t).map List.getLast?) :=
    (sortKeys_perm _).map _
  have h2 : (rots t).map List.getLast? = (rot (t.length - 1) t).map some := by
    apply List.ext_getElem?
    intro i
    by_cases hi : i < t.length
    · have := rot_get (d := t.length - 1) (by omega) hi
      rw [List.getElem?_map, List.getElem?_map, this, rots, List.getElem?_map,
        List.getElem?_range hi]
      simp only [Option.map_some, rot_getLast hi]
      rw [show i + t.length - 1 = t.length - 1 + i by omega,
        List.getElem?_eq_getElem (Nat.mod_lt _ h0)]
      rfl
    · rw [List.getElem?_eq_none (by simp [rots]; omega),
        List.getElem?_eq_none (by simp [rot_length]; omega)]
  rw [← h, h2] at h1
  have h3 := h1.filterMap id
  simp only [List.filterMap_map] at h3
  simpa using h3.trans (by simpa using rot_perm _ _)

theorem take_le_take' {u v : List α} (h : u ≤ v) (k : Nat) (hl : u.length = v.length) :
    u.take k ≤ v.take k := by
  apply take_le_take h k
  omega

omit [LinearOrder α] in
theorem last_cons_take {r : List α} {n k : Nat} {c : α} (hrl : r.length = n)
    (hc : r.getLast? = some c) (hk : k < n) : c :: r.take k = (rot (n - 1) r).take (k + 1) := by
  rw [List.getLast?_eq_getElem?] at hc
  obtain ⟨h1, h2⟩ := List.getElem?_eq_some_iff.1 hc
  have hd : r.drop (n - 1) = [c] := by
    rw [← hrl, List.drop_eq_getElem_cons h1, h2, List.drop_eq_nil_of_le (by omega)]
  rw [rot, hd]
  simp only [List.cons_append, List.nil_append, List.take_succ_cons, List.take_take]
  congr 2; omega

/-- Column-by-column reconstruction. -/
theorem matrix_take_succ {t b : List α} (h : b.map some = (matrix t).map List.getLast?) {k : Nat}
    (hk : k < t.length) :
    (matrix t).map (List.take (k + 1)) =
      sortKeys (List.zipWith List.cons b ((matrix t).map (List.take k))) := by
  symm
  apply sortKeys_eq
  · -- the rows `last :: take k` are the prefixes of the rotated rows
    have e : List.zipWith List.cons b ((matrix t).map (List.take k)) =
        ((matrix t).map (rot (t.length - 1))).map (List.take (k + 1)) := by
      apply List.ext_getElem?
      intro i
      have hbl : b.length = t.length := by
        have := congrArg List.length h; simpa [matrix_length] using this
      by_cases hi : i < t.length
      · have hi1 : i < (matrix t).length := by rw [matrix_length]; exact hi
        have hrl := matrix_row_length (List.getElem_mem hi1)
        have hbi := congrArg (·[i]?) h
        simp [hi1, show i < b.length by omega] at hbi
        rw [List.getElem?_zipWith, List.getElem?_eq_getElem (show i < b.length by omega)]
        simp [hi1]
        exact last_cons_take hrl hbi.symm hk
      · rw [List.getElem?_eq_none (by rw [List.length_zipWith, List.length_map]; omega),
          List.getElem?_eq_none (by simp [matrix_length]; omega)]
    rw [e]
    apply List.Perm.map
    have h1 : ((matrix t).map (rot (t.length - 1))).Perm ((rots t).map (rot (t.length - 1))) :=
      (sortKeys_perm _).map _
    exact ((h1.trans (rots_map_rot (by omega))).trans (sortKeys_perm _).symm).symm
  · rw [List.pairwise_map]
    refine (sortKeys_sorted (rots t)).imp_of_mem ?_
    intro r s hr hs hrs
    exact take_le_take' hrs _ (by rw [matrix_row_length hr, matrix_row_length hs])

/-- The last column determines the matrix. -/
theorem matrix_eq_of_last {s t b : List α} (hs : b.map some = (matrix s).map List.getLast?)
    (ht : b.map some = (matrix t).map List.getLast?) : matrix s = matrix t := by
  have ls : b.length = s.length := by
    have := congrArg List.length hs; simpa [matrix_length] using this
  have lt : b.length = t.length := by
    have := congrArg List.length ht; simpa [matrix_length] using this
  have key : ∀ k, k ≤ t.length → (matrix s).map (List.take k) = (matrix t).map (List.take k) := by
    intro k
    induction k with
    | zero =>
      intro _
      apply List.ext_getElem?
      intro i
      by_cases hi : i < t.length
      · simp [show i < (matrix s).length by rw [matrix_length]; omega,
          show i < (matrix t).length by rw [matrix_length]; omega]
      · rw [List.getElem?_eq_none (by simp [matrix_length]; omega),
          List.getElem?_eq_none (by simp [matrix_length]; omega)]
    | succ k ih =>
      intro hk
      rw [matrix_take_succ hs (by omega), matrix_take_succ ht (by omega), ih (by omega)]
  have hfull : ∀ w : List α, w.length = t.length →
      (matrix w).map (List.take t.length) = matrix w := by
    intro w hw
    conv_rhs => rw [← List.map_id (matrix w)]
    apply List.map_congr_left
    intro r hr
    simp [List.take_of_length_le (show r.length ≤ t.length by rw [matrix_row_length hr, hw])]
  have := key t.length (le_refl _)
  rwa [hfull s (by omega), hfull t rfl] at this

theorem conj_of_matrix_eq {s t : List α} (h : matrix s = matrix t) : Conj s t := by
  rcases Nat.eq_zero_or_pos s.length with h0 | h0
  · have : s = [] := List.eq_nil_of_length_eq_zero h0
    subst this
    have := congrArg List.length h
    simp only [matrix_length] at this
    have := List.eq_nil_of_length_eq_zero this.symm
    subst this
    exact ⟨0, by simp, by simp [rot]⟩
  · have : s ∈ matrix s := mem_matrix.2 ⟨0, h0, (rot_zero s).symm⟩
    rw [h, mem_matrix] at this
    obtain ⟨i, hi, e⟩ := this
    exact ⟨i, hi.le, e⟩

theorem matrix_of_conj {s t : List α} (h : Conj s t) : matrix s = matrix t := by
  obtain ⟨i, hi, rfl⟩ := h
  exact sortKeys_congr (rots_rot hi)

end matrix

end Verif
