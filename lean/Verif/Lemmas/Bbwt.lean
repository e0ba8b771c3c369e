import Verif.Lemmas.Bwt
import Verif.Lemmas.Period

/-! # The bijective Burrows-Wheeler transform -/

namespace Verif

open Spec Model

variable {α : Type}

/-! ### Truncated infinite powers -/

/-- The first `N` letters of `u u u ...`. -/
def omTake (u : List α) (N : Nat) : List α := (power u N).take N

theorem omTake_length {u : List α} (hu : u ≠ []) (N : Nat) : (omTake u N).length = N := by
  have : 0 < u.length := List.length_pos_iff.2 hu
  rw [omTake, List.length_take, power_length]
  have := Nat.le_mul_of_pos_right N this
  omega

theorem omTake_get {u : List α} (hu : u ≠ []) {N i : Nat} (hi : i < N) :
    (omTake u N)[i]? = u[i % u.length]? := by
  have : 0 < u.length := List.length_pos_iff.2 hu
  rw [omTake, List.getElem?_take_of_lt hi, power_get]
  exact lt_of_lt_of_le hi (Nat.le_mul_of_pos_right N this)

theorem omTake_take {u : List α} (hu : u ≠ []) {k N : Nat} (h : k ≤ N) :
    (omTake u N).take k = omTake u k := by
  apply List.ext_getElem?
  intro i
  by_cases hi : i < k
  · rw [List.getElem?_take_of_lt hi, omTake_get hu (by omega), omTake_get hu hi]
  · rw [List.getElem?_eq_none (by rw [List.length_take, omTake_length hu]; omega),
      List.getElem?_eq_none (by rw [omTake_length hu]; omega)]

theorem omTake_self {u : List α} (hu : u ≠ []) : omTake u u.length = u := by
  apply List.ext_getElem?
  intro i
  by_cases hi : i < u.length
  · rw [omTake_get hu hi, Nat.mod_eq_of_lt hi]
  · rw [List.getElem?_eq_none (by rw [omTake_length hu]; omega),
      List.getElem?_eq_none (by omega)]

/-- Agreement on the first `|u|*|v|` letters is agreement everywhere. -/
theorem om_eq_of_prefix {u v : List α} (hu : u ≠ []) (hv : v ≠ [])
    (h : omTake u (u.length * v.length) = omTake v (u.length * v.length)) (i : Nat) :
    u[i % u.length]? = v[i % v.length]? := by
  have hup : 0 < u.length := List.length_pos_iff.2 hu
  have hvp : 0 < v.length := List.length_pos_iff.2 hv
  have hK : 0 < u.length * v.length := Nat.mul_pos hup hvp
  have h1 := congrArg (·[i % (u.length * v.length)]?) h
  rw [omTake_get hu (Nat.mod_lt _ hK), omTake_get hv (Nat.mod_lt _ hK), Nat.mod_mul_right_mod,
    Nat.mod_mul_left_mod] at h1
  exact h1

theorem omTake_eq_of_prefix {u v : List α} (hu : u ≠ []) (hv : v ≠ [])
    (h : omTake u (u.length * v.length) = omTake v (u.length * v.length)) (N : Nat) :
    omTake u N = omTake v N := by
  apply List.ext_getElem?
  intro i
  by_cases hi : i < N
  · rw [omTake_get hu hi, omTake_get hv hi, om_eq_of_prefix hu hv h]
  · rw [List.getElem?_eq_none (by rw [omTake_length hu]; omega),
      List.getElem?_eq_none (by rw [omTake_length hv]; omega)]

theorem ucmp_congr_take [LinearOrder α] {u v : List α} {k : Nat} (hl : u.length = v.length)
    (h : u.take k = v.take k → u = v) : ucmp u v = ucmp (u.take k) (v.take k) := by
  rcases lt_trichotomy u v with hlt | heq | hgt
  · have h1 := take_le_take hlt.le k (by omega)
    have h2 : u.take k ≠ v.take k := fun e => hlt.ne (h e)
    rw [ucmp_of_lt hlt, ucmp_of_lt (lt_of_le_of_ne h1 h2)]
  · rw [heq, ucmp_self, ucmp_self]
  · have h1 := take_le_take hgt.le k (by omega)
    have h2 : u.take k ≠ v.take k := fun e => hgt.ne' (h e)
    rw [ucmp_of_gt hgt, ucmp_of_gt (lt_of_le_of_ne h1 h2.symm)]

/-! ### The list of conjugates -/

/-- The conjugates of the factors `fs`, the first one starting at text position `s`. -/
def conjList (s : Nat) : List (List α) → List Conjugate
  | [] => []
  | f :: fs => (List.range f.length).map (fun j => ⟨j, s, s + f.length - 1⟩) ++
      conjList (s + f.length) fs

theorem conjList_append (s : Nat) (fs gs : List (List α)) :
    conjList s (fs ++ gs) = conjList s fs ++ conjList (s + fs.flatten.length) gs := by
  induction fs generalizing s with
  | nil => simp [conjList]
  | cons f fs ih =>
    simp only [List.cons_append, conjList, ih, List.flatten_cons, List.length_append,
      List.append_assoc, Nat.add_assoc]

theorem ends_get (fs : List (List α)) (s k : Nat) (hk : k < fs.length) :
    (ends s fs)[k]? = some (s + (fs.take (k + 1)).flatten.length - 1) := by
  induction fs generalizing s k with
  | nil => simp at hk
  | cons f fs ih =>
    cases k with
    | zero => simp [ends]
    | succ k =>
      simp only [List.length_cons] at hk
      simp only [ends, List.getElem?_cons_succ, List.take_succ_cons, List.flatten_cons,
        List.length_append]
      rw [ih _ _ (by omega), Nat.add_assoc]

theorem conjugates_ok {fs : List (List α)} (hfs : fs ≠ []) (hne : ∀ f ∈ fs, f ≠ []) :
    conjugates (ends 0 fs) = .ok (conjList 0 fs) := by
  have hl : 0 < fs.length := List.length_pos_iff.2 hfs
  have hel := ends_length fs 0
  have hpos : ∀ k, k < fs.length → 0 < (fs.take (k + 1)).flatten.length := by
    intro k hk
    obtain ⟨f, fs, rfl⟩ := List.exists_cons_of_ne_nil hfs
    rw [List.take_succ_cons, List.flatten_cons, List.length_append]
    have := List.length_pos_iff.2 (hne f (by simp))
    omega
  simp only [conjugates]
  rw [rd_some (ends_get fs 0 0 hl), ok_bind]
  have h0 := hpos 0 hl
  rw [show 0 + (fs.take (0 + 1)).flatten.length - 1 + 1 = (fs.take (0 + 1)).flatten.length by omega]
  have hfirst : forRange 0 (fs.take (0 + 1)).flatten.length ([] : List Conjugate) (fun j v =>
      (pure (v ++ [(⟨j, 0, 0 + (fs.take (0 + 1)).flatten.length - 1⟩ : Conjugate)]) :
        Res (List Conjugate))) = .ok (conjList 0 (fs.take 1)) := by
    rw [forRange_push0
      (g := fun j => (⟨j, 0, 0 + (fs.take (0 + 1)).flatten.length - 1⟩ : Conjugate))
      (fun i w _ => pure_ok _)]
    obtain ⟨f, fs, rfl⟩ := List.exists_cons_of_ne_nil hfs
    simp [conjList]
  rw [hfirst, ok_bind, usub_ok (by omega), ok_bind]
  obtain ⟨w, h1, h2⟩ := forRange_inv
    (fun k (v : List Conjugate) => v = conjList 0 (fs.take (k + 1)))
    (lo := 0) (hi := (ends 0 fs).length - 1) (Nat.zero_le _) (s := conjList 0 (fs.take 1))
    (body := fun factor v => do
      let e ← rd (ends 0 fs) factor
      let e' ← rd (ends 0 fs) (factor + 1)
      forRange (e + 1) (e' + 1) v (fun j v => do
        let d ← usub j e
        let d ← usub d 1
        pure (v ++ [(⟨d, e + 1, e'⟩ : Conjugate)]))) rfl (by
    intro k v _ hk hv
    have hk1 : k + 1 < fs.length := by omega
    refine ⟨conjList 0 (fs.take (k + 1 + 1)), ?_, rfl⟩
    have hS := hpos k (by omega)
    have hg : 0 < fs[k + 1].length := List.length_pos_iff.2 (hne _ (List.getElem_mem hk1))
    have htake : fs.take (k + 1 + 1) = fs.take (k + 1) ++ [fs[k + 1]] := by
      rw [List.take_add_one, List.getElem?_eq_getElem hk1]; rfl
    have hlen : (fs.take (k + 1 + 1)).flatten.length =
        (fs.take (k + 1)).flatten.length + fs[k + 1].length := by
      rw [htake, List.flatten_append, List.length_append]; simp
    rw [rd_some (ends_get fs 0 k (by omega)), ok_bind, rd_some (ends_get fs 0 (k + 1) hk1), ok_bind,
      hlen, htake, conjList_append, hv]
    generalize (fs.take (k + 1)).flatten.length = S at *
    generalize fs[k + 1] = g at *
    rw [forRange_push (g := fun j => (⟨j - (0 + S - 1) - 1, 0 + S - 1 + 1, 0 + (S + g.length) - 1⟩ :
      Conjugate)) (by
        intro i w hi1 hi2
        rw [usub_ok (by omega), ok_bind, usub_ok (by omega), ok_bind, pure_ok])]
    congr 2
    rw [List.range'_eq_map_range, List.map_map, conjList, conjList, List.append_nil]
    rw [show 0 + (S + g.length) - 1 + 1 - (0 + S - 1 + 1) = g.length by omega]
    apply List.map_congr_left
    intro j _
    simp only [Function.comp, Conjugate.mk.injEq]
    refine ⟨by omega, by omega, by omega⟩)
  rw [h1, h2, hel, show fs.length - 1 + 1 = fs.length by omega, List.take_length]

/-- The word of a conjugate. -/
def conjWord (t : List α) (c : Conjugate) : List α :=
  rot c.index ((t.drop c.start).take (c.stop + 1 - c.start))

theorem conjList_words {t : List α} {fs : List (List α)} {s : Nat} (h : t.drop s = fs.flatten)
    (hne : ∀ f ∈ fs, f ≠ []) : (conjList s fs).map (conjWord t) = fs.flatMap rots := by
  induction fs generalizing s with
  | nil => rfl
  | cons f fs ih =>
    have hf := List.length_pos_iff.2 (hne f (by simp))
    rw [conjList, List.map_append, List.flatMap_cons]
    congr 1
    · rw [List.map_map, rots]
      apply List.map_congr_left
      intro j _
      simp only [Function.comp, conjWord]
      rw [show s + f.length - 1 + 1 - s = f.length by omega, h, List.flatten_cons]
      simp
    · apply ih
      · rw [← List.drop_drop, h, List.flatten_cons]; simp
      · exact fun g hg => hne g (by simp [hg])

/-- What is needed of a conjugate record to run the comparison. -/
theorem conjList_mem {fs : List (List α)} {s : Nat} (hne : ∀ f ∈ fs, f ≠ []) {c : Conjugate}
    (h : c ∈ conjList s fs) : c.start ≤ c.stop ∧ c.stop < s + fs.flatten.length ∧
      c.index ≤ c.stop - c.start := by
  induction fs generalizing s with
  | nil => simp [conjList] at h
  | cons f fs ih =>
    have hf := List.length_pos_iff.2 (hne f (by simp))
    rw [conjList, List.mem_append] at h
    rw [List.flatten_cons, List.length_append]
    rcases h with h | h
    · obtain ⟨j, hj, rfl⟩ := List.mem_map.1 h
      simp at hj
      refine ⟨?_, ?_, ?_⟩ <;> dsimp only <;> omega
    · obtain ⟨h1, h2, h3⟩ := ih (fun g hg => hne g (by simp [hg])) h
      exact ⟨h1, by omega, h3⟩

theorem conjList_length (s : Nat) (fs : List (List α)) :
    (conjList s fs).length = fs.flatten.length := by
  induction fs generalizing s with
  | nil => rfl
  | cons f fs ih => rw [conjList, List.length_append, ih, List.flatten_cons, List.length_append]; simp

theorem conjWord_length {t : List α} {c : Conjugate} (h1 : c.start ≤ c.stop) (h2 : c.stop < t.length) :
    (conjWord t c).length = 1 + c.stop - c.start := by
  rw [conjWord, rot_length, List.length_take, List.length_drop]; omega

theorem conjWord_get {t : List α} {c : Conjugate} (h1 : c.start ≤ c.stop) (h2 : c.stop < t.length)
    (h3 : c.index ≤ c.stop - c.start) (i : Nat) :
    (conjWord t c)[i % (1 + c.stop - c.start)]? =
      t[c.start + (c.index + i) % (1 + c.stop - c.start)]? := by
  have hl : ((t.drop c.start).take (c.stop + 1 - c.start)).length = 1 + c.stop - c.start := by
    rw [List.length_take, List.length_drop]; omega
  have hm : i % (1 + c.stop - c.start) < 1 + c.stop - c.start := Nat.mod_lt _ (by omega)
  have hm2 : (c.index + i) % (1 + c.stop - c.start) < 1 + c.stop - c.start := Nat.mod_lt _ (by omega)
  rw [conjWord, rot_get (by omega) (by rw [hl]; exact hm), hl, Nat.add_mod_mod,
    List.getElem?_take_of_lt (by omega), List.getElem?_drop]

theorem conjWord_last {t : List α} {c : Conjugate} (h1 : c.start ≤ c.stop) (h2 : c.stop < t.length)
    (h3 : c.index ≤ c.stop - c.start) :
    ∃ p, ∃ hp : p < t.length, conjPosition c = .ok p ∧ (conjWord t c).getLast? = some t[p] := by
  have hl := conjWord_length h1 h2
  have hlast : (conjWord t c).getLast? =
      t[c.start + (c.index + (c.stop - c.start)) % (1 + c.stop - c.start)]? := by
    rw [List.getLast?_eq_getElem?, hl, ← conjWord_get h1 h2 h3]
    congr 1
    rw [Nat.mod_eq_of_lt (by omega)]; omega
  unfold conjPosition
  by_cases h0 : c.index = 0
  · refine ⟨c.stop, h2, by simp [h0, pure_ok], ?_⟩
    rw [hlast, h0, Nat.mod_eq_of_lt (by omega), show c.start + (0 + (c.stop - c.start)) = c.stop by omega,
      List.getElem?_eq_getElem h2]
  · refine ⟨c.start + c.index - 1, by omega, by rw [if_neg h0, usub_ok (by omega)], ?_⟩
    rw [hlast, show c.index + (c.stop - c.start) = c.index - 1 + (1 + c.stop - c.start) by omega,
      Nat.add_mod_right, Nat.mod_eq_of_lt (by omega),
      show c.start + (c.index - 1) = c.start + c.index - 1 by omega, List.getElem?_eq_getElem]

section order
variable [LinearOrder α]

theorem conjCmp_ok {t : List α} {a b : Conjugate} (ha1 : a.start ≤ a.stop) (ha2 : a.stop < t.length)
    (ha3 : a.index ≤ a.stop - a.start) (hb1 : b.start ≤ b.stop) (hb2 : b.stop < t.length)
    (hb3 : b.index ≤ b.stop - b.start) {N : Nat} (hN : t.length * t.length ≤ N) :
    conjCmp t a b = .ok (ucmp (omTake (conjWord t a) N) (omTake (conjWord t b) N)) := by
  have hla := conjWord_length ha1 ha2
  have hlb := conjWord_length hb1 hb2
  have hna : conjWord t a ≠ [] := by intro e; rw [e] at hla; simp at hla; omega
  have hnb : conjWord t b ≠ [] := by intro e; rw [e] at hlb; simp at hlb; omega
  have hK : (conjWord t a).length * (conjWord t b).length ≤ N :=
    le_trans (Nat.mul_le_mul (by omega) (by omega)) hN
  have hga := conjWord_get ha1 ha2 ha3
  have hgb := conjWord_get hb1 hb2 hb3
  simp only [conjCmp]
  rw [usub_ok (by omega), ok_bind, usub_ok (by omega), ok_bind, ← hla, ← hlb]
  rw [← hla] at hga
  rw [← hlb] at hgb
  have hpa : 0 < (conjWord t a).length := List.length_pos_iff.2 hna
  have hpb : 0 < (conjWord t b).length := List.length_pos_iff.2 hnb
  rw [ucmp_congr_take (k := (conjWord t a).length * (conjWord t b).length)
    (by rw [omTake_length hna, omTake_length hnb]), omTake_take hna hK, omTake_take hnb hK]
  · refine lexFind (omTake_length hna _) (omTake_length hnb _) ?_
    intro i h1 h2
    rw [omTake_length hna] at h1
    have ea := omTake_get hna h1
    have eb := omTake_get hnb h1
    rw [hga] at ea
    rw [hgb] at eb
    have hma : (a.index + i) % (conjWord t a).length < (conjWord t a).length := Nat.mod_lt _ hpa
    have hmb : (b.index + i) % (conjWord t b).length < (conjWord t b).length := Nat.mod_lt _ hpb
    have qa : a.start + (a.index + i) % (conjWord t a).length < t.length := by omega
    have qb : b.start + (b.index + i) % (conjWord t b).length < t.length := by omega
    rw [rd_ok qa, ok_bind, rd_ok qb, ok_bind]
    rw [List.getElem?_eq_getElem qa, List.getElem?_eq_getElem (by rw [omTake_length hna]; exact h1)]
      at ea
    rw [List.getElem?_eq_getElem qb, List.getElem?_eq_getElem (by rw [omTake_length hnb]; exact h1)]
      at eb
    simp only [Option.some.injEq] at ea eb
    rw [ea, eb]
    rcases lt_trichotomy (t[a.start + (a.index + i) % (conjWord t a).length])
      (t[b.start + (b.index + i) % (conjWord t b).length]) with h | h | h
    · rw [if_neg h.ne, if_pos h, if_neg h.ne, ucmp_of_lt h]; rfl
    · rw [if_pos h, if_pos h]; rfl
    · rw [if_neg h.ne', if_neg h.not_gt, if_neg h.ne', ucmp_of_gt h]; rfl
  · rw [omTake_take hna hK, omTake_take hnb hK]
    intro e
    exact omTake_eq_of_prefix hna hnb e N

/-- The rows behind the output of `bbwt_naive`: all rotations of all Lyndon factors, sorted by their
infinite powers; the output lists their last letters. -/
theorem bbwtNaive_rows {t : List α} (ht : t ≠ []) {fs : List (List α)}
    (hf : IsLyndonFactorization fs t) {N : Nat} (hN : t.length * t.length ≤ N) :
    ∃ (S : List (List α)) (b : List α), bbwtNaive t = .ok b ∧ S.Perm (fs.flatMap rots) ∧
      S.Pairwise (fun u v => omTake u N ≤ omTake v N) ∧ b.map some = S.map List.getLast? := by
  have hn : 0 < t.length := List.length_pos_iff.2 ht
  have hne : ∀ f ∈ fs, f ≠ [] := fun f h => (hf.2.1 f h).1
  have hfs : fs ≠ [] := by rintro rfl; exact ht (by simpa using hf.1.symm)
  simp only [bbwtNaive]
  rw [duval_of_factorization hf, ok_bind, conjugates_ok hfs hne, ok_bind,
    show assertR (decide ((conjList 0 fs).length = t.length)) = .ok () by
      simp [assertR, conjList_length, hf.1], ok_bind]
  have hmem : ∀ c ∈ conjList 0 fs, c.start ≤ c.stop ∧ c.stop < t.length ∧
      c.index ≤ c.stop - c.start := by
    intro c hc
    have := conjList_mem hne hc
    rw [hf.1] at this
    simpa using this
  obtain ⟨s, h1, h2, -, h4⟩ := sortByR_key (cmp := conjCmp t)
    (key := fun c => omTake (conjWord t c) N) (l := conjList 0 fs) (by
      intro a ha b hb
      obtain ⟨p1, p2, p3⟩ := hmem a ha
      obtain ⟨q1, q2, q3⟩ := hmem b hb
      exact conjCmp_ok p1 p2 p3 q1 q2 q3 hN)
  rw [h1, ok_bind, rd_ok hn, ok_bind]
  have hsl : s.length = t.length := by rw [h2.length_eq, conjList_length, hf.1]
  have hlast : ∀ i (hi : i < s.length), ∃ p, ∃ hp : p < t.length,
      conjPosition s[i] = .ok p ∧ (conjWord t s[i]).getLast? = some t[p] := by
    intro i hi
    obtain ⟨p1, p2, p3⟩ := hmem s[i] (h2.mem_iff.1 (List.getElem_mem hi))
    exact conjWord_last p1 p2 p3
  have hbody := forRange_fill (n := t.length) (v := List.replicate t.length t[0])
    (body := fun i bbwt => do
      let c ← rd s i
      let p ← conjPosition c
      let x ← rd t p
      wr bbwt i x)
    (g := fun i => ((s.map (fun c => (conjWord t c).getLast?)).getD i none).getD t[0])
    (by simp) (by
      intro i w hi _
      have hi' : i < s.length := by omega
      obtain ⟨p, hp, e1, e2⟩ := hlast i hi'
      rw [rd_ok hi', ok_bind, e1, ok_bind, rd_ok hp, ok_bind]
      simp [hi', e2])
  refine ⟨s.map (conjWord t), _, hbody, ?_, ?_, ?_⟩
  · rw [← conjList_words (t := t) (s := 0) (by simpa using hf.1.symm) hne]
    exact h2.map _
  · rw [List.pairwise_map]; exact h4
  · apply List.ext_getElem?
    intro i
    by_cases hi : i < t.length
    · have hi' : i < s.length := by omega
      obtain ⟨p, hp, e1, e2⟩ := hlast i hi'
      simp [hi, hi', e2]
    · rw [List.getElem?_eq_none (by simp; omega), List.getElem?_eq_none (by simp; omega)]

omit [LinearOrder α] in
theorem flatMap_rots_ne {fs : List (List α)} {r : List α} (h : r ∈ fs.flatMap rots) : r ≠ [] := by
  obtain ⟨f, hf, hr⟩ := List.mem_flatMap.1 h
  rw [rots] at hr
  obtain ⟨i, hi, rfl⟩ := List.mem_map.1 hr
  simp at hi
  intro e
  have := congrArg List.length e
  rw [rot_length] at this
  simp at this
  subst this
  simp at hi

omit [LinearOrder α] in
/-- Rotating every row by one keeps the multiset of rows. -/
theorem flatMap_rots_rot (fs : List (List α)) :
    ((fs.flatMap rots).map (fun r => rot (r.length - 1) r)).Perm (fs.flatMap rots) := by
  induction fs with
  | nil => exact List.Perm.refl _
  | cons f fs ih =>
    rw [List.flatMap_cons, List.map_append]
    refine List.Perm.append ?_ ih
    have : (rots f).map (fun r => rot (r.length - 1) r) = (rots f).map (rot (f.length - 1)) := by
      apply List.map_congr_left
      intro r hr
      rw [rots] at hr
      obtain ⟨i, -, rfl⟩ := List.mem_map.1 hr
      rw [rot_length]
    rw [this]
    exact rots_map_rot (by omega)

omit [LinearOrder α] in
theorem last_cons_omTake {r : List α} {c : α} {k : Nat} (hr : r ≠ []) (hc : r.getLast? = some c) :
    c :: omTake r k = omTake (rot (r.length - 1) r) (k + 1) := by
  have hn : 0 < r.length := List.length_pos_iff.2 hr
  have hrr : rot (r.length - 1) r ≠ [] := by
    intro e
    have := congrArg List.length e
    rw [rot_length] at this; simp at this; exact hr this
  apply List.ext_getElem?
  intro i
  by_cases hi : i < k + 1
  · rw [omTake_get hrr hi, rot_length, rot_get (by omega) (Nat.mod_lt _ hn), Nat.add_mod_mod]
    cases i with
    | zero =>
      rw [List.getElem?_cons_zero, Nat.add_zero, Nat.mod_eq_of_lt (by omega), ← hc,
        List.getLast?_eq_getElem?]
    | succ i =>
      rw [List.getElem?_cons_succ, omTake_get hr (by omega),
        show r.length - 1 + (i + 1) = i + r.length by omega, Nat.add_mod_right]
  · rw [List.getElem?_eq_none (by rw [List.length_cons, omTake_length hr]; omega),
      List.getElem?_eq_none (by rw [omTake_length hrr]; omega)]

/-- Column-by-column reconstruction. -/
theorem omTable_succ {S : List (List α)} {b : List α} {N k : Nat} (hS : ∀ r ∈ S, r ≠ [])
    (hrot : (S.map (fun r => rot (r.length - 1) r)).Perm S)
    (hsort : S.Pairwise (fun u v => omTake u N ≤ omTake v N))
    (hb : b.map some = S.map List.getLast?) (hk : k < N) :
    S.map (omTake · (k + 1)) = sortKeys (List.zipWith List.cons b (S.map (omTake · k))) := by
  symm
  have hbl : b.length = S.length := by simpa using congrArg List.length hb
  apply sortKeys_eq
  · have e : List.zipWith List.cons b (S.map (omTake · k)) =
        (S.map (fun r => rot (r.length - 1) r)).map (omTake · (k + 1)) := by
      apply List.ext_getElem?
      intro i
      by_cases hi : i < S.length
      · have hi' : i < b.length := by omega
        have hbi := congrArg (·[i]?) hb
        simp [hi, hi'] at hbi
        rw [List.getElem?_zipWith, List.getElem?_eq_getElem hi']
        simp only [List.getElem?_map, List.getElem?_eq_getElem hi, Option.map_some]
        rw [last_cons_omTake (hS _ (List.getElem_mem hi)) hbi.symm]
      · rw [List.getElem?_eq_none (by rw [List.length_zipWith, List.length_map]; omega),
          List.getElem?_eq_none (by simp; omega)]
    rw [e]
    exact (hrot.map _).symm
  · rw [List.pairwise_map]
    refine hsort.imp_of_mem ?_
    intro r s hr hs hrs
    have := take_le_take hrs (k + 1) (by rw [omTake_length (hS r hr)]; omega)
    rwa [omTake_take (hS r hr) (by omega), omTake_take (hS s hs) (by omega)] at this

theorem omTable_eq {S T : List (List α)} {b : List α} {N : Nat} (hS : ∀ r ∈ S, r ≠ [])
    (hT : ∀ r ∈ T, r ≠ [])
    (hSr : (S.map (fun r => rot (r.length - 1) r)).Perm S)
    (hTr : (T.map (fun r => rot (r.length - 1) r)).Perm T)
    (hSs : S.Pairwise (fun u v => omTake u N ≤ omTake v N))
    (hTs : T.Pairwise (fun u v => omTake u N ≤ omTake v N))
    (hSb : b.map some = S.map List.getLast?) (hTb : b.map some = T.map List.getLast?) :
    S.map (omTake · N) = T.map (omTake · N) := by
  have hbS : b.length = S.length := by simpa using congrArg List.length hSb
  have hbT : b.length = T.length := by simpa using congrArg List.length hTb
  have key : ∀ k, k ≤ N → S.map (omTake · k) = T.map (omTake · k) := by
    intro k
    induction k with
    | zero =>
      intro _
      apply List.ext_getElem?
      intro i
      by_cases hi : i < S.length
      · simp [hi, show i < T.length by omega, omTake, power]
      · rw [List.getElem?_eq_none (by simp; omega), List.getElem?_eq_none (by simp; omega)]
    | succ k ih =>
      intro hk
      rw [omTable_succ hS hSr hSs hSb (by omega), omTable_succ hT hTr hTs hTb (by omega), ih (by omega)]
  exact key N (le_refl _)

end order

end Verif
