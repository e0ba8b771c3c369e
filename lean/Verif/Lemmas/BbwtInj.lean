import Verif.Lemmas.Bbwt
import Mathlib.Data.List.Permutation
import Mathlib.Data.Finset.Card
import Mathlib.Data.Fintype.EquivFin

/-! # The bijective Burrows-Wheeler transform is a bijection -/

namespace Verif

open Spec Model

variable {α : Type}

/-- Two periods of an infinite word have their greatest common divisor as a period. -/
theorem om_gcd {β : Type} {w : Nat → β} (p q : Nat) (hp : ∀ i, w (i + p) = w i)
    (hq : ∀ i, w (i + q) = w i) : ∀ i, w (i + Nat.gcd p q) = w i := by
  induction p, q using Nat.gcd.induction with
  | H0 n => simpa using hq
  | H1 m n hm ih =>
    rw [Nat.gcd_rec]
    refine ih ?_ hp
    intro i
    have hk : ∀ k i, w (i + k * m) = w i := by
      intro k
      induction k with
      | zero => simp
      | succ k ihk => intro i; rw [Nat.succ_mul, ← Nat.add_assoc, hp, ihk]
    rw [← hk (n / m) (i + n % m), Nat.add_assoc, Nat.mod_add_div', hq]

section
variable [LinearOrder α]

/-- Lyndon words have no period shorter than their length. -/
theorem Spec.IsLyndon.period_ge {f : List α} (hf : IsLyndon f) {p : Nat} (h0 : 0 < p)
    (hp : IsPeriod p f) : f.length ≤ p := by
  by_contra h
  have h1 := (hf.mis_drop h0 (by omega)).lt
  have h2 : f.drop p <+: f := by
    rw [List.prefix_iff_eq_take]
    apply List.ext_getElem?
    intro i
    by_cases hi : i < f.length - p
    · rw [List.getElem?_drop, List.getElem?_take_of_lt (by rw [List.length_drop]; exact hi),
        hp i (by omega), Nat.add_comm]
    · rw [List.getElem?_eq_none (by rw [List.length_drop]; omega),
        List.getElem?_eq_none (by rw [List.length_take, List.length_drop]; omega)]
  exact absurd h1 (not_lt.2 (le_of_prefix h2))

/-- A rotation of a Lyndon word and a Lyndon word with the same infinite power are equal. -/
theorem lyndon_of_om_eq {f l : List α} (hf : IsLyndon f) (hl : IsLyndon l) {i : Nat}
    (hi : i < f.length) (h : ∀ k, (rot i f)[k % f.length]? = l[k % l.length]?) : f = l ∧ i = 0 := by
  have hfp := hf.length_pos
  have hlp := hl.length_pos
  -- both lengths are periods of the infinite word
  have hd := om_gcd (w := fun k => l[k % l.length]?) l.length f.length
    (fun k => by simp) (fun k => by rw [← h, ← h, Nat.add_mod_right])
  have hdpos : 0 < Nat.gcd l.length f.length := Nat.gcd_pos_of_pos_left _ hlp
  have hdl : Nat.gcd l.length f.length ≤ l.length := Nat.gcd_le_left _ hlp
  have hdf : Nat.gcd l.length f.length ≤ f.length := Nat.gcd_le_right _ hfp
  generalize Nat.gcd l.length f.length = d at *
  have h1 : l.length ≤ d := hl.period_ge hdpos (by
    intro k hk
    have := hd k
    rw [Nat.mod_eq_of_lt hk, Nat.mod_eq_of_lt (by omega)] at this
    exact this.symm)
  -- letters of `f` through the infinite word
  have hfk : ∀ k, k < f.length → f[k]? = l[(k + (f.length - i)) % l.length]? := by
    intro k hk
    rw [← h, rot_get hi.le (Nat.mod_lt _ hfp), Nat.add_mod_mod]
    rw [show i + (k + (f.length - i)) = k + f.length by omega, Nat.add_mod_right,
      Nat.mod_eq_of_lt hk]
  have h2 : f.length ≤ d := hf.period_ge hdpos (by
    intro k hk
    rw [hfk k (by omega), hfk (k + d) hk]
    have := hd (k + (f.length - i))
    rw [← this]
    congr 2; omega)
  have hlen : f.length = l.length := by omega
  have hrot : rot i f = l := by
    apply List.ext_getElem?
    intro k
    by_cases hk : k < f.length
    · have := h k
      rwa [Nat.mod_eq_of_lt hk, Nat.mod_eq_of_lt (by omega)] at this
    · rw [List.getElem?_eq_none (by rw [rot_length]; omega), List.getElem?_eq_none (by omega)]
  have hi0 : i = 0 := by
    by_contra hne
    have a1 : f < rot i f := by
      have := ((hf.mis_drop (by omega) hi).append [] (f.take i)).lt
      simpa [rot] using this
    have e : rot (f.length - i) l = f := by
      rw [← hrot, rot_rot hi.le (by omega), show i + (f.length - i) = f.length by omega,
        Nat.mod_self, rot_zero]
    have a2 : l < rot (f.length - i) l := by
      have := ((hl.mis_drop (d := f.length - i) (by omega) (by omega)).append []
        (l.take (f.length - i))).lt
      simpa [rot] using this
    rw [e] at a2
    rw [hrot] at a1
    exact lt_asymm a1 a2
  subst hi0
  rw [rot_zero] at hrot
  exact ⟨hrot, rfl⟩

omit [LinearOrder α] in
theorem rot_ne_nil {f : List α} {i : Nat} (hf : f ≠ []) : rot i f ≠ [] := by
  intro e
  have := congrArg List.length e
  rw [rot_length] at this
  exact hf (List.eq_nil_of_length_eq_zero this)

theorem rot_omTake_ne {f l : List α} {n N i : Nat} (hf : IsLyndon f) (hl : IsLyndon l)
    (hfn : f.length ≤ n) (hln : l.length ≤ n) (hN : n * n ≤ N) (hi : i < f.length)
    (h : omTake (rot i f) N = omTake l N) : f = l ∧ i = 0 := by
  have hr := rot_ne_nil (i := i) hf.1
  refine lyndon_of_om_eq hf hl hi ?_
  intro k
  have hK : (rot i f).length * l.length ≤ N := by
    rw [rot_length]; exact le_trans (Nat.mul_le_mul hfn hln) hN
  have := om_eq_of_prefix hr hl.1 (by
    rw [← omTake_take hr hK, ← omTake_take hl.1 hK, h]) k
  rwa [rot_length] at this

/-- The multiplicity of a Lyndon factor can be read off the table. -/
theorem count_table {fs : List (List α)} {l : List α} {n N : Nat} (hfs : ∀ f ∈ fs, IsLyndon f)
    (hl : IsLyndon l) (hfn : ∀ f ∈ fs, f.length ≤ n) (hln : l.length ≤ n) (hN : n * n ≤ N) :
    ((fs.flatMap rots).map (omTake · N)).count (omTake l N) = fs.count l := by
  induction fs with
  | nil => simp
  | cons f fs ih =>
    rw [List.flatMap_cons, List.map_append, List.count_append,
      ih (fun g hg => hfs g (by simp [hg])) (fun g hg => hfn g (by simp [hg])), List.count_cons,
      Nat.add_comm]
    congr 1
    have hf := hfs f (by simp)
    have hfl := hfn f (by simp)
    obtain ⟨m, hm⟩ : ∃ m, f.length = m + 1 := ⟨f.length - 1, by have := hf.length_pos; omega⟩
    rw [rots, List.map_map, hm, List.range_succ_eq_map, List.map_cons, List.count_cons]
    have h0 : ((List.map Nat.succ (List.range m)).map ((omTake · N) ∘ fun i => rot i f)).count
        (omTake l N) = 0 := by
      rw [List.count_eq_zero]
      intro hmem
      obtain ⟨i, hi, e⟩ := List.mem_map.1 hmem
      obtain ⟨j, hj, rfl⟩ := List.mem_map.1 hi
      simp at hj
      have := rot_omTake_ne hf hl hfl hln hN (i := j.succ) (by omega) e
      simp at this
    rw [h0, Nat.zero_add]
    simp only [Function.comp, rot_zero, beq_iff_eq]
    by_cases e : f = l
    · simp [e]
    · rw [if_neg e, if_neg]
      intro e'
      apply e
      exact (rot_omTake_ne hf hl hfl hln hN (i := 0) (by omega) (by rw [rot_zero]; exact e')).1

omit [LinearOrder α] in
theorem factor_length {fs : List (List α)} {t : List α} (h : fs.flatten = t) {f : List α}
    (hf : f ∈ fs) : f.length ≤ t.length := by
  subst h
  obtain ⟨pre, post, rfl⟩ := List.append_of_mem hf
  rw [List.flatten_append, List.flatten_cons, List.length_append, List.length_append]; omega

theorem bbwt_perm {t b : List α} (ht : t ≠ []) (h : bbwtNaive t = .ok b) : b.Perm t := by
  obtain ⟨fs, hf⟩ := exists_factorization t
  obtain ⟨S, c, h1, h2, -, h4⟩ := bbwtNaive_rows ht hf (le_refl _)
  rw [h] at h1; injection h1 with h1; subst h1
  have h5 : (b.map some).Perm ((fs.flatMap rots).map List.getLast?) := by
    rw [h4]; exact h2.map _
  have h6 : ∀ fs : List (List α), ((fs.flatMap rots).map List.getLast?).Perm (fs.flatten.map some) := by
    intro fs
    induction fs with
    | nil => exact List.Perm.refl _
    | cons f fs ih =>
      rw [List.flatMap_cons, List.map_append, List.flatten_cons, List.map_append]
      refine List.Perm.append ?_ ih
      obtain ⟨c, hc1, hc2⟩ := bwtByMatrixNaive_ok f
      have hp := matrix_last_perm hc2
      have : ((rots f).map List.getLast?).Perm ((matrix f).map List.getLast?) :=
        ((sortKeys_perm (rots f)).map _).symm
      rw [← hc2] at this
      exact this.trans (hp.map _)
  have h7 := h5.trans (h6 fs)
  rw [hf.1] at h7
  have h8 := h7.filterMap id
  simpa [List.filterMap_map] using h8

theorem bbwt_injective {s t b : List α} (hs : s ≠ []) (ht : t ≠ []) (h1 : bbwtNaive s = .ok b)
    (h2 : bbwtNaive t = .ok b) : s = t := by
  have ls := (bbwt_perm hs h1).length_eq
  have lt := (bbwt_perm ht h2).length_eq
  obtain ⟨fs, hf⟩ := exists_factorization s
  obtain ⟨gs, hg⟩ := exists_factorization t
  obtain ⟨S, c, e1, e2, e3, e4⟩ := bbwtNaive_rows hs hf (le_refl _)
  obtain ⟨T, d, f1, f2, f3, f4⟩ := bbwtNaive_rows ht hg (N := s.length * s.length)
    (by rw [← ls, ← lt])
  rw [h1] at e1; injection e1 with e1; subst e1
  rw [h2] at f1; injection f1 with f1; subst f1
  have hSr : (S.map (fun r => rot (r.length - 1) r)).Perm S :=
    ((e2.map _).trans (flatMap_rots_rot fs)).trans e2.symm
  have hTr : (T.map (fun r => rot (r.length - 1) r)).Perm T :=
    ((f2.map _).trans (flatMap_rots_rot gs)).trans f2.symm
  have htab := omTable_eq (fun r hr => flatMap_rots_ne (e2.mem_iff.1 hr))
    (fun r hr => flatMap_rots_ne (f2.mem_iff.1 hr)) hSr hTr e3 f3 e4 f4
  -- equal multiplicities
  have hlen : t.length = s.length := by omega
  have hcount : ∀ l, IsLyndon l → l.length ≤ s.length → fs.count l = gs.count l := by
    intro l hl hln
    rw [← count_table hf.2.1 hl (fun f hf' => factor_length hf.1 hf') hln (le_refl _),
      ← count_table hg.2.1 hl (fun g hg' => (factor_length hg.1 hg').trans hlen.le) hln (le_refl _),
      ← (e2.map (omTake · (s.length * s.length))).count_eq,
      ← (f2.map (omTake · (s.length * s.length))).count_eq, htab]
  have hperm : fs.Perm gs := by
    rw [List.perm_iff_count]
    intro l
    by_cases h1 : l ∈ fs
    · exact hcount l (hf.2.1 l h1) (factor_length hf.1 h1)
    · by_cases h2 : l ∈ gs
      · exact hcount l (hg.2.1 l h2) ((factor_length hg.1 h2).trans hlen.le)
      · rw [List.count_eq_zero.2 h1, List.count_eq_zero.2 h2]
  have : fs = gs := List.Perm.eq_of_pairwise (fun _ _ _ _ h h' => le_antisymm h' h) hf.2.2 hg.2.2 hperm
  rw [← hf.1, ← hg.1, this]

theorem bbwt_total {t : List α} (ht : t ≠ []) : ∃ b, bbwtNaive t = .ok b := by
  obtain ⟨fs, hf⟩ := exists_factorization t
  obtain ⟨S, b, h, -⟩ := bbwtNaive_rows ht hf (le_refl _)
  exact ⟨b, h⟩

theorem bbwt_surjective {b : List α} (hb : b ≠ []) : ∃ t, t ≠ [] ∧ bbwtNaive t = .ok b := by
  have hne : ∀ t : {t : List α // t.Perm b}, t.1 ≠ [] := by
    rintro ⟨t, ht⟩ rfl
    exact hb (List.nil_perm.1 ht)
  let φ : {t : List α // t.Perm b} → {t : List α // t.Perm b} := fun t =>
    ⟨(bbwt_total (hne t)).choose, (bbwt_perm (hne t) (bbwt_total (hne t)).choose_spec).trans t.2⟩
  have hφ : ∀ t, bbwtNaive t.1 = .ok (φ t).1 := fun t => (bbwt_total (hne t)).choose_spec
  have hinj : Function.Injective φ := by
    intro s t e
    apply Subtype.ext
    exact bbwt_injective (hne s) (hne t) (hφ s) (by rw [e]; exact hφ t)
  have hfin : Finite {t : List α // t.Perm b} := by
    have : Set.Finite {t : List α | t.Perm b} := by
      refine Set.Finite.subset (b.permutations.toFinset.finite_toSet) ?_
      intro t ht
      simp only [List.coe_toFinset, Set.mem_ofPred_eq, List.mem_permutations]
      exact ht
    exact this
  obtain ⟨t, ht⟩ := (Finite.injective_iff_surjective.1 hinj) ⟨b, List.Perm.refl _⟩
  refine ⟨t.1, hne t, ?_⟩
  rw [hφ t, ht]

/-- On Lyndon words the two transforms agree. -/
theorem bbwt_lyndon {t : List α} (ht : IsLyndon t) :
    ∃ b, bbwtNaive t = .ok b ∧ b.map some = (matrix t).map List.getLast? := by
  have hn := ht.length_pos
  have hf : IsLyndonFactorization [t] t := ⟨by simp, by simpa using ht, by simp⟩
  obtain ⟨S, b, h1, h2, h3, h4⟩ := bbwtNaive_rows ht.1 hf (le_refl _)
  refine ⟨b, h1, ?_⟩
  rw [h4]
  congr 1
  symm
  apply matrix_unique
  have h2' : S.Perm (rots t) := by simpa using h2
  refine ⟨h2', h3.imp_of_mem ?_⟩
  intro u v hu hv huv
  have lu : u.length = t.length := matrix_row_length ((sortKeys_perm _).mem_iff.2 (h2'.mem_iff.1 hu))
  have lv : v.length = t.length := matrix_row_length ((sortKeys_perm _).mem_iff.2 (h2'.mem_iff.1 hv))
  have hu0 : u ≠ [] := by rintro rfl; simp at lu; omega
  have hv0 : v ≠ [] := by rintro rfl; simp at lv; omega
  have hle : t.length ≤ t.length * t.length := Nat.le_mul_of_pos_left _ hn
  have := take_le_take huv t.length (by rw [omTake_length hu0]; omega)
  rwa [omTake_take hu0 hle, omTake_take hv0 hle, ← lu, omTake_self hu0, lu, ← lv, omTake_self hv0]
    at this

end

end Verif
