import Verif.Lemmas.Conjugates
import Verif.Lemmas.BbwtInj
import Mathlib.NumberTheory.ArithmeticFunction.Moebius

/-! # The number of Lyndon words -/

namespace Verif

open Spec

/-- The words of length `m` over the letters below `s`. -/
def wordsOf (s : Nat) : Nat → List (List Nat)
  | 0 => [[]]
  | m + 1 => (List.range s).flatMap fun c => (wordsOf s m).map (c :: ·)

theorem wordsOf_length (s m : Nat) : (wordsOf s m).length = s ^ m := by
  induction m with
  | zero => rfl
  | succ m ih => simp [wordsOf, List.length_flatMap, ih, Nat.pow_succ, Nat.mul_comm]

theorem mem_wordsOf {s m : Nat} {w : List Nat} : w ∈ wordsOf s m ↔ w.length = m ∧ ∀ c ∈ w, c < s := by
  induction m generalizing w with
  | zero =>
    simp only [wordsOf, List.mem_singleton, List.length_eq_zero_iff]
    exact ⟨fun h => ⟨h, by simp [h]⟩, fun h => h.1⟩
  | succ m ih =>
    simp only [wordsOf, List.mem_flatMap, List.mem_range, List.mem_map]
    constructor
    · rintro ⟨c, hc, v, hv, rfl⟩
      obtain ⟨h1, h2⟩ := ih.1 hv
      exact ⟨by simp [h1], by simpa [hc] using h2⟩
    · rintro ⟨h1, h2⟩
      cases w with
      | nil => simp at h1
      | cons c v => exact ⟨c, h2 c (by simp), v, ih.2 ⟨by simpa using h1, fun x hx => h2 x (by simp [hx])⟩, rfl⟩

theorem wordsOf_nodup (s m : Nat) : (wordsOf s m).Nodup := by
  induction m with
  | zero => simp [wordsOf]
  | succ m ih =>
    rw [wordsOf, List.nodup_flatMap]
    refine ⟨fun c _ => ih.map (fun a b h => by simpa using h), ?_⟩
    refine List.nodup_range.imp ?_
    intro a b hab
    rw [Function.onFun, List.disjoint_left]
    rintro x hx hy
    obtain ⟨_, _, rfl⟩ := List.mem_map.1 hx
    obtain ⟨_, _, h⟩ := List.mem_map.1 hy
    simp only [List.cons.injEq] at h
    exact hab h.1.symm

variable {α : Type}

theorem power_power (u : List α) (j k : Nat) : power (power u j) k = power u (k * j) := by
  induction k with
  | zero => simp [power]
  | succ k ih => rw [power, ih, Nat.succ_mul, Nat.add_comm, power_add]

theorem power_mem {u : List α} {k : Nat} {c : α} (h : c ∈ power u k) : c ∈ u := by
  induction k with
  | zero => simp [power] at h
  | succ k ih =>
    rw [power] at h
    rcases List.mem_append.1 h with h | h
    · exact h
    · exact ih h

/-- Every word is a power of a primitive word. -/
theorem exists_root {v : List α} (hv : v ≠ []) : ∃ x k, x ≠ [] ∧ IsPrimitive x ∧ 0 < k ∧ v = power x k := by
  induction hn : v.length using Nat.strong_induction_on generalizing v with
  | _ n ih =>
    by_cases hp : IsPrimitive v
    · exact ⟨v, 1, hv, hp, by omega, by simp [power]⟩
    · unfold IsPrimitive at hp
      rw [not_not] at hp
      obtain ⟨u, k, hk, e⟩ := hp
      have hl := congrArg List.length e
      rw [power_length] at hl
      have hvp := List.length_pos_iff.2 hv
      have hu : u ≠ [] := by rintro rfl; simp only [List.length_nil, Nat.mul_zero] at hl; omega
      have hup := List.length_pos_iff.2 hu
      have hlt : u.length < n := by
        have := Nat.mul_le_mul_right u.length hk
        omega
      obtain ⟨x, j, h1, h2, h3, h4⟩ := ih u.length hlt hu rfl
      exact ⟨x, k * j, h1, h2, Nat.mul_pos (by omega) h3, by rw [e, h4, power_power]⟩

/-- The primitive root is unique. -/
theorem root_unique {x y : List α} {i j : Nat} (hx : x ≠ []) (hy : y ≠ []) (px : IsPrimitive x) (py : IsPrimitive y)
    (hi : 0 < i) (hj : 0 < j) (h : power x i = power y j) : x = y := by
  have key : ∀ {x y : List α} {i j : Nat}, x ≠ [] → y ≠ [] → IsPrimitive y →
      0 < i → 0 < j → power x i = power y j → ¬ x.length < y.length := by
    intro x y i j hx hy py hi hj h hlt
    have hxp := List.length_pos_iff.2 hx
    have hyp := List.length_pos_iff.2 hy
    have hm : i * x.length = j * y.length := by
      have := congrArg List.length h; simpa [power_length] using this
    have hmp : 0 < j * y.length := Nat.mul_pos hj hyp
    let w : Nat → Option α := fun k => (power y j)[k % (j * y.length)]?
    have wy : ∀ k, w k = y[k % y.length]? := fun k => by
      show (power y j)[k % (j * y.length)]? = _
      rw [power_get y j _ (Nat.mod_lt _ hmp), Nat.mod_mul_left_mod]
    have wx : ∀ k, w k = x[k % x.length]? := fun k => by
      show (power y j)[k % (j * y.length)]? = _
      rw [← h, ← hm, power_get x i _ (Nat.mod_lt _ (by omega)), Nat.mod_mul_left_mod]
    have hg := om_gcd (w := w) x.length y.length (fun k => by rw [wx, wx, Nat.add_mod_right])
      (fun k => by rw [wy, wy, Nat.add_mod_right])
    refine (not_primitive_iff hy).2 ⟨x.length.gcd y.length, Nat.gcd_pos_of_pos_left _ hxp,
      lt_of_le_of_lt (Nat.gcd_le_left _ hxp) hlt, Nat.gcd_dvd_right _ _, fun k hk => ?_⟩ py
    have := hg k
    rw [wy, wy, Nat.mod_eq_of_lt hk, Nat.mod_eq_of_lt (by omega)] at this
    exact this.symm
  have hle := key hx hy py hi hj h
  have hle' := key hy hx px hj hi h.symm
  have hl : x.length = y.length := by omega
  obtain ⟨i, rfl⟩ : ∃ k, i = k + 1 := ⟨i - 1, by omega⟩
  obtain ⟨j, rfl⟩ : ∃ k, j = k + 1 := ⟨j - 1, by omega⟩
  rw [power, power] at h
  exact (List.append_inj h hl).1

/-! ### Counting -/

open Classical in
/-- The Lyndon words of a length. -/
noncomputable def lyn (s d : Nat) : List (List Nat) := (wordsOf s d).filter fun w => decide (IsLyndon w)

theorem mem_lyn {s d : Nat} {w : List Nat} : w ∈ lyn s d ↔ IsLyndon w ∧ w.length = d ∧ ∀ c ∈ w, c < s := by
  simp only [lyn, List.mem_filter, mem_wordsOf, decide_eq_true_eq]
  tauto

theorem lyn_nodup (s d : Nat) : (lyn s d).Nodup := (wordsOf_nodup s d).filter _

/-- The words of length `m` whose primitive root is a rotation of a Lyndon word of length `d`. -/
noncomputable def rooted (s m d : Nat) : List (List Nat) :=
  (lyn s d).flatMap fun w => (List.range d).map fun k => power (rot k w) (m / d)

theorem rooted_length (s m d : Nat) : (rooted s m d).length = d * (lyn s d).length := by
  simp [rooted, List.length_flatMap, Nat.mul_comm]

theorem mem_rooted {s m d : Nat} {v : List Nat} : v ∈ rooted s m d ↔
    ∃ w k, IsLyndon w ∧ w.length = d ∧ (∀ c ∈ w, c < s) ∧ k < d ∧ v = power (rot k w) (m / d) := by
  simp only [rooted, List.mem_flatMap, List.mem_map, List.mem_range, mem_lyn]
  constructor
  · rintro ⟨w, ⟨h1, h2, h3⟩, k, hk, rfl⟩
    exact ⟨w, k, h1, h2, h3, hk, rfl⟩
  · rintro ⟨w, k, h1, h2, h3, hk, rfl⟩
    exact ⟨w, ⟨h1, h2, h3⟩, k, hk, rfl⟩

theorem rooted_inj {m d d' : Nat} (hm : 0 < m) (hd : d ∣ m) (hd' : d' ∣ m) {w w' : List Nat} {k k' : Nat}
    (hw : IsLyndon w) (hw' : IsLyndon w') (hl : w.length = d) (hl' : w'.length = d') (hk : k < d) (hk' : k' < d')
    (h : power (rot k w) (m / d) = power (rot k' w') (m / d')) : w = w' ∧ k = k' := by
  subst hl hl'
  have hr := root_unique (rot_ne_nil hw.1) (rot_ne_nil hw'.1) (rot_lyndon_primitive hw hk)
    (rot_lyndon_primitive hw' hk') (Nat.div_pos (Nat.le_of_dvd hm hd) (by omega))
    (Nat.div_pos (Nat.le_of_dvd hm hd') (by omega)) h
  exact rot_lyndon_inj hw hw' hk hk' hr

theorem rooted_nodup {s m d : Nat} (hm : 0 < m) (hd : d ∣ m) : (rooted s m d).Nodup := by
  rw [rooted, List.nodup_flatMap]
  refine ⟨fun w hw => ?_, ?_⟩
  · obtain ⟨h1, h2, h3⟩ := mem_lyn.1 hw
    refine List.nodup_range.map_on ?_
    intro a ha b hb e
    exact (rooted_inj hm hd hd h1 h1 h2 h2 (List.mem_range.1 ha) (List.mem_range.1 hb) e).2
  · refine (lyn_nodup s d).imp_of_mem ?_
    intro a b ha hb hab
    rw [Function.onFun, List.disjoint_left]
    intro x hx hy
    obtain ⟨k, hk, rfl⟩ := List.mem_map.1 hx
    obtain ⟨k', hk', e⟩ := List.mem_map.1 hy
    obtain ⟨h1, h2, h3⟩ := mem_lyn.1 ha
    obtain ⟨h1', h2', h3'⟩ := mem_lyn.1 hb
    exact hab (rooted_inj hm hd hd h1' h1 h2' h2 (List.mem_range.1 hk') (List.mem_range.1 hk) e).1.symm

/-- Every word of length `m` is a power of a rotation of a Lyndon word, in one way. -/
theorem rooted_perm {s m : Nat} (hm : 0 < m) :
    (m.divisors.toList.flatMap (rooted s m)).Perm (wordsOf s m) := by
  rw [List.perm_ext_iff_of_nodup]
  · intro v
    simp only [List.mem_flatMap, Finset.mem_toList, Nat.mem_divisors, mem_rooted, mem_wordsOf]
    constructor
    · rintro ⟨d, ⟨hd, _⟩, w, k, h1, h2, h3, hk, rfl⟩
      refine ⟨?_, fun c hc => h3 c ?_⟩
      · rw [power_length, rot_length, h2, Nat.div_mul_cancel hd]
      · have := power_mem hc
        rw [rot] at this
        rcases List.mem_append.1 this with h | h
        · exact List.mem_of_mem_drop h
        · exact List.mem_of_mem_take h
    · rintro ⟨hl, hc⟩
      have hv : v ≠ [] := by rw [← List.length_pos_iff]; omega
      obtain ⟨x, i, hx, px, hi, rfl⟩ := exists_root hv
      obtain ⟨w, k, hw, hk, rfl⟩ := primitive_rot_lyndon hx px
      have e : i * w.length = m := by rw [power_length, rot_length] at hl; exact hl
      have hwp := List.length_pos_iff.2 hw.1
      refine ⟨w.length, ⟨⟨i, by rw [Nat.mul_comm]; exact e.symm⟩, by omega⟩, w, k, hw, rfl, fun c hcw => hc c ?_, hk, ?_⟩
      · obtain ⟨i, rfl⟩ : ∃ k, i = k + 1 := ⟨i - 1, by omega⟩
        rw [power]
        refine List.mem_append_left _ ?_
        rw [rot, List.mem_append]
        rw [← List.take_append_drop k w] at hcw
        rcases List.mem_append.1 hcw with h | h
        · exact Or.inr h
        · exact Or.inl h
      · rw [← e, Nat.mul_div_cancel _ hwp]
  · rw [List.nodup_flatMap]
    refine ⟨fun d hd => rooted_nodup hm (Nat.mem_divisors.1 (Finset.mem_toList.1 hd)).1, ?_⟩
    refine m.divisors.nodup_toList.imp_of_mem ?_
    intro a b ha hb hab
    rw [Function.onFun, List.disjoint_left]
    intro x hx hy
    obtain ⟨w, k, h1, h2, h3, hk, rfl⟩ := mem_rooted.1 hx
    obtain ⟨w', k', h1', h2', h3', hk', e⟩ := mem_rooted.1 hy
    have := (rooted_inj hm (Nat.mem_divisors.1 (Finset.mem_toList.1 ha)).1 (Nat.mem_divisors.1 (Finset.mem_toList.1 hb)).1
      h1 h1' h2 h2' hk hk' e).1
    exact hab (by rw [← h2, ← h2', this])
  · exact wordsOf_nodup s m

theorem lyn_sum {s m : Nat} (hm : 0 < m) : ∑ d ∈ m.divisors, d * (lyn s d).length = s ^ m := by
  have := (rooted_perm (s := s) hm).length_eq
  rw [wordsOf_length, List.length_flatMap] at this
  rw [← this, ← Finset.sum_map_toList]
  congr 1
  exact List.map_congr_left fun d _ => (rooted_length s m d).symm

theorem lyn_moebius {s m : Nat} (hm : 0 < m) : ((m * (lyn s m).length : Nat) : Int) =
    ∑ x ∈ m.divisorsAntidiagonal, ArithmeticFunction.moebius x.1 * (s : Int) ^ x.2 := by
  have := (ArithmeticFunction.sum_eq_iff_sum_mul_moebius_eq (R := Int)
    (f := fun d => ((d * (lyn s d).length : Nat) : Int)) (g := fun m => (s : Int) ^ m)).1
    (fun n hn => by rw [← Nat.cast_sum, lyn_sum hn]; push_cast; rfl) m hm
  rw [← this]
  rfl

theorem lyn_ncard (s d : Nat) : Set.ncard {w : List Nat | IsLyndon w ∧ w.length = d ∧ ∀ c ∈ w, c < s} =
    (lyn s d).length := by
  have : {w : List Nat | IsLyndon w ∧ w.length = d ∧ ∀ c ∈ w, c < s} = ((lyn s d).toFinset : Set (List Nat)) := by
    ext w
    simp only [Set.mem_ofPred_eq, List.coe_toFinset, mem_lyn]
  rw [this, Set.ncard_coe_finset, List.toFinset_card_of_nodup (lyn_nodup s d)]

end Verif
