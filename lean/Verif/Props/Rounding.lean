import Verif.Lemmas.Binary64
import Verif.Props.Bwt

/-! # C98: accuracy of the printed entropies

The other claims about the entropy tools are about exact real arithmetic.  Here every operation is rounded as in
IEEE 754 double precision arithmetic. -/

namespace Verif.Props

open Verif Verif.Model Verif.Spec

/-- Double precision arithmetic is accurate in the sense of the standard model. -/
theorem C98_binary64 (A : Arith) (h : Binary64 A) : Accurate A (1 / 2 ^ 53) (1 / 2 ^ 52) := h.accurate

/-- The zero-th order entropy, for any precision. -/
theorem C98_zero_order (A : Arith) (u v : ℝ) (h : Accurate A u v) (text : List UInt8) (hne : text ≠ [])
    (hlen : text.length ≤ 9007199254740992) :
    ∃ y, zeroOrderEntropyF A text = .ok y ∧ 0 ≤ y ∧
      |y - zeroOrder text| ≤ 2 * (258 * u + v) * zeroOrder text + 8 * u + 24 * tiny := by
  obtain ⟨y, h1, h2, h3⟩ := zeroOrderF_near h hne hlen
  have hu := h.u_nonneg
  have hu' := h.u_le
  have ht := tiny_pos
  refine ⟨y, h1, h2, ?_⟩
  have := h3.abs_le h (zeroOrder_nonneg text) (by positivity) (by push_cast; linarith)
  push_cast at this
  linarith

/-- The `k`-th order entropy, for any precision that fits to the length of the text. -/
theorem C98_kth_order (A : Arith) (u v : ℝ) (h : Accurate A u v) (sufsort : List UInt8 → List Nat)
    (hsort : SortsSuffixes sufsort) (T : List UInt8) (h0 : T ≠ []) (hT : ∀ x ∈ T, x ≠ 0)
    (hlen : T.length < 2147483647) (k : Nat) (hk : 0 < k) (hN : ((T.length : ℝ) + 262) * u ≤ 1 / 2) :
    ∃ y, kthOrderEntropyF A sufsort (T ++ [0]) k = .ok y ∧ 0 ≤ y ∧
      |y - kthOrder (T ++ [0]) k| ≤
        2 * (((T.length : ℝ) + 262) * u + v) * kthOrder (T ++ [0]) k + 16 * u + 88 * tiny := by
  obtain ⟨y, h1, h2, h3⟩ := kthOrderF_near h hsort h0 hT hlen hk (by push_cast; exact hN)
  have hu := h.u_nonneg
  have ht := tiny_pos
  refine ⟨y, h1, h2, ?_⟩
  have := h3.abs_le h (kthOrder_nonneg _ k) (by positivity) (by push_cast; exact hN)
  push_cast at this
  linarith

/-- The same by counting `k`-mers, whatever the orders in which the hash maps are iterated. -/
theorem C98_kmer (A : Arith) (u v : ℝ) (h : Accurate A u v) (ord ord' : List (Nat × Nat) → List (Nat × Nat))
    (ho : ∀ m, (ord m).Perm m) (ho' : ∀ m, (ord' m).Perm m) (T : List UInt8) (hT : ∀ x ∈ T, x ≠ 0)
    (hlen : T.length < 9007199254740992) (k : Nat) (hk : 1 ≤ k) (hk7 : k ≤ 7) (hkl : k ≤ T.length + 1)
    (hN : ((T.length : ℝ) + 2) * u ≤ 1 / 2) :
    ∃ y, entropyViaKmerCountingF A ord ord' (T ++ [0]) k = .ok (y, T.length + 1) ∧
      |y - kthOrder (T ++ [0]) k| ≤ 3 * u * kthOrder (T ++ [0]) k +
        8 * (((T.length : ℝ) + 2) * u + v) * Real.logb 2 ((T.length : ℝ) + 1) + 64 * tiny := by
  obtain ⟨y, h1, h2⟩ := kmerF_near h hT hk hk7 hkl hlen (by push_cast; exact hN) ho ho'
  refine ⟨y, h1, ?_⟩
  push_cast at h2
  exact h2

private theorem tiny_small : tiny ≤ 1 / 2 ^ 100 :=
  tiny_le.trans (one_div_le_one_div_of_le (by positivity) (pow_le_pow_right₀ (by norm_num) (by norm_num)))

/-- With `f64`: the printed zero-th order entropy is within `2^-40` of the exact value. -/
theorem C98_zero_order_f64 (A : Arith) (h : Binary64 A) (text : List UInt8) (hne : text ≠ [])
    (hlen : text.length ≤ 9007199254740992) :
    ∃ y, zeroOrderEntropyF A text = .ok y ∧ 0 ≤ y ∧ |y - zeroOrder text| ≤ 1 / 2 ^ 40 := by
  obtain ⟨y, h1, h2, h3⟩ := C98_zero_order A _ _ h.accurate text hne hlen
  refine ⟨y, h1, h2, h3.trans ?_⟩
  have := zeroOrder_le_eight text
  have := tiny_small
  norm_num at *
  linarith

/-- With `f64`: the printed `k`-th order entropy is within `2^-17` of the exact value. -/
theorem C98_kth_order_f64 (A : Arith) (h : Binary64 A) (sufsort : List UInt8 → List Nat)
    (hsort : SortsSuffixes sufsort) (T : List UInt8) (h0 : T ≠ []) (hT : ∀ x ∈ T, x ≠ 0)
    (hlen : T.length < 2147483647) (k : Nat) (hk : 0 < k) :
    ∃ y, kthOrderEntropyF A sufsort (T ++ [0]) k = .ok y ∧ 0 ≤ y ∧
      |y - kthOrder (T ++ [0]) k| ≤ 1 / 2 ^ 17 := by
  have hl : (T.length : ℝ) ≤ 2147483647 := by exact_mod_cast hlen.le
  obtain ⟨y, h1, h2, h3⟩ := C98_kth_order A _ _ h.accurate sufsort hsort T h0 hT hlen k hk
    (by norm_num; linarith)
  refine ⟨y, h1, h2, h3.trans ?_⟩
  have e1 := kthOrder_le_eight (T ++ [0]) k
  have e2 := kthOrder_nonneg (T ++ [0]) k
  have e3 := tiny_small
  have e4 : 2 * (((T.length : ℝ) + 262) * (1 / 2 ^ 53) + 1 / 2 ^ 52) * kthOrder (T ++ [0]) k ≤
      2 * ((2147483647 + 262) * (1 / 2 ^ 53) + 1 / 2 ^ 52) * 8 := by
    apply mul_le_mul _ e1 e2 (by positivity)
    norm_num
    linarith
  norm_num at *
  linarith

/-- With `f64`: the printed entropy by counting `k`-mers is within `2^-14` of the exact value. -/
theorem C98_kmer_f64 (A : Arith) (h : Binary64 A) (ord ord' : List (Nat × Nat) → List (Nat × Nat))
    (ho : ∀ m, (ord m).Perm m) (ho' : ∀ m, (ord' m).Perm m) (T : List UInt8) (hT : ∀ x ∈ T, x ≠ 0)
    (hlen : T.length < 2147483647) (k : Nat) (hk : 1 ≤ k) (hk7 : k ≤ 7) (hkl : k ≤ T.length + 1) :
    ∃ y, entropyViaKmerCountingF A ord ord' (T ++ [0]) k = .ok (y, T.length + 1) ∧
      |y - kthOrder (T ++ [0]) k| ≤ 1 / 2 ^ 14 := by
  have hl : (T.length : ℝ) ≤ 2147483647 := by exact_mod_cast hlen.le
  have hl0 : (0 : ℝ) ≤ T.length := Nat.cast_nonneg _
  obtain ⟨y, h1, h3⟩ := C98_kmer A _ _ h.accurate ord ord' ho ho' T hT (by omega) k hk hk7 hkl
    (by norm_num; linarith)
  refine ⟨y, h1, h3.trans ?_⟩
  have e1 := kthOrder_le_eight (T ++ [0]) k
  have e3 := tiny_small
  have e5 : Real.logb 2 ((T.length : ℝ) + 1) ≤ 31 := by
    rw [Real.logb_le_iff_le_rpow (by norm_num) (by linarith)]
    norm_num
    linarith
  have e2 : 0 ≤ Real.logb 2 ((T.length : ℝ) + 1) := Real.logb_nonneg (by norm_num) (by linarith)
  have e4 : 8 * (((T.length : ℝ) + 2) * (1 / 2 ^ 53) + 1 / 2 ^ 52) * Real.logb 2 ((T.length : ℝ) + 1) ≤
      8 * ((2147483647 + 2) * (1 / 2 ^ 53) + 1 / 2 ^ 52) * 31 := by
    apply mul_le_mul _ e5 e2 (by positivity)
    norm_num
    linarith
  norm_num at *
  linarith

/-- With `f64`: the two tools print the same entropy up to `2^-13`. -/
theorem C98_tools_agree_f64 (A : Arith) (h : Binary64 A) (sufsort : List UInt8 → List Nat)
    (hsort : SortsSuffixes sufsort) (ord ord' : List (Nat × Nat) → List (Nat × Nat))
    (ho : ∀ m, (ord m).Perm m) (ho' : ∀ m, (ord' m).Perm m) (T : List UInt8) (h0 : T ≠ []) (hT : ∀ x ∈ T, x ≠ 0)
    (hlen : T.length < 2147483647) (k : Nat) (hk : 1 ≤ k) (hk7 : k ≤ 7) (hkl : k ≤ T.length + 1) :
    ∃ y z, kthOrderEntropyF A sufsort (T ++ [0]) k = .ok y ∧
      entropyViaKmerCountingF A ord ord' (T ++ [0]) k = .ok (z, T.length + 1) ∧ |y - z| ≤ 1 / 2 ^ 13 := by
  obtain ⟨y, y1, -, y2⟩ := C98_kth_order_f64 A h sufsort hsort T h0 hT hlen k hk
  obtain ⟨z, z1, z2⟩ := C98_kmer_f64 A h ord ord' ho ho' T hT hlen k hk hk7 hkl
  refine ⟨y, z, y1, z1, ?_⟩
  rw [abs_le] at *
  norm_num at *
  constructor <;> linarith

/-- With `f64`: a text with one letter only has entropy exactly 0. -/
theorem C98_unary_f64 (A : Arith) (h : Binary64 A) (c : UInt8) (n : Nat) (hn : 0 < n) (hlen : n ≤ 9007199254740992) :
    zeroOrderEntropyF A (List.replicate n c) = .ok 0 := by
  have hA := h.accurate
  have h0 := hA.fl_zero
  have h1 : A.fl 1 = 1 := by have := hA.fl_nat 1 (by norm_num); simpa using this
  have hlg : A.lg 1 = 0 := by
    have := hA.lg_err 1 (huge_of_le (by norm_num) (by norm_num)) (by rw [h1])
    rw [h1, Real.logb_one, mul_zero, sub_zero] at this
    exact abs_nonpos_iff.1 this
  have hterm : letterTermF A n n = 0 := by
    unfold letterTermF
    have : (n : ℝ) ≠ 0 := by exact_mod_cast hn.ne'
    rw [hA.fl_nat n hlen, div_self this, h1, hlg, mul_zero, h0]
  simp only [zeroOrderEntropyF]
  rw [charCounters_ok, ok_bind]
  dsimp only
  rw [List.length_replicate, if_neg (by omega)]
  obtain ⟨s, e1, e2⟩ := forEach_inv (fun _ (s : ℝ) => s = 0)
    (l := (List.range 256).map (fun i => (List.replicate n c).count (UInt8.ofNat i))) (s := 0)
    (body := fun count sum => if count > 0 then (pure (A.fl (sum + letterTermF A n count)) : Res ℝ) else pure sum)
    rfl (by
      intro pre x post s hl hs
      subst hs
      by_cases hx : x > 0
      · rw [if_pos hx]
        have hx' : x = n := by
          have hmem : x ∈ (List.range 256).map (fun i => (List.replicate n c).count (UInt8.ofNat i)) := by
            rw [hl]; simp
          rw [List.mem_map] at hmem
          obtain ⟨i, -, rfl⟩ := hmem
          rw [List.count_replicate] at hx ⊢
          split
          · rfl
          · rename_i hne; rw [if_neg hne] at hx; omega
        subst hx'
        exact ⟨_, rfl, by rw [hterm, add_zero, h0]⟩
      · rw [if_neg hx]; exact ⟨_, rfl, rfl⟩)
  rw [e1, ok_bind, pure_ok, e2, zero_div, h0]

/-! Double precision arithmetic exists: there are finitely many doubles, so every number has a nearest one. -/

private theorem doubles_finite : {f : ℝ | IsDouble f}.Finite := by
  have hf : (Set.Icc (-(2 : ℤ) ^ 53) (2 ^ 53) ×ˢ Set.Icc (-1074 : ℤ) 971).Finite :=
    (Set.finite_Icc _ _).prod (Set.finite_Icc _ _)
  apply (hf.image (fun p : ℤ × ℤ => (p.1 : ℝ) * (2 : ℝ) ^ p.2)).subset
  rintro f ⟨m, e, h1, h2, h3, rfl⟩
  rw [abs_lt] at h1
  exact ⟨(m, e), ⟨⟨h1.1.le, h1.2.le⟩, h2, h3⟩, rfl⟩

theorem binary64_exists : ∃ A, Binary64 A := by
  have key : ∀ x : ℝ, ∃ f, IsDouble f ∧ ∀ g, IsDouble g → |f - x| ≤ |g - x| := by
    intro x
    have h0 : IsDouble 0 := ⟨0, 0, by norm_num, by omega, by omega, by simp⟩
    obtain ⟨f, h1, h2⟩ := Set.exists_min_image {f : ℝ | IsDouble f} (fun f => |f - x|) doubles_finite ⟨0, h0⟩
    exact ⟨f, h1, h2⟩
  choose fl h1 h2 using key
  refine ⟨⟨fl, Real.logb 2⟩, ⟨fun x _ => ⟨h1 x, h2 x⟩, ?_⟩⟩
  intro x _ hx
  dsimp only
  rw [sub_self, abs_zero]
  exact mul_nonneg (by positivity) (Real.logb_nonneg (by norm_num) hx)

/-- The hypotheses on the text are met by a text with contexts of several letters. -/
example : ((97 : UInt8) :: [98, 97, 97, 98]) ≠ [] ∧ (∀ x ∈ ((97 : UInt8) :: [98, 97, 97, 98]), x ≠ 0) ∧
    ((97 : UInt8) :: [98, 97, 97, 98]).length < 2147483647 := by decide

/-- The entropy of this text is not zero, so the bounds are not only about exact results. -/
example : 0 < zeroOrder ((97 : UInt8) :: [98, 97, 97, 98]) := by
  rcases (zeroOrder_nonneg ((97 : UInt8) :: [98, 97, 97, 98])).lt_or_eq with h | h
  · exact h
  · have := (zeroOrder_eq_zero_iff _).1 h.symm
    simp at this

/-! Instances: the hypotheses of all statements about rounding are met by double precision arithmetic (rounding to a nearest
double) and the text `abaab`. -/

example := C98_binary64 _ binary64_exists.choose_spec

example := C98_zero_order _ _ _ (C98_binary64 _ binary64_exists.choose_spec) [97, 98, 97, 97, 98] (by decide) (by decide)

example := C98_kth_order _ _ _ (C98_binary64 _ binary64_exists.choose_spec) naiveSufsort naiveSufsort_sorts [97, 98, 97, 97, 98]
  (by decide) (by decide) (by decide) 2 (by decide) (by norm_num)

example := C98_kmer _ _ _ (C98_binary64 _ binary64_exists.choose_spec) id List.reverse (fun _ => .refl _) List.reverse_perm
  [97, 98, 97, 97, 98] (by decide) (by decide) 2 (by decide) (by decide) (by decide) (by norm_num)

example := C98_zero_order_f64 _ binary64_exists.choose_spec [97, 98, 97, 97, 98] (by decide) (by decide)

example := C98_kth_order_f64 _ binary64_exists.choose_spec naiveSufsort naiveSufsort_sorts [97, 98, 97, 97, 98] (by decide) (by decide)
  (by decide) 2 (by decide)

example := C98_kmer_f64 _ binary64_exists.choose_spec id List.reverse (fun _ => .refl _) List.reverse_perm [97, 98, 97, 97, 98]
  (by decide) (by decide) 2 (by decide) (by decide) (by decide)

example := C98_tools_agree_f64 _ binary64_exists.choose_spec naiveSufsort naiveSufsort_sorts id List.reverse (fun _ => .refl _)
  List.reverse_perm [97, 98, 97, 97, 98] (by decide) (by decide) (by decide) 2 (by decide) (by decide) (by decide)

example := C98_unary_f64 _ binary64_exists.choose_spec 97 1000 (by decide) (by decide)

end Verif.Props
