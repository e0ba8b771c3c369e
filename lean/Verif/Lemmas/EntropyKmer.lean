import Verif.Lemmas.Entropy

/-! # Counting k-mers -/

namespace Verif

open Spec Model

/-! ## The map of counters -/

theorem incMap_keys (m : List (Nat × Nat)) (key : Nat) :
    (incMap m key).map Prod.fst = if key ∈ m.map Prod.fst then m.map Prod.fst else m.map Prod.fst ++ [key] := by
  induction m with
  | nil => simp [incMap]
  | cons p m ih =>
    obtain ⟨a, c⟩ := p
    simp only [incMap]
    by_cases h : a = key
    · simp [h]
    · rw [if_neg h, List.map_cons, ih]
      have : key ≠ a := Ne.symm h
      simp only [List.map_cons, List.mem_cons, this, false_or]
      split <;> simp

theorem incMap_mem {m : List (Nat × Nat)} (hn : (m.map Prod.fst).Nodup) (key a c : Nat) :
    (a, c) ∈ incMap m key ↔ (a ≠ key ∧ (a, c) ∈ m) ∨
      (a = key ∧ ((∃ c', (key, c') ∈ m ∧ c = c' + 1) ∨ ((∀ c', (key, c') ∉ m) ∧ c = 1))) := by
  induction m with
  | nil => simp [incMap]
  | cons p m ih =>
    obtain ⟨b, d⟩ := p
    simp only [incMap]
    rw [List.map_cons, List.nodup_cons] at hn
    have hb : ∀ c', (b, c') ∉ m := fun c' h => hn.1 (List.mem_map.2 ⟨_, h, rfl⟩)
    by_cases h : b = key
    · subst h
      simp only [if_true, List.mem_cons, Prod.mk.injEq]
      by_cases ha : a = b
      · subst ha; simp [hb]
      · simp [ha]
    · simp only [if_neg h, List.mem_cons, Prod.mk.injEq]
      rw [ih hn.2]
      have hk : key ≠ b := Ne.symm h
      by_cases ha : a = key
      · subst ha; simp [hk]
      · simp [ha]

theorem incMap_fold (ks : List Nat) :
    ((ks.foldl incMap []).map Prod.fst).Nodup ∧
      ∀ a c, (a, c) ∈ ks.foldl incMap [] ↔ a ∈ ks ∧ c = ks.count a := by
  induction ks using List.reverseRecOn with
  | nil => simp
  | append_singleton ks k ih =>
    obtain ⟨ih1, ih2⟩ := ih
    rw [List.foldl_append, List.foldl_cons, List.foldl_nil]
    constructor
    · rw [incMap_keys]
      split
      · exact ih1
      · rename_i h
        exact List.nodup_append.2 ⟨ih1, by simp, fun x hx y hy => by
          rw [List.mem_singleton.1 hy]; rintro rfl; exact h hx⟩
    · intro a c
      rw [incMap_mem ih1]
      simp only [ih2, List.count_append, List.mem_append, List.mem_singleton]
      by_cases ha : a = k
      · subst ha
        by_cases hm : a ∈ ks
        · simp [hm]
        · simp [hm, List.count_eq_zero.2 hm]
      · simp [ha, Ne.symm ha]

theorem incMap_sum (ks : List Nat) (f : Nat → ℝ) :
    ((ks.foldl incMap []).map (fun p => f p.2)).sum = ∑ a ∈ ks.toFinset, f (ks.count a) := by
  obtain ⟨h1, h2⟩ := incMap_fold ks
  have hmap : (ks.foldl incMap []).map (fun p => f p.2) =
      ((ks.foldl incMap []).map Prod.fst).map (fun a => f (ks.count a)) := by
    rw [List.map_map]
    apply List.map_congr_left
    rintro ⟨a, c⟩ h
    rw [((h2 a c).1 h).2]; rfl
  rw [hmap, ← List.sum_toFinset _ h1]
  congr 1
  ext a
  simp only [List.mem_toFinset, List.mem_map, Prod.exists, exists_and_right, exists_eq_right]
  constructor
  · rintro ⟨c, hc⟩; exact ((h2 a c).1 hc).1
  · intro h; exact ⟨_, (h2 a _).2 ⟨h, rfl⟩⟩

/-! ## The encoding of k-mers -/

/-- base-256 value, most significant letter first -/
def enc (u : List UInt8) : Nat := u.foldl (fun a b => a * 256 + b.toNat) 0

theorem enc_append_single (u : List UInt8) (b : UInt8) : enc (u ++ [b]) = enc u * 256 + b.toNat := by
  simp [enc, List.foldl_append]

theorem enc_append (u v : List UInt8) : enc (u ++ v) = enc u * 256 ^ v.length + enc v := by
  induction v using List.reverseRecOn with
  | nil => simp [enc]
  | append_singleton v b ih =>
    rw [← List.append_assoc, enc_append_single, ih, enc_append_single, List.length_append,
      List.length_singleton, pow_succ]
    ring

theorem enc_lt (u : List UInt8) : enc u < 256 ^ u.length := by
  induction u using List.reverseRecOn with
  | nil => simp [enc]
  | append_singleton v b ih =>
    rw [enc_append_single, List.length_append, List.length_singleton, pow_succ]
    have := b.toNat_lt
    have hb : b.toNat < 256 := this
    omega

theorem enc_inj {u v : List UInt8} (hl : u.length = v.length) (h : enc u = enc v) : u = v := by
  induction u using List.reverseRecOn generalizing v with
  | nil => exact (List.length_eq_zero_iff.1 hl.symm).symm
  | append_singleton u a ih =>
    rcases List.eq_nil_or_concat' v with rfl | ⟨v, b, rfl⟩
    · simp at hl
    · rw [enc_append_single, enc_append_single] at h
      have ha : a.toNat < 256 := a.toNat_lt
      have hb : b.toNat < 256 := b.toNat_lt
      have h1 : enc u = enc v := by omega
      have h2 : a = b := UInt8.toNat.inj (by omega)
      rw [ih (by simpa using hl) h1, h2]

/-- the window of length `k` at `i` -/
def win (S : List UInt8) (k i : Nat) : List UInt8 := (S.drop i).take k

theorem foldl_pushByte (u : List UInt8) (r : Nat) (v : List UInt8) (hr : r = enc v % 256 ^ 8) :
    u.foldl pushByte r = enc (v ++ u) % 256 ^ 8 := by
  induction u generalizing r v with
  | nil => simpa using hr
  | cons b u ih =>
    rw [List.foldl_cons, ih (pushByte r b) (v ++ [b]), List.append_assoc, List.singleton_append]
    rw [enc_append_single, pushByte, hr]
    have hb : b.toNat < 256 := b.toNat_lt
    norm_num
    omega

theorem lastBytes_enc {P : List UInt8} {m : Nat} (hm : m ≤ 8) (hP : m ≤ P.length) :
    lastBytes m (enc P % 256 ^ 8) = enc (P.drop (P.length - m)) := by
  rw [lastBytes, Nat.mod_mod_of_dvd _ (pow_dvd_pow 256 hm)]
  have e : P = P.take (P.length - m) ++ P.drop (P.length - m) := (List.take_append_drop _ _).symm
  have hl : (P.drop (P.length - m)).length = m := by rw [List.length_drop]; omega
  have hlt := enc_lt (P.drop (P.length - m))
  conv_lhs => rw [e, enc_append, hl]
  rw [hl] at hlt
  rw [Nat.mul_add_mod', Nat.mod_eq_of_lt hlt]


theorem drop_take_sub {S : List UInt8} {i m : Nat} (h1 : m ≤ i) (h2 : i ≤ S.length) :
    (S.take i).drop ((S.take i).length - m) = win S m (i - m) := by
  rw [List.length_take, Nat.min_eq_left h2, win, List.drop_take]
  congr 1; omega

theorem kmerCounts_ok {S : List UInt8} {k : Nat} (h1 : 1 ≤ k) (h7 : k ≤ 7) (hS : k ≤ S.length) :
    ∃ r, kmerCounts S k = .ok
      ⟨((List.range (S.length - k + 1)).map (fun i => enc (win S k i))).foldl incMap [],
       ((List.range (S.length - k)).map (fun i => enc (win S (k + 1) i))).foldl incMap [],
       r, S.length⟩ := by
  have hloop : ∀ j, j ≤ S.length - k →
      ((S.drop k).take j).foldl (fun s b => kmerStep k b s)
        ⟨[], [], (S.take k).foldl pushByte 0, k⟩ =
      ⟨((List.range j).map (fun i => enc (win S k i))).foldl incMap [],
       ((List.range j).map (fun i => enc (win S (k + 1) i))).foldl incMap [],
       enc (S.take (k + j)) % 256 ^ 8, k + j⟩ := by
    intro j hj
    induction j with
    | zero =>
      rw [foldl_pushByte _ 0 [] (by simp [enc])]
      simp
    | succ j ih =>
      have hlt : j < (S.drop k).length := by rw [List.length_drop]; omega
      have hlt' : k + j < S.length := by omega
      rw [List.take_succ_eq_append_getElem hlt, List.foldl_append, ih (by omega), List.foldl_cons,
        List.foldl_nil, List.range_succ, List.map_append, List.map_append, List.foldl_append,
        List.foldl_append]
      simp only [kmerStep, List.map_cons, List.map_nil, List.foldl_cons, List.foldl_nil]
      have e1 : lastBytes k (enc (S.take (k + j)) % 256 ^ 8) = enc (win S k j) := by
        rw [lastBytes_enc (by omega) (by rw [List.length_take]; omega),
          drop_take_sub (by omega) (by omega), Nat.add_sub_cancel_left]
      have e2 : pushByte (enc (S.take (k + j)) % 256 ^ 8) ((S.drop k)[j]) =
          enc (S.take (k + (j + 1))) % 256 ^ 8 := by
        have := foldl_pushByte [(S.drop k)[j]] _ (S.take (k + j)) rfl
        rw [List.foldl_cons, List.foldl_nil] at this
        rw [this, ← Nat.add_assoc, List.take_succ_eq_append_getElem hlt', List.getElem_drop]
      have e3 : lastBytes (k + 1) (enc (S.take (k + (j + 1))) % 256 ^ 8) = enc (win S (k + 1) j) := by
        rw [lastBytes_enc (by omega) (by rw [List.length_take]; omega),
          drop_take_sub (by omega) (by omega), show k + (j + 1) - (k + 1) = j by omega]
      rw [e2, e1, e3]
      rfl
  simp only [kmerCounts]
  rw [if_neg (by omega), if_neg (by omega)]
  have := hloop (S.length - k) (le_refl _)
  rw [List.take_of_length_le (l := S.drop k) (by rw [List.length_drop])] at this
  rw [this, pure_ok]
  refine ⟨enc (S.take (k + (S.length - k))) % 256 ^ 8, ?_⟩
  congr 1
  dsimp only
  rw [List.range_succ, List.map_append, List.foldl_append, show k + (S.length - k) = S.length by omega]
  simp only [List.map_cons, List.map_nil, List.foldl_cons, List.foldl_nil]
  rw [lastBytes_enc (by omega) (by rw [List.length_take]; omega), drop_take_sub (by omega) (by omega)]

/-! ## The sums -/

/-- `x log₂ x` -/
noncomputable def xlog (c : Nat) : ℝ := (c : ℝ) * Real.logb 2 c

theorem sum_map_inj {ws : List (List UInt8)} (f : Nat → ℝ) {m : Nat} (h : ∀ w ∈ ws, w.length = m) :
    ∑ a ∈ (ws.map enc).toFinset, f ((ws.map enc).count a) = ∑ w ∈ ws.toFinset, f (ws.count w) := by
  have himg : (ws.map enc).toFinset = ws.toFinset.image enc := by
    ext a; simp
  have hinj : ∀ u ∈ ws, ∀ v ∈ ws, enc u = enc v → u = v := fun u hu v hv e =>
    enc_inj ((h u hu).trans (h v hv).symm) e
  rw [himg, Finset.sum_image (fun u hu v hv e => hinj u (by simpa using hu) v (by simpa using hv) e)]
  apply Finset.sum_congr rfl
  intro w hw
  have hw' : w ∈ ws := by simpa using hw
  congr 1
  rw [List.count_eq_countP, List.countP_map, List.count_eq_countP]
  apply List.countP_congr
  intro u hu
  simp only [Function.comp, beq_iff_eq]
  exact ⟨fun e => hinj u hu w hw' e, fun e => by rw [e]⟩

theorem ctxVal_eq (S w : List UInt8) : ctxVal S w = xlog (followers S w).length -
    ∑ c ∈ (followers S w).toFinset, xlog ((followers S w).count c) := by
  simp only [ctxVal, zeroOrder, xlog]
  generalize followers S w = s
  by_cases h0 : s = []
  · subst h0; simp
  · have hl : (0 : ℝ) < s.length := by exact_mod_cast List.length_pos_iff.2 h0
    rw [Finset.mul_sum]
    have hs : (s.length : ℝ) = ∑ c ∈ s.toFinset, (s.count c : ℝ) := by
      exact_mod_cast (List.sum_toFinset_count_eq_length s).symm
    have : (s.length : ℝ) * Real.logb 2 s.length =
        ∑ c ∈ s.toFinset, (s.count c : ℝ) * Real.logb 2 s.length := by
      rw [← Finset.sum_mul, ← hs]
    rw [this, ← Finset.sum_sub_distrib]
    apply Finset.sum_congr rfl
    intro c hc
    have hc' : (0 : ℝ) < s.count c := by
      exact_mod_cast List.count_pos_iff.2 (List.mem_toFinset.1 hc)
    rw [Real.logb_div hl.ne' hc'.ne']
    field_simp

theorem followers_length (S w : List UInt8) :
    (followers S w).length = ((List.range (S.length - w.length)).map (win S w.length)).count w := by
  rw [followers, List.length_map, followedAt, List.count_eq_countP, List.countP_map,
    List.countP_eq_length_filter]
  congr 1
  apply List.filter_congr
  intro i _
  rw [Bool.eq_iff_iff]
  simp [win]

theorem win_succ {S : List UInt8} {k i : Nat} (h : i + k < S.length) :
    win S (k + 1) i = win S k i ++ [S.getD (i + k) 0] := by
  rw [win, List.take_succ_eq_append_getElem (by rw [List.length_drop]; omega), List.getElem_drop]
  simp [win, h]

theorem followers_count {S w : List UInt8} {c : UInt8} :
    (followers S w).count c =
      ((List.range (S.length - w.length)).map (win S (w.length + 1))).count (w ++ [c]) := by
  rw [followers, followedAt, List.count_eq_countP, List.countP_map, List.countP_filter,
    List.count_eq_countP, List.countP_map]
  apply List.countP_congr
  intro i hi
  rw [List.mem_range] at hi
  simp only [Function.comp, Bool.and_eq_true, beq_iff_eq, decide_eq_true_eq]
  rw [win_succ (by omega)]
  constructor
  · rintro ⟨h1, h2⟩; rw [win, h2, h1]
  · intro h
    obtain ⟨h1, h2⟩ := List.append_inj' h rfl
    exact ⟨by simpa using h2, h1⟩

theorem kplus_sum (S : List UInt8) (k : Nat) :
    ∑ v ∈ ((List.range (S.length - k)).map (win S (k + 1))).toFinset,
        xlog (((List.range (S.length - k)).map (win S (k + 1))).count v) =
      ∑ w ∈ contexts S k, ∑ c ∈ (followers S w).toFinset, xlog ((followers S w).count c) := by
  have hcl : ∀ w ∈ contexts S k, w.length = k := by
    intro w hw
    simp only [contexts, List.mem_toFinset, List.mem_map, List.mem_range] at hw
    obtain ⟨i, hi, rfl⟩ := hw
    rw [List.length_take, List.length_drop]; omega
  rw [Finset.sum_sigma']
  symm
  apply Finset.sum_bij (fun (p : (_ : List UInt8) × UInt8) _ => p.1 ++ [p.2])
  · rintro ⟨w, c⟩ h
    rw [Finset.mem_sigma] at h
    obtain ⟨h1, h2⟩ := h
    dsimp only at h1 h2 ⊢
    rw [List.mem_toFinset] at h2 ⊢
    have := List.count_pos_iff.2 h2
    rw [followers_count, hcl w h1] at this
    exact List.count_pos_iff.1 this
  · rintro ⟨w, c⟩ _ ⟨w', c'⟩ _ h
    dsimp only at h
    obtain ⟨h1, h2⟩ := List.append_inj' h rfl
    subst h1
    rw [List.cons.injEq] at h2
    rw [h2.1]
  · intro v hv
    rw [List.mem_toFinset] at hv
    have hv' := hv
    rw [List.mem_map] at hv
    obtain ⟨i, hi, rfl⟩ := hv
    rw [List.mem_range] at hi
    have hmem : win S k i ∈ contexts S k := by
      rw [contexts, List.mem_toFinset, List.mem_map]
      exact ⟨i, List.mem_range.2 hi, rfl⟩
    rw [win_succ (by omega)] at hv' ⊢
    refine ⟨⟨win S k i, S.getD (i + k) 0⟩, ?_, rfl⟩
    rw [Finset.mem_sigma]
    refine ⟨hmem, ?_⟩
    dsimp only
    rw [List.mem_toFinset, ← List.count_pos_iff, followers_count, hcl _ hmem]
    exact List.count_pos_iff.2 hv'
  · rintro ⟨w, c⟩ h
    rw [Finset.mem_sigma] at h
    dsimp only
    rw [followers_count, hcl w h.1]

theorem k_sum {T : List UInt8} (hT : ∀ x ∈ T, x ≠ 0) {k : Nat} (hk : 0 < k) (hkl : k ≤ T.length + 1) :
    ∑ v ∈ ((List.range ((T ++ [0]).length - k + 1)).map (win (T ++ [0]) k)).toFinset,
        xlog (((List.range ((T ++ [0]).length - k + 1)).map (win (T ++ [0]) k)).count v) =
      ∑ w ∈ contexts (T ++ [0]) k, xlog (followers (T ++ [0]) w).length := by
  have hl1 : (T ++ [(0 : UInt8)]).length = T.length + 1 := by simp
  have hcl : ∀ w ∈ contexts (T ++ [0]) k, w.length = k := by
    intro w hw
    simp only [contexts, List.mem_toFinset, List.mem_map, List.mem_range] at hw
    obtain ⟨i, hi, rfl⟩ := hw
    rw [List.length_take, List.length_drop]; omega
  set n := (T ++ [(0 : UInt8)]).length with hn
  set ws := (List.range (n - k)).map (win (T ++ [0]) k) with hws
  have hlast : win (T ++ [0]) k (n - k) ∉ ws := by
    intro hmem
    rw [hws, List.mem_map] at hmem
    obtain ⟨i, hi, he⟩ := hmem
    rw [List.mem_range] at hi
    have h1 : (win (T ++ [0]) k i)[k - 1]? = (win (T ++ [0]) k (n - k))[k - 1]? := by rw [he]
    simp only [win] at h1
    rw [List.getElem?_take, if_pos (by omega), List.getElem?_take, if_pos (by omega),
      List.getElem?_drop, List.getElem?_drop, show n - k + (k - 1) = T.length by omega,
      List.getElem?_append_right (le_refl _), List.getElem?_append_left (by omega)] at h1
    simp only [Nat.sub_self, List.getElem?_cons_zero] at h1
    exact hT 0 (List.mem_of_getElem? h1) rfl
  rw [List.range_succ, List.map_append, List.map_cons, List.map_nil, ← hws]
  have hf : (ws ++ [win (T ++ [0]) k (n - k)]).toFinset =
      insert (win (T ++ [0]) k (n - k)) ws.toFinset := by
    ext v; simp [or_comm]
  rw [hf, Finset.sum_insert (by simpa using hlast)]
  have h0 : xlog ((ws ++ [win (T ++ [0]) k (n - k)]).count (win (T ++ [0]) k (n - k))) = 0 := by
    rw [List.count_append, List.count_eq_zero.2 hlast]; simp [xlog]
  rw [h0, zero_add]
  apply Finset.sum_congr rfl
  intro w hw
  have hwm : w ∈ ws := by simpa using hw
  have hwl : w.length = k := hcl w (by rw [contexts]; exact hw)
  rw [followers_length, hwl, ← hn, ← hws, List.count_append, List.count_singleton]
  have : win (T ++ [0]) k (n - k) ≠ w := by rintro rfl; exact hlast hwm
  simp [this]

theorem entropyViaKmerCounting_ok {T : List UInt8} (hT : ∀ x ∈ T, x ≠ 0) {k : Nat} (hk : 1 ≤ k)
    (hk7 : k ≤ 7) (hkl : k ≤ T.length + 1) :
    entropyViaKmerCounting (T ++ [0]) k = .ok (kthOrder (T ++ [0]) k, T.length + 1) := by
  have hl1 : (T ++ [(0 : UInt8)]).length = T.length + 1 := by simp
  obtain ⟨r, hr⟩ := kmerCounts_ok (S := T ++ [0]) hk hk7 (by omega)
  simp only [entropyViaKmerCounting]
  rw [hr, ok_bind]
  dsimp only
  rw [forEach_sum, ok_bind, forEach_sum, ok_bind, pure_ok, zero_add, zero_add]
  congr 2
  · have e1 := incMap_sum ((List.range ((T ++ [0]).length - k + 1)).map (fun i => enc (win (T ++ [0]) k i))) xlog
    have e2 := incMap_sum ((List.range ((T ++ [0]).length - k)).map (fun i => enc (win (T ++ [0]) (k + 1) i))) xlog
    simp only [xlog] at e1 e2
    rw [e1, e2]
    have c1 : (List.range ((T ++ [(0 : UInt8)]).length - k + 1)).map (fun i => enc (win (T ++ [0]) k i)) =
      ((List.range ((T ++ [(0 : UInt8)]).length - k + 1)).map (win (T ++ [0]) k)).map enc := by
      rw [List.map_map]; rfl
    have c2 : (List.range ((T ++ [(0 : UInt8)]).length - k)).map (fun i => enc (win (T ++ [0]) (k + 1) i)) =
      ((List.range ((T ++ [(0 : UInt8)]).length - k)).map (win (T ++ [0]) (k + 1))).map enc := by
      rw [List.map_map]; rfl
    rw [c1, c2]
    have d1 := sum_map_inj (ws := (List.range ((T ++ [(0 : UInt8)]).length - k + 1)).map (win (T ++ [0]) k))
      xlog (m := k) (by
        intro w hw
        rw [List.mem_map] at hw
        obtain ⟨i, hi, rfl⟩ := hw
        rw [List.mem_range] at hi
        rw [win, List.length_take, List.length_drop]; omega)
    have d2 := sum_map_inj (ws := (List.range ((T ++ [(0 : UInt8)]).length - k)).map (win (T ++ [0]) (k + 1)))
      xlog (m := k + 1) (by
        intro w hw
        rw [List.mem_map] at hw
        obtain ⟨i, hi, rfl⟩ := hw
        rw [List.mem_range] at hi
        rw [win, List.length_take, List.length_drop]; omega)
    have d3 := k_sum hT (k := k) hk (by omega)
    have d4 := kplus_sum (T ++ [0]) k
    have d5 : kthOrder (T ++ [0]) k =
      (∑ w ∈ contexts (T ++ [0]) k, ctxVal (T ++ [0]) w) / (T ++ [(0 : UInt8)]).length := rfl
    simp only [ctxVal_eq] at d5
    rw [Finset.sum_sub_distrib] at d5
    rw [d3] at d1
    rw [d4] at d2
    rw [d5, ← d1, ← d2]
    rfl

end Verif
