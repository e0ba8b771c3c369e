import Verif.Lemmas.MaxCount
import Verif.Lemmas.Guard

/-! # More words than an `i32` can count -/

namespace Verif.Max

open Verif Spec Model Par

theorem zeros_lyndon {m : Nat} {w : List Nat} (hm : ∀ j < m, w[j]? = some 0) (hn : 0 < w.length)
    (hb : ∀ c ∈ w, c < 2) (hlast : w[w.length - 1]? = some 1)
    (hone : ∀ p, 0 < p → p + m ≤ w.length → ∃ j < m, w[p + j]? = some 1) :
    IsLyndon w := by
  have hpre : w = List.replicate m 0 ++ w.drop m := by
    have : w.take m = List.replicate m 0 := by
      apply List.ext_getElem?
      intro j
      rw [List.getElem?_take, List.getElem?_replicate]
      split
      · rename_i h; exact hm j h
      · rfl
    rw [← this, List.take_append_drop]
  refine ⟨List.length_pos_iff.1 hn, fun u s hu hs h => ?_⟩
  have hul := List.length_pos_iff.2 hu
  have hsl := List.length_pos_iff.2 hs
  have hsum : u.length + s.length = w.length := by rw [h, List.length_append]
  have hsuf : s = w.drop u.length := by rw [h]; simp
  have hget : ∀ j, s[j]? = w[u.length + j]? := fun j => by rw [hsuf, List.getElem?_drop]
  have hmem : 1 ∈ s := by
    have : s[w.length - 1 - u.length]? = some 1 := by
      rw [hget, show u.length + (w.length - 1 - u.length) = w.length - 1 by omega]; exact hlast
    exact List.mem_of_getElem? this
  have hsb : ∀ c ∈ s, c < 2 := fun c hc => hb c (by rw [h]; simp [hc])
  have hno : ¬ List.replicate m 0 <+: s := by
    rintro ⟨r, hr⟩
    have hms : m ≤ s.length := by rw [← hr]; simp
    obtain ⟨j, hj, h1⟩ := hone u.length hul (by omega)
    have : s[j]? = some 0 := by
      rw [← hr, List.getElem?_append_left (by simpa using hj), List.getElem?_replicate, if_pos hj]
    rw [hget, h1] at this
    simp at this
  have := zeros_lt m (w.drop m) s hsb hmem hno
  rwa [← hpre] at this

/-- `m` zeros, then a one at every `m`-th position and at the end, and free letters between them. -/
def padBit (m : Nat) (v : List Nat) (i : Nat) : Nat :=
  if i < m then 0 else if i % m = 0 ∨ i = 39 then 1 else v.getD (i - m - i / m) 0

def pad (m : Nat) (v : List Nat) : List Nat := (List.range 40).map (padBit m v)

theorem pad_length (m : Nat) (v : List Nat) : (pad m v).length = 40 := by simp [pad]

theorem pad_get {m i : Nat} (v : List Nat) (h : i < 40) : (pad m v)[i]? = some (padBit m v i) := by
  simp [pad, List.getElem?_map, List.getElem?_range h]

theorem pad_bin {m : Nat} {v : List Nat} (hb : ∀ c ∈ v, c < 2) : ∀ c ∈ pad m v, c < 2 := by
  intro c hc
  simp only [pad, List.mem_map] at hc
  obtain ⟨i, _, rfl⟩ := hc
  unfold padBit
  split
  · omega
  · split
    · omega
    · rw [List.getD_eq_getElem?_getD]
      cases hv : v[i - m - i / m]? with
      | none => simp
      | some x => exact hb x (List.mem_of_getElem? hv)

theorem pad_lyndon {m : Nat} (h1 : 0 < m) (h2 : m < 39) {v : List Nat} (hb : ∀ c ∈ v, c < 2) :
    IsLyndon (pad m v) := by
  refine zeros_lyndon (m := m) (fun j hj => ?_) (by simp [pad_length]) (pad_bin hb) ?_ ?_
  · rw [pad_get v (by omega), padBit, if_pos hj]
  · rw [pad_length, pad_get v (by omega), padBit, if_neg (by omega), if_pos (by simp)]
  · intro p hp hpl
    rw [pad_length] at hpl
    -- the next multiple of `m`
    refine ⟨(m - p % m) % m, Nat.mod_lt _ h1, ?_⟩
    have hlt := Nat.mod_lt (m - p % m) h1
    rw [pad_get v (by omega), padBit]
    have hmod : (p + (m - p % m) % m) % m = 0 := by
      have := Nat.mod_lt p h1
      rw [Nat.add_mod, Nat.mod_mod]
      by_cases hz : p % m = 0
      · rw [hz]; simp
      · rw [Nat.mod_eq_of_lt (show m - p % m < m by omega), show p % m + (m - p % m) = m by omega,
          Nat.mod_self]
    have hge : ¬ (p + (m - p % m) % m < m) := by
      intro hlt'
      rw [Nat.mod_eq_of_lt hlt'] at hmod
      omega
    rw [if_neg hge, if_pos (Or.inl hmod)]

theorem pad_inj7 {v v' : List Nat} (hl : v.length = 27) (hl' : v'.length = 27) (h : pad 7 v = pad 7 v') :
    v = v' := by
  apply List.ext_getElem
  · omega
  · intro p hp hp'
    have := congrArg (fun w => w[p + 8 + p / 6]?) h
    rw [pad_get v (by omega), pad_get v' (by omega), padBit, padBit, if_neg (by omega), if_neg (by omega),
      if_neg (by omega), if_neg (by omega), show p + 8 + p / 6 - 7 - (p + 8 + p / 6) / 7 = p by omega] at this
    simpa [List.getD_eq_getElem?_getD, hp, hp'] using this

theorem pad_inj8 {v v' : List Nat} (hl : v.length = 27) (hl' : v'.length = 27) (h : pad 8 v = pad 8 v') :
    v = v' := by
  apply List.ext_getElem
  · omega
  · intro p hp hp'
    have := congrArg (fun w => w[p + 9 + p / 7]?) h
    rw [pad_get v (by omega), pad_get v' (by omega), padBit, padBit, if_neg (by omega), if_neg (by omega),
      if_neg (by omega), if_neg (by omega), show p + 9 + p / 7 - 8 - (p + 9 + p / 7) / 8 = p by omega] at this
    simpa [List.getD_eq_getElem?_getD, hp, hp'] using this

/-- The words of length 40. -/
theorem many_words40 {ws : List (List Nat)}
    (h : ∀ w, w ∈ ws ↔ IsLyndon w ∧ w.length ≤ MAXW ∧ ∀ c ∈ w, c < 2) :
    2 ^ 28 ≤ (ws.filter (fun w => decide (w.length = 40))).length := by
  obtain ⟨hnd, hspec⟩ := words2_spec 27
  have n7 : ((words2 27).map (pad 7)).Nodup := by
    refine List.Nodup.map_on (fun a ha b hb hab => pad_inj7 (hspec a ha).1 (hspec b hb).1 hab) hnd
  have n8 : ((words2 27).map (pad 8)).Nodup := by
    refine List.Nodup.map_on (fun a ha b hb hab => pad_inj8 (hspec a ha).1 (hspec b hb).1 hab) hnd
  have hdis : ∀ a ∈ (words2 27).map (pad 7), ∀ b ∈ (words2 27).map (pad 8), a ≠ b := by
    intro a ha b hb
    obtain ⟨x, _, rfl⟩ := List.mem_map.1 ha
    obtain ⟨y, _, rfl⟩ := List.mem_map.1 hb
    intro e
    have := congrArg (fun w => w[7]?) e
    simp [pad_get, padBit] at this
  have n := List.nodup_append.2 ⟨n7, n8, hdis⟩
  have hsub : (words2 27).map (pad 7) ++ (words2 27).map (pad 8) ⊆
      ws.filter (fun w => decide (w.length = 40)) := by
    intro w hw
    rw [List.mem_filter, h]
    rcases List.mem_append.1 hw with hw | hw
    · obtain ⟨v, hv, rfl⟩ := List.mem_map.1 hw
      exact ⟨⟨pad_lyndon (by omega) (by omega) (hspec v hv).2, by rw [pad_length]; decide,
        pad_bin (hspec v hv).2⟩, by simp [pad_length]⟩
    · obtain ⟨v, hv, rfl⟩ := List.mem_map.1 hw
      exact ⟨⟨pad_lyndon (by omega) (by omega) (hspec v hv).2, by rw [pad_length]; decide,
        pad_bin (hspec v hv).2⟩, by simp [pad_length]⟩
  have := (List.subperm_of_subset n hsub).length_le
  rw [List.length_append, List.length_map, List.length_map, words2_length] at this
  omega

/-! ### Sizes of the counters -/

theorem wins_apply (b l : Nat) (us : List (List UInt8)) (c i : Nat) :
    wins b l us c i = if i = l then us.countP (fun u => decide (kind b (bbwtRuns u) = c)) else 0 := by
  induction us with
  | nil => simp [wins]
  | cons u us ih =>
    have : wins b l (u :: us) c i = one (kind b (bbwtRuns u)) l c i + wins b l us c i := by
      simp [wins]
    rw [this, ih, one, List.countP_cons]
    by_cases hi : i = l
    · by_cases hc : kind b (bbwtRuns u) = c
      · simp [hi, hc]; omega
      · simp [hi, hc, Ne.symm hc]
    · simp [hi]

theorem kind_range (b c : Nat) : 1 ≤ kind b c ∧ kind b c ≤ 3 := by
  unfold kind; split
  · omega
  · split <;> omega

theorem delta_le {w : List Nat} (hl : w.length ≤ MAXW) (c i : Nat) : delta w c i ≤ 42 := by
  have h1 : (conjs w).length = w.length := by simp [conjs]
  have h2 := List.countP_le_length (p := fun u => decide (kind (bwtRuns (w.map UInt8.ofNat)) (bbwtRuns u) = c))
    (l := conjs w)
  have h3 := one_le 0 (w.length - 1) c i
  have h4 := oneTotal_le c i
  have : MAXW = 40 := rfl
  simp only [delta, Pi.add_apply, wins_apply, Pi.zero_apply]
  split <;> omega

theorem total_le {ws : List (List Nat)} (h : ∀ w ∈ ws, w.length ≤ MAXW) (c i : Nat) :
    total ws c i ≤ 42 * ws.length := by
  induction ws with
  | nil => simp [total]
  | cons w ws ih =>
    have : total (w :: ws) c i = delta w c i + total ws c i := by simp [total]
    rw [this, List.length_cons]
    have := delta_le (h w (by simp)) c i
    have := ih (fun v hv => h v (by simp [hv]))
    omega

theorem total_wins (ws : List (List Nat)) (hne : ∀ w ∈ ws, w ≠ []) :
    total ws 1 39 + total ws 2 39 + total ws 3 39 =
      40 * (ws.filter (fun w => decide (w.length = 40))).length := by
  induction ws with
  | nil => simp [total]
  | cons w ws ih =>
    have e : ∀ c, total (w :: ws) c 39 = delta w c 39 + total ws c 39 := fun c => by simp [total]
    have ih := ih (fun v hv => hne v (by simp [hv]))
    have hd : delta w 1 39 + delta w 2 39 + delta w 3 39 = if w.length = 40 then 40 else 0 := by
      have hw := List.length_pos_iff.2 (hne w (by simp))
      have h1 : (conjs w).length = w.length := by simp [conjs]
      simp only [delta, Pi.add_apply, wins_apply, Pi.zero_apply, one, oneTotal]
      by_cases h40 : w.length = 40
      · simp only [h40, if_true]
        rw [h40] at h1
        simp
        have key : ∀ (us : List (List UInt8)) (b : Nat),
            us.countP (fun u => decide (kind b (bbwtRuns u) = 1)) +
            us.countP (fun u => decide (kind b (bbwtRuns u) = 2)) +
            us.countP (fun u => decide (kind b (bbwtRuns u) = 3)) = us.length := by
          intro us b
          induction us with
          | nil => rfl
          | cons u us ih =>
            have := kind_range b (bbwtRuns u)
            simp only [List.countP_cons, List.length_cons]
            have h3 : kind b (bbwtRuns u) = 1 ∨ kind b (bbwtRuns u) = 2 ∨ kind b (bbwtRuns u) = 3 := by omega
            rcases h3 with h3 | h3 | h3 <;> simp [h3] <;> omega
        rw [key, h1]
      · have h39 : ¬ (39 = w.length - 1) := by omega
        simp [h39, h40]
    rw [e, e, e, List.filter_cons]
    by_cases h40 : w.length = 40
    · simp only [h40, decide_true, if_true, List.length_cons] at hd ⊢
      omega
    · simp only [h40, decide_false, if_false] at hd ⊢
      simp only [Bool.false_eq_true, if_false]
      omega

/-! ### `i32Fits` -/

theorem fits_iff (s : MShared) : i32Fits s = true ↔ ∀ c < 4, ∀ i, cnt s c i < 2 ^ 31 := by
  have key : ∀ v : List Nat, (∀ x ∈ v, x < 2 ^ 31) ↔ ∀ i, v.getD i 0 < 2 ^ 31 := by
    intro v
    refine ⟨fun h i => ?_, fun h x hx => ?_⟩
    · rw [List.getD_eq_getElem?_getD]
      cases hv : v[i]? with
      | none => simp
      | some x => exact h x (List.mem_of_getElem? hv)
    · obtain ⟨i, hi, rfl⟩ := List.getElem_of_mem hx
      have := h i
      rw [List.getD_eq_getElem?_getD, List.getElem?_eq_getElem hi] at this
      exact this
  simp only [i32Fits, decide_eq_true_eq, List.mem_cons, List.not_mem_nil, or_false, forall_eq_or_imp,
    forall_eq, key]
  refine ⟨fun ⟨h0, h1, h2, h3⟩ c hc i => ?_, fun h => ⟨h 0 (by omega), h 1 (by omega), h 2 (by omega),
    h 3 (by omega)⟩⟩
  match c, hc with
  | 0, _ => exact h0 i
  | 1, _ => exact h1 i
  | 2, _ => exact h2 i
  | 3, _ => exact h3 i

theorem fits_near {s s' : MShared} (h : Near s s') (hf : i32Fits s' = true) : i32Fits s = true := by
  rw [fits_iff] at hf ⊢
  intro c hc i
  have := hf c hc i
  have := (h c i).1
  omega

/-- Some counter is at its maximum. -/
def Full (s : MShared) : Prop := ∃ c < 4, ∃ i, cnt s c i = 2 ^ 31 - 1

theorem full_of {s s' : MShared} (h : Near s s') (hf : i32Fits s = true) (hf' : i32Fits s' = false) :
    Full s := by
  rw [fits_iff] at hf
  have : ¬ ∀ c < 4, ∀ i, cnt s' c i < 2 ^ 31 := fun hh => by
    rw [(fits_iff s').2 hh] at hf'; cases hf'
  push Not at this
  obtain ⟨c, hc, i, hi⟩ := this
  have := hf c hc i
  have := (h c i).2
  exact ⟨c, hc, i, by omega⟩

theorem full_near {s s' : MShared} (h : Near s s') (hf' : i32Fits s' = true) (hfull : Full s) : Full s' := by
  rw [fits_iff] at hf'
  obtain ⟨c, hc, i, hi⟩ := hfull
  have := hf' c hc i
  have := (h c i).1
  exact ⟨c, hc, i, by omega⟩

theorem fits_init : i32Fits MShared.init = true := by decide +kernel

/-! ### Transfer -/

section transfer
variable {T : Nat} {ws : List (List Nat)}

theorem cinv_init (hy : Yields LyndonWordGenerator.next (LyndonWordGenerator.new MAXW 2) ws) :
    CInv ws (TState.init mworker MShared.init : MState T) := by
  refine ⟨[], ws, rfl, hy, fun _ => 0, fun t => Or.inl ⟨Or.inl rfl, rfl⟩, ?_⟩
  funext c i
  have hz : ∀ i, (List.replicate MAXW 0).getD i 0 = 0 := fun i => by
    rw [List.getD_eq_getElem?_getD, List.getElem?_replicate]; split <;> rfl
  simp only [Finset.sum_const_zero, add_zero, total, List.map_nil, List.sum_nil, Pi.zero_apply]
  match c with
  | 0 => exact hz i
  | 1 => exact hz i
  | 2 => exact hz i
  | 3 => exact hz i
  | _ + 4 => rfl

theorem cinv_steps (hws : ∀ w ∈ ws, w ≠ [] ∧ w.length ≤ MAXW) {a b : MState T} (h : CInv ws a)
    (hs : Steps a b) : CInv ws b := by
  induction hs with
  | refl => exact h
  | tail _ hs ih => exact (ih.step hws hs).1

/-- A run without checks in which the counters stay small is a run with checks. -/
theorem run_checked (hws : ∀ w ∈ ws, w ≠ [] ∧ w.length ≤ MAXW) {a b : MState T} (h : CInv ws a)
    (hs : Steps a b) (hf : i32Fits b.sh = true) :
    Relation.ReflTransGen (TState.Step maxWorker) (checked i32Fits a) (checked i32Fits b) :=
  checked_steps (CInv ws) (fun _ _ h hs => (h.step hws hs).1)
    (fun _ _ h hs hf => fits_near (h.step hws hs).2 hf) h hs hf

theorem yields_unique {it : LyndonWordGenerator} {xs ys : List (List Nat)}
    (hx : Yields LyndonWordGenerator.next it xs) (hy : Yields LyndonWordGenerator.next it ys) : xs = ys := by
  induction xs generalizing it ys with
  | nil =>
    cases ys with
    | nil => rfl
    | cons y ys =>
      obtain ⟨_, h1, _⟩ := hx.nil
      obtain ⟨_, h2, _⟩ := hy.cons
      rw [h1] at h2; simp at h2
  | cons x xs ih =>
    cases ys with
    | nil =>
      obtain ⟨_, h1, _⟩ := hx.cons
      obtain ⟨_, h2, _⟩ := hy.nil
      rw [h1] at h2; simp at h2
    | cons y ys =>
      obtain ⟨it1, h1, h3⟩ := hx.cons
      obtain ⟨it2, h2, h4⟩ := hy.cons
      rw [h1] at h2
      simp only [Except.ok.injEq, Prod.mk.injEq, Option.some.injEq] at h2
      obtain ⟨rfl, rfl⟩ := h2
      rw [ih h3 h4]

/-- When few words have been taken the counters are small. -/
theorem fits_few (hws : ∀ w ∈ ws, w ≠ [] ∧ w.length ≤ MAXW) {st : MState T} (h : CInv ws st)
    {rest : List (List Nat)} (hy : Yields LyndonWordGenerator.next st.sh.iter rest)
    (hfew : ws.length ≤ rest.length + 20000) : i32Fits st.sh = true := by
  obtain ⟨done, rest', hsp, hy', d, _, hsum⟩ := h
  have hr := yields_unique hy hy'
  subst hr
  have hlen : done.length ≤ 20000 := by
    have := congrArg List.length hsp
    rw [List.length_append] at this
    omega
  rw [fits_iff]
  intro c _ i
  have h1 := total_le (ws := done) (fun w hw => (hws w (by rw [← hsp]; simp [hw])).2) c i
  have h2 : cnt st.sh c i ≤ total done c i := by
    rw [← hsum]; simp
  omega

/-- Every state with checks comes from one without. -/
theorem max_down (hws : ∀ w ∈ ws, w ≠ [] ∧ w.length ≤ MAXW)
    (hy : Yields LyndonWordGenerator.next (LyndonWordGenerator.new MAXW 2) ws) {st : MState T}
    (h : MaxReachable st) : ∃ st0, FreeReachable st0 ∧ Down i32Fits Full st st0 :=
  checked_down fits_init
    (fun _ _ hr hs hf hf' => full_of (((cinv_steps hws (cinv_init hy) hr).step hws hs).2) hf hf')
    (fun _ _ hr hs hf' hb => full_near (((cinv_steps hws (cinv_init hy) hr).step hws hs).2) hf' hb) h

theorem checked_init : checked i32Fits (TState.init mworker MShared.init : MState T) =
    TState.init maxWorker MShared.init := rfl

theorem up (hws : ∀ w ∈ ws, w ≠ [] ∧ w.length ≤ MAXW)
    (hy : Yields LyndonWordGenerator.next (LyndonWordGenerator.new MAXW 2) ws) {st : MState T}
    (h : FreeReachable st) (hf : i32Fits st.sh = true) : MaxReachable (checked i32Fits st) := by
  have := run_checked hws (cinv_init hy) h hf
  rwa [checked_init] at this

end transfer

end Verif.Max
