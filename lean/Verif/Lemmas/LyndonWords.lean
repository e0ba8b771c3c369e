import Verif.Lemmas.WordMore
import Verif.Lemmas.BwtMorph

/-! # The Lyndon factorizations of the generated words -/

namespace Verif

open Spec Model

theorem Mis.of_prefix_left {α : Type} [LinearOrder α] {u v w : List α} (h : Mis u v) (hw : u <+: w) : Mis w v := by
  obtain ⟨x, rfl⟩ := hw
  simpa using h.append x []

/-- An order-preserving morphism whose images do not start anew inside an image maps Lyndon words to Lyndon words. -/
theorem mor_lyndon {f : UInt8 → List UInt8} {A : UInt8 → Prop} (hf : ∀ x y, A x → A y → x < y → Mis (f x) (f y))
    {a : UInt8} {r : List UInt8} (hA : ∀ c ∈ a :: r, A c) (hne : f a ≠ [])
    (hin : ∀ c ∈ a :: r, ∀ s t, s ≠ [] → t ≠ [] → f c = s ++ t → Mis (f a) t)
    (h : IsLyndon (a :: r)) : IsLyndon ((a :: r).flatMap f) := by
  refine ⟨by simp [hne], ?_⟩
  intro u v hu hv e
  obtain ⟨p, c, q, t, hw, ht, htc, hv'⟩ := suffix_flatMap hv ⟨u, e.symm⟩
  obtain ⟨s, hs⟩ := htc
  by_cases hs0 : s = []
  · subst hs0
    rw [List.nil_append] at hs
    have hvq : v = (c :: q).flatMap f := by rw [hv', hs]; rfl
    rcases p with _ | ⟨x, p⟩
    · exfalso
      rw [List.nil_append] at hw
      rw [hvq, ← hw] at e
      have := congrArg List.length e
      rw [List.length_append] at this
      have := List.length_pos_iff.2 hu
      omega
    · obtain ⟨p', x', y', s1, s2, e1, e2, hxy⟩ := h.mis (u := x :: p) (v := c :: q) (by simp) (by simp) hw
      have h1 : A x' := hA _ (by rw [e1]; simp)
      have h2 : A y' := hA _ (by rw [hw, e2]; simp)
      rw [hvq, e1, e2, List.flatMap_append, List.flatMap_append, List.flatMap_cons, List.flatMap_cons]
      exact append_lt_left.2 ((hf x' y' h1 h2 hxy).append _ _).lt
  · rw [hv', List.flatMap_cons]
    exact ((hin c (by rw [hw]; simp) s t hs0 ht hs.symm).append _ _).lt

/-- A non-increasing list of Lyndon words with a common head, after a larger word. -/
theorem pairwise_map_le {β : Type} {R : β → β → Prop} {l : List β} {g : β → β} (h : l.Pairwise R)
    (hg : ∀ x ∈ l, ∀ y ∈ l, R x y → R (g x) (g y)) : (l.map g).Pairwise R := by
  rw [List.pairwise_map]
  exact h.imp_of_mem fun hx hy hxy => hg _ hx _ hy hxy

/-- An order-preserving morphism keeps `≤` between words. -/
theorem mor_le {f : UInt8 → List UInt8} {A : UInt8 → Prop} (hf : ∀ x y, A x → A y → x < y → Mis (f x) (f y))
    {u v : List UInt8} (hu : ∀ c ∈ u, A c) (hv : ∀ c ∈ v, A c) (h : u ≤ v) : u.flatMap f ≤ v.flatMap f := by
  rcases h.lt_or_eq with h | rfl
  · rcases lt_iff_mis.1 h with ⟨⟨x, rfl⟩, -⟩ | ⟨p, x, y, s1, s2, rfl, rfl, hxy⟩
    · rw [List.flatMap_append]
      exact le_of_prefix ⟨_, rfl⟩
    · rw [List.flatMap_append, List.flatMap_append, List.flatMap_cons, List.flatMap_cons]
      exact (append_lt_left.2 ((hf x y (hu _ (by simp)) (hv _ (by simp)) hxy).append _ _).lt).le
  · exact le_refl _

theorem flatten_map_flatMap {β γ : Type} (f : β → List γ) (l : List (List β)) :
    (l.map (fun w => w.flatMap f)).flatten = l.flatten.flatMap f := by
  induction l with
  | nil => rfl
  | cons x l ih => rw [List.map_cons, List.flatten_cons, ih, List.flatten_cons, List.flatMap_append]

/-! ### The ternary Thue–Morse words are Lyndon words -/

theorem vtm_mono (x y : UInt8) (hx : x = 97 ∨ x = 98 ∨ x = 99) (hy : y = 97 ∨ y = 98 ∨ y = 99) (h : x < y) :
    Mis (vtmMor x) (vtmMor y) := by
  rcases hx with rfl | rfl | rfl <;> rcases hy with rfl | rfl | rfl <;> first | exact absurd h (by decide) | skip
  · exact ⟨[97], 98, 99, [99], [], rfl, rfl, by decide⟩
  · exact ⟨[], 97, 98, [98, 99], [], rfl, rfl, by decide⟩
  · exact ⟨[], 97, 98, [99], [], rfl, rfl, by decide⟩

theorem suffixes_of {β : Type} {s t w : List β} (hs : s ≠ []) (e : w = s ++ t) : t ∈ w.tails.tail := by
  rcases s with _ | ⟨x, s⟩
  · exact absurd rfl hs
  · subst e
    simp [List.tails]

theorem vtm_lyndon (k : Nat) : ∃ r, iter vtmMor k [97] = 97 :: r ∧ IsLyndon (97 :: r) ∧
    ∀ c ∈ 97 :: r, c = 97 ∨ c = 98 ∨ c = 99 := by
  induction k with
  | zero => exact ⟨[], rfl, isLyndon_singleton _, by simp⟩
  | succ k ih =>
    obtain ⟨r, h1, h2, h3⟩ := ih
    have e : iter vtmMor (k + 1) [97] = (97 :: r).flatMap vtmMor := by rw [iter, h1]
    refine ⟨[98, 99] ++ r.flatMap vtmMor, by rw [e]; rfl, ?_, ?_⟩
    · have := mor_lyndon vtm_mono h3 (by decide) ?_ h2
      · exact this
      · intro c hc s t hs ht hst
        have hm := suffixes_of hs hst
        rcases h3 c hc with rfl | rfl | rfl
        · have : t = [98, 99] ∨ t = [99] ∨ t = [] := by simpa [vtmMor] using hm
          rcases this with rfl | rfl | rfl
          · exact ⟨[], 97, 98, [98, 99], [99], rfl, rfl, by decide⟩
          · exact ⟨[], 97, 99, [98, 99], [], rfl, rfl, by decide⟩
          · exact absurd rfl ht
        · have : t = [99] ∨ t = [] := by simpa [vtmMor] using hm
          rcases this with rfl | rfl
          · exact ⟨[], 97, 99, [98, 99], [], rfl, rfl, by decide⟩
          · exact absurd rfl ht
        · have : t = [] := by simpa [vtmMor] using hm
          exact absurd this ht
    · intro c hc
      have hc' : c ∈ (97 :: r).flatMap vtmMor := hc
      obtain ⟨d, -, hd⟩ := List.mem_flatMap.1 hc'
      unfold vtmMor at hd
      split at hd
      · simp at hd; tauto
      · split at hd <;> simp at hd <;> tauto

/-! ### Fibonacci words -/

theorem lyndonMor_mono (x y : UInt8) (hx : x = 97 ∨ x = 98) (hy : y = 97 ∨ y = 98) (h : x < y) :
    Mis (lyndonMor x) (lyndonMor y) := by
  rcases hx with rfl | rfl <;> rcases hy with rfl | rfl <;> first | exact absurd h (by decide) | skip
  exact ⟨[97], 97, 98, [98], [], rfl, rfl, by decide⟩

/-- Lyndon words over `a`, `b` that start with `a` -/
def ALyn (w : List UInt8) : Prop := IsLyndon w ∧ AB w ∧ ∃ r, w = 97 :: r

theorem ALyn.lmor {w : List UInt8} (h : ALyn w) : ALyn (w.flatMap lyndonMor) := by
  obtain ⟨h1, h2, r, rfl⟩ := h
  exact ⟨lyndonMor_lyndon h2 h1, AB.img _, [97, 98] ++ r.flatMap lyndonMor, rfl⟩

/-- every Fibonacci word, two orders on -/
theorem fib_step (k : Nat) :
    iter fibMor (k + 2) [97] ++ [97, 98] = [97, 98] ++ (iter fibMor k [97]).flatMap lyndonMor := by
  rw [conj_fib]; rfl

/-- the Lyndon factors of the Fibonacci words of even order -/
def fibFacEven : Nat → List (List UInt8)
  | 0 => []
  | j + 1 => [97, 98] :: (fibFacEven j).map (fun w => w.flatMap lyndonMor)

theorem fibFacEven_eq (j : Nat) : fibFacEven j = (List.range j).map lfac := by
  induction j with
  | zero => rfl
  | succ j ih =>
    rw [fibFacEven, ih, List.range_succ_eq_map, List.map_cons, List.map_map, List.map_map]
    rfl

theorem fibFacEven_mem (j : Nat) : ∀ f ∈ fibFacEven j, ALyn f := by
  intro f hf
  rw [fibFacEven_eq] at hf
  obtain ⟨i, -, rfl⟩ := List.mem_map.1 hf
  exact ⟨lfac_lyndon i, lfac_AB i, lfac_start i⟩

theorem fibFacEven_pairwise (j : Nat) : (fibFacEven j).Pairwise (fun f g => g ≤ f) := by
  rw [fibFacEven_eq, List.pairwise_map]
  exact List.pairwise_lt_range.imp (fun h => le_of_lt (lfac_lt h))

theorem fibFacEven_flatten (j : Nat) : (fibFacEven j ++ [[97]]).flatten = iter fibMor (2 * j) [97] := by
  induction j with
  | zero => rfl
  | succ j ih =>
    have h := fib_step (2 * j)
    rw [← ih, ← flatten_map_flatMap, List.map_append, List.flatten_append] at h
    rw [show 2 * (j + 1) = 2 * j + 2 by ring]
    apply List.append_cancel_right (bs := [97, 98])
    rw [h, fibFacEven]
    simp [lyndonMor]

/-- A non-increasing list of words that all start with `a`, then copies of the letter. -/
theorem fact_append {l : List (List UInt8)} {z : List UInt8} {n : Nat} (h1 : ∀ f ∈ l, IsLyndon f)
    (h2 : l.Pairwise (fun f g => g ≤ f)) (hz : IsLyndon z) (h3 : ∀ f ∈ l, z <+: f) :
    IsLyndonFactorization (l ++ List.replicate n z) (l ++ List.replicate n z).flatten := by
  refine ⟨rfl, ?_, ?_⟩
  · intro f hf
    rcases List.mem_append.1 hf with hf | hf
    · exact h1 f hf
    · rw [List.eq_of_mem_replicate hf]; exact hz
  · rw [List.pairwise_append]
    refine ⟨h2, ?_, ?_⟩
    · rw [List.pairwise_replicate]; exact Or.inr (le_refl _)
    · intro f hf g hg
      rw [List.eq_of_mem_replicate hg]
      exact le_of_prefix (h3 f hf)

theorem fib_factors_even (j : Nat) : IsLyndonFactorization ((List.range j).map lfac ++ [[97]]) (iter fibMor (2 * j) [97]) := by
  rw [← fibFacEven_flatten, ← fibFacEven_eq]
  refine fact_append (z := [97]) (n := 1) (fun f hf => (fibFacEven_mem j f hf).1) (fibFacEven_pairwise j) (isLyndon_singleton _) ?_
  intro f hf
  obtain ⟨-, -, r, rfl⟩ := fibFacEven_mem j f hf
  exact ⟨r, rfl⟩

/-- the words `φ^i(a)` -/
def afac (i : Nat) : List UInt8 := iter lyndonMor i [97]

/-- the Lyndon factors of the Fibonacci word of order `2 j + 3` without the last `aab` -/
def fibFacOdd : Nat → List (List UInt8)
  | 0 => [[97, 98]]
  | j + 1 => [97, 98] :: (fibFacOdd j).map (fun w => w.flatMap lyndonMor) ++ [[97, 97, 98]]

theorem fibFacOdd_length (j : Nat) : (fibFacOdd j).length = 2 * j + 1 := by
  induction j with
  | zero => rfl
  | succ j ih => simp [fibFacOdd, ih]; ring

theorem fibFacOdd_flatten (j : Nat) : (fibFacOdd j ++ [[97, 97, 98]]).flatten = iter fibMor (2 * j + 3) [97] := by
  induction j with
  | zero => rfl
  | succ j ih =>
    have h := fib_step (2 * j + 3)
    rw [← ih, ← flatten_map_flatMap, List.map_append, List.flatten_append] at h
    rw [show 2 * (j + 1) + 3 = 2 * j + 3 + 2 by ring]
    apply List.append_cancel_right (bs := [97, 98])
    rw [h, fibFacOdd]
    simp [lyndonMor]

theorem aab_lyn : ALyn [97, 97, 98] := ⟨by decide +kernel, by simp [AB], _, rfl⟩

theorem fibFacOdd_mem (j : Nat) : ∀ f ∈ fibFacOdd j, ALyn f := by
  induction j with
  | zero => simp only [fibFacOdd, List.mem_singleton, forall_eq]; exact ⟨by decide +kernel, by simp [AB], _, rfl⟩
  | succ j ih =>
    intro f hf
    simp only [fibFacOdd, List.cons_append, List.mem_cons, List.mem_append, List.mem_map, List.not_mem_nil, or_false] at hf
    rcases hf with rfl | ⟨g, hg, rfl⟩ | rfl
    · exact ⟨by decide +kernel, by simp [AB], _, rfl⟩
    · exact (ih g hg).lmor
    · exact aab_lyn

theorem ab_ge {f : List UInt8} (h : [97, 97] <+: f) : f ≤ [97, 98] := by
  obtain ⟨r, rfl⟩ := h
  exact (Mis.lt ⟨[97], 97, 98, r, [], rfl, rfl, by decide⟩).le

theorem ALyn.lmor_prefix {w : List UInt8} (h : ALyn w) : [97, 97, 98] <+: w.flatMap lyndonMor := by
  obtain ⟨-, -, r, rfl⟩ := h
  exact ⟨r.flatMap lyndonMor, rfl⟩

theorem fibFacOdd_pairwise (j : Nat) : (fibFacOdd j ++ [[97, 97, 98]]).Pairwise (fun f g => g ≤ f) := by
  induction j with
  | zero => simp [fibFacOdd]; exact ab_ge ⟨[98], rfl⟩
  | succ j ih =>
    rw [fibFacOdd, List.append_assoc, List.cons_append, List.pairwise_cons]
    have hm : ∀ f ∈ (fibFacOdd j).map (fun w => w.flatMap lyndonMor), [97, 97, 98] <+: f := by
      intro f hf
      obtain ⟨g, hg, rfl⟩ := List.mem_map.1 hf
      exact (fibFacOdd_mem j g hg).lmor_prefix
    refine ⟨?_, ?_⟩
    · intro f hf
      refine ab_ge ?_
      rcases List.mem_append.1 hf with hf | hf
      · exact (show [(97 : UInt8), 97] <+: [97, 97, 98] from ⟨[98], rfl⟩).trans (hm f hf)
      · simp at hf; subst hf; exact ⟨[98], rfl⟩
    · rw [List.pairwise_append]
      refine ⟨pairwise_map_le (List.pairwise_append.1 ih).1 ?_, by simp, ?_⟩
      · intro x hx y hy hxy
        exact mor_le lyndonMor_mono (fibFacOdd_mem j y hy).2.1 (fibFacOdd_mem j x hx).2.1 hxy
      · intro f hf g hg
        simp at hg; subst hg
        exact le_of_prefix (hm f hf)

theorem fib_factors_odd (j : Nat) : IsLyndonFactorization (fibFacOdd j ++ [[97, 97, 98]]) (iter fibMor (2 * j + 3) [97]) := by
  refine ⟨fibFacOdd_flatten j, ?_, fibFacOdd_pairwise j⟩
  intro f hf
  rcases List.mem_append.1 hf with hf | hf
  · exact (fibFacOdd_mem j f hf).1
  · simp at hf; subst hf; exact aab_lyn.1

/-! ### Period-doubling words -/

/-- `a -> aaab, b -> abab`, two steps of the period-doubling morphism, shifted by `ab` -/
def pdLyn (c : UInt8) : List UInt8 := if c = 97 then [97, 97, 97, 98] else [97, 98, 97, 98]

theorem pd_conj (x : List UInt8) :
    [97, 98] ++ x.flatMap pdLyn = (x.flatMap pdMor).flatMap pdMor ++ [97, 98] := by
  induction x with
  | nil => rfl
  | cons c x ih =>
    have hc : [97, 98] ++ pdLyn c = (pdMor c).flatMap pdMor ++ [97, 98] := by
      unfold pdLyn pdMor; split <;> rfl
    rw [List.flatMap_cons, List.flatMap_cons, List.flatMap_append, ← List.append_assoc, hc, List.append_assoc, ih,
      List.append_assoc]

theorem pd_step (k : Nat) :
    iter pdMor (k + 2) [97] ++ [97, 98] = [97, 98] ++ (iter pdMor k [97]).flatMap pdLyn := by
  rw [pd_conj]; rfl

theorem pdLyn_mono (x y : UInt8) (hx : x = 97 ∨ x = 98) (hy : y = 97 ∨ y = 98) (h : x < y) :
    Mis (pdLyn x) (pdLyn y) := by
  rcases hx with rfl | rfl <;> rcases hy with rfl | rfl <;> first | exact absurd h (by decide) | skip
  exact ⟨[97], 97, 98, [97, 98], [97, 98], rfl, rfl, by decide⟩

/-- no image starts inside an image -/
theorem pdLyn_inside {c : UInt8} (hc : c = 97 ∨ c = 98) {s t : List UInt8} (hs : s ≠ []) (ht : t ≠ [])
    (e : pdLyn c = s ++ t) : Mis (pdLyn 97) t := by
  have hm := suffixes_of hs e
  rcases hc with rfl | rfl
  · have : t = [97, 97, 98] ∨ t = [97, 98] ∨ t = [98] ∨ t = [] := by simpa [pdLyn] using hm
    rcases this with rfl | rfl | rfl | rfl
    · exact ⟨[97, 97], 97, 98, [98], [], rfl, rfl, by decide⟩
    · exact ⟨[97], 97, 98, [97, 98], [], rfl, rfl, by decide⟩
    · exact ⟨[], 97, 98, [97, 97, 98], [], rfl, rfl, by decide⟩
    · exact absurd rfl ht
  · have : t = [98, 97, 98] ∨ t = [97, 98] ∨ t = [98] ∨ t = [] := by simpa [pdLyn] using hm
    rcases this with rfl | rfl | rfl | rfl
    · exact ⟨[], 97, 98, [97, 97, 98], [97, 98], rfl, rfl, by decide⟩
    · exact ⟨[97], 97, 98, [97, 98], [], rfl, rfl, by decide⟩
    · exact ⟨[], 97, 98, [97, 97, 98], [], rfl, rfl, by decide⟩
    · exact absurd rfl ht

theorem AB.pd (w : List UInt8) : AB (w.flatMap pdLyn) := by
  intro c hc
  obtain ⟨d, _, hd⟩ := List.mem_flatMap.1 hc
  unfold pdLyn at hd
  split at hd <;> simp at hd <;> tauto

theorem ALyn.pd {w : List UInt8} (h : ALyn w) : ALyn (w.flatMap pdLyn) := by
  obtain ⟨h1, h2, r, rfl⟩ := h
  exact ⟨mor_lyndon pdLyn_mono h2 (by decide) (fun c hc s t hs ht e => pdLyn_inside (h2 c hc) hs ht e) h1, AB.pd _,
    [97, 97, 98] ++ r.flatMap pdLyn, rfl⟩

/-- the Lyndon factors of the period-doubling word of order `2 j` without the last `a` -/
def pdFacEven : Nat → List (List UInt8)
  | 0 => []
  | j + 1 => [97, 98] :: (pdFacEven j).map (fun w => w.flatMap pdLyn) ++ [[97]]

theorem pdFacEven_length (j : Nat) : (pdFacEven j).length = 2 * j := by
  induction j with
  | zero => rfl
  | succ j ih => simp [pdFacEven, ih]; ring

theorem pdFacEven_flatten (j : Nat) : (pdFacEven j ++ [[97]]).flatten = iter pdMor (2 * j) [97] := by
  induction j with
  | zero => rfl
  | succ j ih =>
    have h := pd_step (2 * j)
    rw [← ih, ← flatten_map_flatMap, List.map_append, List.flatten_append] at h
    rw [show 2 * (j + 1) = 2 * j + 2 by ring]
    apply List.append_cancel_right (bs := [97, 98])
    rw [h, pdFacEven]
    simp [pdLyn]

theorem a_lyn : ALyn [97] := ⟨isLyndon_singleton _, by simp [AB], _, rfl⟩

theorem ab_lyn : ALyn [97, 98] := ⟨by decide +kernel, by simp [AB], _, rfl⟩

theorem pdFacEven_mem (j : Nat) : ∀ f ∈ pdFacEven j, ALyn f := by
  induction j with
  | zero => simp [pdFacEven]
  | succ j ih =>
    intro f hf
    simp only [pdFacEven, List.cons_append, List.mem_cons, List.mem_append, List.mem_map, List.not_mem_nil, or_false] at hf
    rcases hf with rfl | ⟨g, hg, rfl⟩ | rfl
    · exact ab_lyn
    · exact (ih g hg).pd
    · exact a_lyn

theorem ALyn.pd_prefix {w : List UInt8} (h : ALyn w) : [97, 97] <+: w.flatMap pdLyn := by
  obtain ⟨-, -, r, rfl⟩ := h
  exact ⟨[97, 98] ++ r.flatMap pdLyn, rfl⟩

theorem pdFacEven_pairwise (j : Nat) : (pdFacEven j).Pairwise (fun f g => g ≤ f) := by
  induction j with
  | zero => simp [pdFacEven]
  | succ j ih =>
    rw [pdFacEven, List.cons_append, List.pairwise_cons]
    refine ⟨?_, ?_⟩
    · intro f hf
      rcases List.mem_append.1 hf with hf | hf
      · obtain ⟨g, hg, rfl⟩ := List.mem_map.1 hf
        exact ab_ge (pdFacEven_mem j g hg).pd_prefix
      · simp at hf; subst hf; exact le_of_prefix ⟨[98], rfl⟩
    · rw [List.pairwise_append]
      refine ⟨pairwise_map_le ih ?_, by simp, ?_⟩
      · intro x hx y hy hxy
        exact mor_le pdLyn_mono (pdFacEven_mem j y hy).2.1 (pdFacEven_mem j x hx).2.1 hxy
      · intro f hf g hg
        simp at hg; subst hg
        obtain ⟨x, hx, rfl⟩ := List.mem_map.1 hf
        exact le_of_prefix ((show [(97 : UInt8)] <+: [97, 97] from ⟨[97], rfl⟩).trans (pdFacEven_mem j x hx).pd_prefix)

theorem pd_factors_even (j : Nat) : IsLyndonFactorization (pdFacEven j ++ [[97]]) (iter pdMor (2 * j) [97]) := by
  rw [← pdFacEven_flatten]
  refine fact_append (z := [97]) (n := 1) (fun f hf => (pdFacEven_mem j f hf).1) (pdFacEven_pairwise j) (isLyndon_singleton _) ?_
  intro f hf
  obtain ⟨-, -, r, rfl⟩ := pdFacEven_mem j f hf
  exact ⟨r, rfl⟩

/-- the image without its last `ab` -/
theorem pd_cut {w : List UInt8} (h : ALyn (w ++ [98])) (hw : w ≠ []) :
    ALyn (w.flatMap pdLyn ++ [97, 98]) ∧ [97, 97] <+: w.flatMap pdLyn := by
  obtain ⟨h1, h2, r, hr⟩ := h
  rcases w with _ | ⟨a, w⟩
  · exact absurd rfl hw
  simp only [List.cons_append, List.cons.injEq] at hr
  obtain ⟨rfl, rfl⟩ := hr
  refine ⟨⟨⟨by simp, ?_⟩, ?_, [97, 97, 98] ++ w.flatMap pdLyn ++ [97, 98], ?_⟩, [97, 98] ++ w.flatMap pdLyn, rfl⟩
  · intro u v hu hv e
    have hstart : (97 :: w).flatMap pdLyn ++ [97, 98] = pdLyn 97 ++ (w.flatMap pdLyn ++ [97, 98]) := by
      rw [List.flatMap_cons, List.append_assoc]
    rw [List.append_eq_append_iff] at e
    rcases e with ⟨t, e1, e2⟩ | ⟨t, e1, e2⟩
    · -- inside the last `ab`
      have hm : v = [97, 98] ∨ v = [98] ∨ v = [] := by
        match t, v, e2 with
        | [], v, e => simp at e; simp [← e]
        | [_], v, e => simp at e; simp [← e.2]
        | [_, _], v, e => simp at e; simp [e.2]
        | _ :: _ :: _ :: _, v, e => simp at e
      rw [hstart]
      rcases hm with rfl | rfl | rfl
      · exact (Mis.lt ⟨[97], 97, 98, [97, 98] ++ (w.flatMap pdLyn ++ [97, 98]), [], rfl, rfl, by decide⟩)
      · exact (Mis.lt ⟨[], 97, 98, [97, 97, 98] ++ (w.flatMap pdLyn ++ [97, 98]), [], rfl, rfl, by decide⟩)
      · exact absurd rfl hv
    · by_cases ht : t = []
      · subst ht
        rw [List.nil_append] at e2
        rw [hstart, e2]
        exact (Mis.lt ⟨[97], 97, 98, [97, 98] ++ (w.flatMap pdLyn ++ [97, 98]), [], rfl, rfl, by decide⟩)
      obtain ⟨p, c, q, t', hw', ht', htc, hv'⟩ := suffix_flatMap ht ⟨u, e1.symm⟩
      obtain ⟨s, hs⟩ := htc
      by_cases hs0 : s = []
      · subst hs0
        rw [List.nil_append] at hs
        have hvq : t = (c :: q).flatMap pdLyn := by rw [hv', hs]; rfl
        rcases p with _ | ⟨x, p⟩
        · exfalso
          rw [List.nil_append] at hw'
          rw [hvq, ← hw'] at e1
          have := congrArg List.length e1
          rw [List.length_append] at this
          have := List.length_pos_iff.2 hu
          omega
        · obtain ⟨p', x', y', s1, s2, g1, g2, hxy⟩ := h1.mis (u := x :: p) (v := c :: q ++ [98]) (by simp) (by simp)
            (by rw [← List.append_assoc, ← hw'])
          have k1 : x' = 97 ∨ x' = 98 := h2 _ (by rw [g1]; simp)
          have k2 : y' = 97 ∨ y' = 98 := h2 _ (by rw [hw', List.append_assoc, g2]; simp)
          have k3 : x' = 97 := by
            rcases k1 with rfl | rfl
            · rfl
            · rcases k2 with rfl | rfl <;> exact absurd hxy (by decide)
          have k4 : y' = 98 := by
            rcases k2 with rfl | rfl
            · rw [k3] at hxy; exact absurd hxy (by decide)
            · rfl
          subst k3 k4
          -- the mismatch lies before the last letter of the longer word
          rcases List.eq_nil_or_concat s1 with rfl | ⟨s1, z, rfl⟩
          · exfalso
            have := (List.append_inj' g1 rfl).2
            simp at this
          rw [List.concat_eq_append, show p' ++ 97 :: (s1 ++ [z]) = (p' ++ 97 :: s1) ++ [z] by simp] at g1
          have g1' := (List.append_inj' (show (97 :: w) ++ [98] = _ from g1) rfl).1
          rw [hvq] at e2
          rw [e2, g1', List.flatMap_append, List.flatMap_cons, List.append_assoc]
          rcases List.eq_nil_or_concat s2 with rfl | ⟨s2, z2, rfl⟩
          · have g2' := (List.append_inj' g2 rfl).1
            rw [g2']
            exact append_lt_left.2 (Mis.lt ⟨[97], 97, 98, [97, 98] ++ (s1.flatMap pdLyn ++ [97, 98]), [], rfl, rfl, by decide⟩)
          · rw [List.concat_eq_append, show p' ++ 98 :: (s2 ++ [z2]) = (p' ++ 98 :: s2) ++ [z2] by simp] at g2
            have g2' := (List.append_inj' g2 rfl).1
            rw [g2', List.flatMap_append, List.flatMap_cons, List.append_assoc, List.append_assoc]
            exact append_lt_left.2 (Mis.lt ⟨[97], 97, 98, [97, 98] ++ (s1.flatMap pdLyn ++ [97, 98]),
              [97, 98] ++ (s2.flatMap pdLyn ++ [97, 98]), by simp [pdLyn], by simp [pdLyn], by decide⟩)
      · rw [hstart, e2, hv', List.append_assoc]
        exact ((pdLyn_inside (h2 c (by rw [hw']; simp)) hs0 ht' hs.symm).append _ _).lt
  · intro c hc
    rcases List.mem_append.1 hc with hc | hc
    · exact AB.pd _ c hc
    · simpa using hc
  · rfl

/-- the Lyndon factors of the period-doubling word of order `2 j + 1` without the last one, and the last one (which ends
with `b`) without this letter -/
def pdFacOdd : Nat → List (List UInt8) × List UInt8
  | 0 => ([], [97])
  | j + 1 => ([97, 98] :: (pdFacOdd j).1.map (fun w => w.flatMap pdLyn), (pdFacOdd j).2.flatMap pdLyn ++ [97])

theorem pdFacOdd_length (j : Nat) : (pdFacOdd j).1.length = j := by
  induction j with
  | zero => rfl
  | succ j ih => simp [pdFacOdd, ih]

theorem pdFacOdd_flatten (j : Nat) : ((pdFacOdd j).1 ++ [(pdFacOdd j).2 ++ [98]]).flatten = iter pdMor (2 * j + 1) [97] := by
  induction j with
  | zero => rfl
  | succ j ih =>
    have h := pd_step (2 * j + 1)
    rw [← ih, ← flatten_map_flatMap, List.map_append, List.flatten_append] at h
    rw [show 2 * (j + 1) + 1 = 2 * j + 1 + 2 by ring]
    apply List.append_cancel_right (bs := [97, 98])
    rw [h, pdFacOdd]
    simp [pdLyn]

theorem pdFacOdd_lyn (j : Nat) : (∀ f ∈ (pdFacOdd j).1, ALyn f) ∧ ALyn ((pdFacOdd j).2 ++ [98]) ∧ (pdFacOdd j).2 ≠ [] := by
  induction j with
  | zero => exact ⟨by simp [pdFacOdd], ab_lyn, by simp [pdFacOdd]⟩
  | succ j ih =>
    obtain ⟨h1, h2, h3⟩ := ih
    refine ⟨?_, ?_, by simp [pdFacOdd]⟩
    · intro f hf
      simp only [pdFacOdd, List.mem_cons, List.mem_map] at hf
      rcases hf with rfl | ⟨g, hg, rfl⟩
      · exact ab_lyn
      · exact (h1 g hg).pd
    · simpa [pdFacOdd] using (pd_cut h2 h3).1

theorem pdFacOdd_pairwise (j : Nat) : ((pdFacOdd j).1 ++ [(pdFacOdd j).2 ++ [98]]).Pairwise (fun f g => g ≤ f) := by
  induction j with
  | zero => simp [pdFacOdd]
  | succ j ih =>
    obtain ⟨h1, h2, h3⟩ := pdFacOdd_lyn j
    have e : (pdFacOdd j).2.flatMap pdLyn ++ [97] ++ [98] <+: ((pdFacOdd j).2 ++ [98]).flatMap pdLyn :=
      ⟨[97, 98], by simp [pdLyn]⟩
    rw [pdFacOdd, List.cons_append, List.pairwise_cons]
    refine ⟨?_, ?_⟩
    · intro f hf
      rcases List.mem_append.1 hf with hf | hf
      · obtain ⟨g, hg, rfl⟩ := List.mem_map.1 hf
        exact ab_ge (h1 g hg).pd_prefix
      · simp only [List.mem_singleton] at hf
        subst hf
        refine ab_ge ((pd_cut h2 h3).2.trans ⟨[97] ++ [98], by simp⟩)
    · rw [List.pairwise_append] at ih ⊢
      refine ⟨pairwise_map_le ih.1 ?_, by simp, ?_⟩
      · intro x hx y hy hxy
        exact mor_le pdLyn_mono (h1 y hy).2.1 (h1 x hx).2.1 hxy
      · intro f hf g hg
        obtain ⟨x, hx, rfl⟩ := List.mem_map.1 hf
        simp only [List.mem_singleton] at hg
        subst hg
        exact (le_of_prefix e).trans (mor_le pdLyn_mono h2.2.1 (h1 x hx).2.1 (ih.2.2 x hx _ (by simp)))

theorem pd_factors_odd (j : Nat) : IsLyndonFactorization ((pdFacOdd j).1 ++ [(pdFacOdd j).2 ++ [98]]) (iter pdMor (2 * j + 1) [97]) := by
  obtain ⟨h1, h2, h3⟩ := pdFacOdd_lyn j
  refine ⟨pdFacOdd_flatten j, ?_, pdFacOdd_pairwise j⟩
  intro f hf
  rcases List.mem_append.1 hf with hf | hf
  · exact (h1 f hf).1
  · simp only [List.mem_singleton] at hf; subst hf; exact h2.1

/-! ### Thue–Morse words -/

/-- the image under the Thue–Morse morphism with the last letter (an `a` if the word ends with `b`) moved to the front -/
def nu (w : List UInt8) : List UInt8 := 97 :: (w.flatMap tmMor).dropLast

theorem nu_concat (w : List UInt8) : nu (w ++ [98]) = 97 :: (w.flatMap tmMor ++ [98]) := by
  have : (w ++ [98]).flatMap tmMor = (w.flatMap tmMor ++ [98]) ++ [97] := by simp [tmMor]
  rw [nu, this, List.dropLast_concat]

theorem ab_lt {x y : UInt8} (hx : x = 97 ∨ x = 98) (hy : y = 97 ∨ y = 98) (h : x < y) : x = 97 ∧ y = 98 := by
  rcases hx with rfl | rfl <;> rcases hy with rfl | rfl <;> first | exact absurd h (by decide) | exact ⟨rfl, rfl⟩

theorem nu_mis {u v : List UInt8} (hu : AB u) (hv : AB v) (h : Mis u v) : Mis (nu u) (nu v) := by
  obtain ⟨p, a, b, x, y, rfl, rfl, hab⟩ := h
  obtain ⟨rfl, rfl⟩ := ab_lt (hu a (by simp)) (hv b (by simp)) hab
  refine ⟨97 :: p.flatMap tmMor, 97, 98, (98 :: x.flatMap tmMor).dropLast, (97 :: y.flatMap tmMor).dropLast, ?_, ?_, hab⟩
  · have e : (p ++ 97 :: x).flatMap tmMor = (p.flatMap tmMor ++ [97]) ++ (98 :: x.flatMap tmMor) := by simp [tmMor]
    rw [nu, e, List.dropLast_append_of_ne_nil (by simp)]
    simp
  · have e : (p ++ 98 :: y).flatMap tmMor = (p.flatMap tmMor ++ [98]) ++ (97 :: y.flatMap tmMor) := by simp [tmMor]
    rw [nu, e, List.dropLast_append_of_ne_nil (by simp)]
    simp

theorem nu_le {u v : List UInt8} (hu : AB u) (hv : AB v) (h : u ≤ v) : nu u ≤ nu v := by
  rcases h.lt_or_eq with h | rfl
  · rcases lt_iff_mis.1 h with ⟨⟨x, rfl⟩, -⟩ | hm
    · refine le_of_prefix ?_
      rw [nu, nu, List.flatMap_append]
      by_cases hx : x.flatMap tmMor = []
      · rw [hx, List.append_nil]
      · rw [List.dropLast_append_of_ne_nil hx]
        refine (List.prefix_cons_inj 97).2 ((List.dropLast_prefix _).trans ⟨_, rfl⟩)
    · exact (nu_mis hu hv hm).lt.le
  · exact le_refl _

/-- Lyndon words over `a`, `b` with at least two letters -/
def BLyn (w : List UInt8) : Prop := IsLyndon w ∧ AB w ∧ ∃ r, w = 97 :: r ++ [98]

theorem AB.tm (w : List UInt8) : AB (w.flatMap tmMor) := by
  intro c hc
  obtain ⟨d, _, hd⟩ := List.mem_flatMap.1 hc
  unfold tmMor at hd
  split at hd <;> simp at hd <;> tauto

theorem BLyn.nu_start {w : List UInt8} (h : BLyn w) : [97, 97, 98] <+: nu w := by
  obtain ⟨-, -, r, rfl⟩ := h
  rw [nu_concat]
  exact ⟨r.flatMap tmMor ++ [98], by simp [tmMor]⟩

theorem BLyn.nu {w : List UInt8} (h : BLyn w) : BLyn (nu w) := by
  have hst := h.nu_start
  obtain ⟨h1, h2, r, rfl⟩ := h
  refine ⟨⟨by simp [Verif.nu], ?_⟩, ?_, (97 :: r).flatMap tmMor, by rw [nu_concat]; rfl⟩
  · intro u v hu hv e
    rcases u with _ | ⟨x, u⟩
    · exact absurd rfl hu
    have e0 := e
    rw [nu_concat, List.cons_append, List.cons.injEq] at e
    obtain ⟨rfl, e⟩ := e
    obtain ⟨z, hz⟩ := hst
    rw [List.append_eq_append_iff] at e
    have hb : ∀ y, Verif.nu (97 :: r ++ [98]) < 98 :: y := fun y => by
      rw [← hz]; exact Mis.lt ⟨[], 97, 98, [97, 98] ++ z, y, rfl, rfl, by decide⟩
    have hab : ∀ y, Verif.nu (97 :: r ++ [98]) < 97 :: 98 :: y := fun y => by
      rw [← hz]; exact Mis.lt ⟨[97], 97, 98, [98] ++ z, y, rfl, rfl, by decide⟩
    rcases e with ⟨t, e1, e2⟩ | ⟨t, e1, e2⟩
    · have hm : v = [98] ∨ v = [] := by
        match t, v, e2 with
        | [], v, e => simp at e; simp [← e]
        | [_], v, e => simp at e; simp [e.2]
        | _ :: _ :: _, v, e => simp at e
      rcases hm with rfl | rfl
      · exact hb _
      · exact absurd rfl hv
    · by_cases ht : t = []
      · subst ht
        rw [e2]; exact hb _
      obtain ⟨p, c, q, t', hw', ht', htc, hv'⟩ := suffix_flatMap ht ⟨u, e1.symm⟩
      obtain ⟨s, hs⟩ := htc
      have hcq : AB (c :: q) := by
        have h4 : AB (97 :: r) := h2.append.1
        rw [hw'] at h4
        exact h4.append.2
      rw [e2, hv']
      by_cases hs0 : s = []
      · subst hs0
        rw [List.nil_append] at hs
        rw [hs]
        rcases hcq c (by simp) with rfl | rfl
        · exact hab _
        · exact hb _
      · have hm := suffixes_of hs0 hs.symm
        rcases hcq c (by simp) with rfl | rfl
        · have : t' = [98] ∨ t' = [] := by simpa [tmMor] using hm
          rcases this with rfl | rfl
          · exact hb _
          · exact absurd rfl ht'
        · have : t' = [97] ∨ t' = [] := by simpa [tmMor] using hm
          rcases this with rfl | rfl
          · have hq : AB (q ++ [98]) := by
              intro d hd
              rcases List.mem_append.1 hd with hd | hd
              · exact hcq d (by simp [hd])
              · simp at hd; exact Or.inr hd
            have := nu_mis h2 hq (h1.mis (u := p ++ [98]) (v := q ++ [98]) (by simp) (by simp) (by rw [hw']; simp))
            have e3 : [97] ++ q.flatMap tmMor ++ [98] = Verif.nu (q ++ [98]) := by rw [nu_concat]; rfl
            rw [e3]
            exact this.lt
          · exact absurd rfl ht'
  · intro c hc
    rcases List.mem_cons.1 hc with rfl | hc
    · exact Or.inl rfl
    · exact AB.tm _ c (List.mem_of_mem_dropLast hc)

/-- the Lyndon factors of the Thue–Morse word of order `m + 2`, without the first one (`abb`) and the letter `a` at the end
of the words of even order -/
def tmFac : Nat → List (List UInt8)
  | 0 => []
  | m + 1 => [97, 98] :: (tmFac m).map nu ++ (if m % 2 = 0 then [[97, 97, 98]] else [])

theorem abB : BLyn [97, 98] := ⟨by decide +kernel, by simp [AB], [], rfl⟩
theorem aabB : BLyn [97, 97, 98] := ⟨by decide +kernel, by simp [AB], [97], rfl⟩
theorem abbB : BLyn [97, 98, 98] := ⟨by decide +kernel, by simp [AB], [98], rfl⟩

theorem tmFac_mem (m : Nat) : ∀ f ∈ tmFac m, BLyn f := by
  induction m with
  | zero => simp [tmFac]
  | succ m ih =>
    intro f hf
    simp only [tmFac, List.cons_append, List.mem_cons, List.mem_append, List.mem_map] at hf
    rcases hf with rfl | ⟨g, hg, rfl⟩ | hf
    · exact abB
    · exact (ih g hg).nu
    · split at hf
      · simp at hf; subst hf; exact aabB
      · simp at hf

theorem tmFac_length (m : Nat) : (tmFac m).length = m + (m + 1) / 2 := by
  induction m with
  | zero => rfl
  | succ m ih =>
    rw [tmFac]
    split
    · simp [ih]; omega
    · simp [ih]; omega

theorem nu_flatten {l : List (List UInt8)} (h : ∀ f ∈ l, BLyn f) :
    (l.map nu).flatten ++ [97] = 97 :: l.flatten.flatMap tmMor := by
  induction l with
  | nil => rfl
  | cons x l ih =>
    obtain ⟨-, -, r, rfl⟩ := h x (by simp)
    rw [List.map_cons, List.flatten_cons, List.append_assoc, ih (fun f hf => h f (by simp [hf])), nu_concat,
      List.flatten_cons, List.flatMap_append, List.flatMap_append]
    simp [tmMor]

theorem tmFac_flatten (m : Nat) :
    ([97, 98, 98] :: tmFac m ++ (if m % 2 = 0 then [[97]] else [])).flatten = iter tmMor (m + 2) [97] := by
  induction m with
  | zero => rfl
  | succ m ih =>
    have h := nu_flatten (l := [97, 98, 98] :: tmFac m) (fun f hf => by
      rcases List.mem_cons.1 hf with rfl | hf
      · exact abbB
      · exact tmFac_mem m f hf)
    rw [show m + 1 + 2 = m + 2 + 1 by ring, iter, ← ih]
    apply List.cons_injective (a := 97)
    show 97 :: _ = 97 :: _
    have e2 : ∀ A B : List (List UInt8), (A ++ B).flatten.flatMap tmMor = A.flatten.flatMap tmMor ++ B.flatten.flatMap tmMor :=
      fun A B => by rw [List.flatten_append, List.flatMap_append]
    rw [e2, ← List.cons_append (bs := List.flatMap tmMor _), ← h, tmFac]
    have e : nu [97, 98, 98] = 97 :: ([97, 98, 98] ++ [97, 98]) := by decide
    rw [List.map_cons, e]
    by_cases hm : m % 2 = 0
    · simp [hm, show (m + 1) % 2 = 1 by omega, tmMor]
    · simp [hm, show (m + 1) % 2 = 0 by omega, tmMor]

theorem tmFac_pairwise (m : Nat) : (tmFac m).Pairwise (fun f g => g ≤ f) := by
  induction m with
  | zero => simp [tmFac]
  | succ m ih =>
    rw [tmFac, List.cons_append, List.pairwise_cons]
    have hm : ∀ f ∈ (tmFac m).map nu, [97, 97, 98] <+: f := by
      intro f hf
      obtain ⟨g, hg, rfl⟩ := List.mem_map.1 hf
      exact (tmFac_mem m g hg).nu_start
    have hl : ∀ f ∈ (if m % 2 = 0 then [[97, 97, 98]] else []), f = ([97, 97, 98] : List UInt8) := by
      intro f hf
      split at hf <;> simp at hf
      exact hf
    refine ⟨?_, ?_⟩
    · intro f hf
      have : [97, 97, 98] <+: f := by
        rcases List.mem_append.1 hf with hf | hf
        · exact hm f hf
        · rw [hl f hf]
      exact ab_ge ((show [(97 : UInt8), 97] <+: [97, 97, 98] from ⟨[98], rfl⟩).trans this)
    · rw [List.pairwise_append]
      refine ⟨pairwise_map_le ih ?_, by split <;> simp, ?_⟩
      · intro x hx y hy hxy
        exact nu_le (tmFac_mem m y hy).2.1 (tmFac_mem m x hx).2.1 hxy
      · intro f hf g hg
        rw [hl g hg]
        exact le_of_prefix (hm f hf)

theorem tm_factors (m : Nat) :
    IsLyndonFactorization ([97, 98, 98] :: tmFac m ++ (if m % 2 = 0 then [[97]] else [])) (iter tmMor (m + 2) [97]) := by
  have hall : ∀ f ∈ [97, 98, 98] :: tmFac m, BLyn f := by
    intro f hf
    rcases List.mem_cons.1 hf with rfl | hf
    · exact abbB
    · exact tmFac_mem m f hf
  have hp : ([97, 98, 98] :: tmFac m).Pairwise (fun f g => g ≤ f) := by
    rw [List.pairwise_cons]
    refine ⟨?_, tmFac_pairwise m⟩
    intro f hf
    refine le_trans ?_ (show ([97, 98] : List UInt8) ≤ [97, 98, 98] from le_of_prefix ⟨[98], rfl⟩)
    rcases m with _ | m
    · simp [tmFac] at hf
    · have hp := tmFac_pairwise (m + 1)
      rw [tmFac, List.cons_append] at hf hp
      rcases List.mem_cons.1 hf with rfl | hf
      · exact le_refl _
      · exact (List.pairwise_cons.1 hp).1 f hf
  rw [← tmFac_flatten]
  have hz : ∀ f ∈ [97, 98, 98] :: tmFac m, [97] <+: f := by
    intro f hf
    obtain ⟨-, -, r, rfl⟩ := hall f hf
    exact ⟨r ++ [98], rfl⟩
  split
  · exact fact_append (z := [97]) (n := 1) (fun f hf => (hall f hf).1) hp (isLyndon_singleton _) hz
  · exact fact_append (z := [97]) (n := 0) (fun f hf => (hall f hf).1) hp (isLyndon_singleton _) hz

/-! ### Paperfolding words over four letters -/

/-- two steps of the paperfolding morphism, shifted by `d`: `a -> acad, b -> acbd, c -> bcad, d -> bcbd` -/
def pfLyn (c : UInt8) : List UInt8 :=
  if c = 100 then [98, 99, 98, 100] else if c = 98 then [97, 99, 98, 100] else if c = 99 then [98, 99, 97, 100]
  else [97, 99, 97, 100]

/-- two steps of the paperfolding morphism -/
def pf2 (c : UInt8) : List UInt8 := (paperMor c).flatMap paperMor

def Q4 (c : UInt8) : Prop := c = 97 ∨ c = 98 ∨ c = 99 ∨ c = 100

theorem pf_conj (x : List UInt8) : 100 :: x.flatMap pfLyn = x.flatMap pf2 ++ [100] := by
  induction x with
  | nil => rfl
  | cons c x ih =>
    have hc : 100 :: pfLyn c = pf2 c ++ [100] := by
      unfold pfLyn pf2 paperMor
      split
      · rfl
      · split
        · rfl
        · split <;> rfl
    rw [List.flatMap_cons, List.flatMap_cons, ← List.cons_append, hc, List.append_assoc, List.append_assoc,
      List.singleton_append, ih]

theorem pf_step (k : Nat) : iter paperMor (k + 2) [100] ++ [100] = 100 :: (iter paperMor k [100]).flatMap pfLyn := by
  rw [pf_conj, iter, iter, List.flatMap_assoc]; rfl

theorem pfLyn_mono (x y : UInt8) (hx : Q4 x) (hy : Q4 y) (h : x < y) : Mis (pfLyn x) (pfLyn y) := by
  rcases hx with rfl | rfl | rfl | rfl <;> rcases hy with rfl | rfl | rfl | rfl <;> first | exact absurd h (by decide) | skip
  · exact ⟨[97, 99], 97, 98, [100], [100], rfl, rfl, by decide⟩
  · exact ⟨[], 97, 98, [99, 97, 100], [99, 97, 100], rfl, rfl, by decide⟩
  · exact ⟨[], 97, 98, [99, 97, 100], [99, 98, 100], rfl, rfl, by decide⟩
  · exact ⟨[], 97, 98, [99, 98, 100], [99, 97, 100], rfl, rfl, by decide⟩
  · exact ⟨[], 97, 98, [99, 98, 100], [99, 98, 100], rfl, rfl, by decide⟩
  · exact ⟨[98, 99], 97, 98, [100], [100], rfl, rfl, by decide⟩

theorem pf2_mono (x y : UInt8) (hx : Q4 x) (hy : Q4 y) (h : x < y) : Mis (pf2 x) (pf2 y) := by
  rcases hx with rfl | rfl | rfl | rfl <;> rcases hy with rfl | rfl | rfl | rfl <;> first | exact absurd h (by decide) | skip
  · exact ⟨[100, 97, 99], 97, 98, [], [], rfl, rfl, by decide⟩
  · exact ⟨[100], 97, 98, [99, 97], [99, 97], rfl, rfl, by decide⟩
  · exact ⟨[100], 97, 98, [99, 97], [99, 98], rfl, rfl, by decide⟩
  · exact ⟨[100], 97, 98, [99, 98], [99, 97], rfl, rfl, by decide⟩
  · exact ⟨[100], 97, 98, [99, 98], [99, 98], rfl, rfl, by decide⟩
  · exact ⟨[100, 98, 99], 97, 98, [], [], rfl, rfl, by decide⟩

/-- `ac...` is smaller than a suffix of an image -/
theorem pfLyn_inside {c : UInt8} (hc : Q4 c) {s t : List UInt8} (hs : s ≠ []) (e : pfLyn c = s ++ t) :
    t = [] ∨ t = [100] ∨ (∃ y, t = [y, 100] ∧ (y = 97 ∨ y = 98) ∧ (c = 98 → y = 98)) ∨ ∃ y, t = [99, y, 100] := by
  have hm := suffixes_of hs e
  rcases hc with rfl | rfl | rfl | rfl
  · have : t = [99, 97, 100] ∨ t = [97, 100] ∨ t = [100] ∨ t = [] := by simpa [pfLyn] using hm
    rcases this with rfl | rfl | rfl | rfl <;> simp
  · have : t = [99, 98, 100] ∨ t = [98, 100] ∨ t = [100] ∨ t = [] := by simpa [pfLyn] using hm
    rcases this with rfl | rfl | rfl | rfl <;> simp
  · have : t = [99, 97, 100] ∨ t = [97, 100] ∨ t = [100] ∨ t = [] := by simpa [pfLyn] using hm
    rcases this with rfl | rfl | rfl | rfl <;> simp
  · have : t = [99, 98, 100] ∨ t = [98, 100] ∨ t = [100] ∨ t = [] := by simpa [pfLyn] using hm
    rcases this with rfl | rfl | rfl | rfl <;> simp

/-- Lyndon words over four letters that start with `a` or `b` -/
def QLyn (w : List UInt8) : Prop := IsLyndon w ∧ (∀ c ∈ w, Q4 c) ∧ ∃ x r, w = x :: r ∧ (x = 97 ∨ x = 98)

theorem pf_letters (w : List UInt8) : ∀ c ∈ w.flatMap pfLyn, Q4 c := by
  intro c hc
  obtain ⟨d, _, hd⟩ := List.mem_flatMap.1 hc
  unfold pfLyn at hd
  unfold Q4
  split at hd
  · simp at hd; tauto
  · split at hd
    · simp at hd; tauto
    · split at hd <;> simp at hd <;> tauto

theorem QLyn.pf_start {w : List UInt8} (h : QLyn w) : ∃ y z, w.flatMap pfLyn = 97 :: 99 :: y :: 100 :: z := by
  obtain ⟨-, -, x, r, rfl, rfl | rfl⟩ := h
  · exact ⟨97, r.flatMap pfLyn, rfl⟩
  · exact ⟨98, r.flatMap pfLyn, rfl⟩

theorem QLyn.pf {w : List UInt8} (h : QLyn w) : QLyn (w.flatMap pfLyn) := by
  obtain ⟨y, z, hz⟩ := h.pf_start
  obtain ⟨h1, h2, x, r, rfl, hx⟩ := h
  refine ⟨mor_lyndon pfLyn_mono h2 ?_ ?_ h1, pf_letters _, 97, 99 :: y :: 100 :: z, hz, Or.inl rfl⟩
  · rcases hx with rfl | rfl <;> decide
  · intro c hc s t hs ht e
    have hst : ∃ z', pfLyn x = 97 :: 99 :: z' := by
      rcases hx with rfl | rfl
      · exact ⟨[97, 100], rfl⟩
      · exact ⟨[98, 100], rfl⟩
    obtain ⟨z', hz'⟩ := hst
    rw [hz']
    rcases pfLyn_inside (h2 c hc) hs e with rfl | rfl | ⟨y, rfl, rfl | rfl, -⟩ | ⟨y, rfl⟩
    · exact absurd rfl ht
    · exact ⟨[], 97, 100, _, _, rfl, rfl, by decide⟩
    · exact ⟨[97], 99, 100, _, _, rfl, rfl, by decide⟩
    · exact ⟨[], 97, 98, _, _, rfl, rfl, by decide⟩
    · exact ⟨[], 97, 99, _, _, rfl, rfl, by decide⟩

/-- the image without its last letter -/
def pfCut (w : List UInt8) : List UInt8 := (w.flatMap pfLyn).dropLast

theorem pfLyn_ne (c : UInt8) : pfLyn c ≠ [] := by
  unfold pfLyn
  split
  · simp
  · split
    · simp
    · split <;> simp

theorem pf_img_ne {w : List UInt8} (h : w ≠ []) : w.flatMap pfLyn ≠ [] := by
  rcases w with _ | ⟨c, w⟩
  · exact absurd rfl h
  · rw [List.flatMap_cons]
    exact List.append_ne_nil_of_left_ne_nil (pfLyn_ne c) _

theorem pfCut_eq {w : List UInt8} (h : w ≠ []) : 100 :: pfCut w = w.flatMap pf2 := by
  have e := congrArg List.dropLast (pf_conj w)
  rw [List.dropLast_concat, List.dropLast_cons_of_ne_nil (pf_img_ne h)] at e
  exact e

theorem pfCut_concat {w : List UInt8} (h : w ≠ []) : pfCut w ++ [100] = w.flatMap pfLyn := by
  have e := pf_conj w
  rw [← pfCut_eq h, List.cons_append, List.cons.injEq] at e
  exact e.2.symm

theorem pfCut_mis {u v : List UInt8} (hu : u ≠ []) (hv : v ≠ []) (h1 : ∀ c ∈ u, Q4 c) (h2 : ∀ c ∈ v, Q4 c) (h : Mis u v) :
    Mis (pfCut u) (pfCut v) := by
  obtain ⟨p, x, y, s1, s2, rfl, rfl, hxy⟩ := h
  have : Mis ((p ++ x :: s1).flatMap pf2) ((p ++ y :: s2).flatMap pf2) := by
    rw [List.flatMap_append, List.flatMap_append, List.flatMap_cons, List.flatMap_cons]
    exact mis_append_left.2 ((pf2_mono x y (h1 _ (by simp)) (h2 _ (by simp)) hxy).append _ _)
  rw [← pfCut_eq hu, ← pfCut_eq hv] at this
  exact mis_append_left (p := [100]).1 this

/-- four-letter Lyndon words that start with `a` or `b` and end with `b` -/
def QBLyn (w : List UInt8) : Prop := QLyn w ∧ ∃ r, w = r ++ [98]

theorem QBLyn.cut {w : List UInt8} (h : QBLyn w) : QBLyn (pfCut w) := by
  obtain ⟨hq, r, hr⟩ := h
  have hne : w ≠ [] := hq.1.1
  obtain ⟨y, z, hz⟩ := hq.pf_start
  have hc := pfCut_concat hne
  have hst : ∃ z', pfCut w = 97 :: 99 :: y :: z' := by
    rw [hz] at hc
    match hp : pfCut w, hc with
    | [], hc => simp at hc
    | [_], hc => simp at hc
    | [_, _], hc => simp at hc
    | a :: b :: c :: z', hc =>
      simp at hc
      obtain ⟨rfl, rfl, rfl, -⟩ := hc
      exact ⟨z', rfl⟩
  obtain ⟨z', hz'⟩ := hst
  have hend : pfCut w = r.flatMap pfLyn ++ [97, 99] ++ [98] := by
    have : r.flatMap pfLyn ++ [97, 99] ++ [98] ++ [100] = w.flatMap pfLyn := by rw [hr]; simp [pfLyn]
    rw [← hc] at this
    exact (List.append_inj' this rfl).1.symm
  obtain ⟨h1, h2, x, r', hw, hx⟩ := hq
  refine ⟨⟨⟨by rw [hz']; simp, ?_⟩, fun c hc => pf_letters w c (List.mem_of_mem_dropLast hc), 97, 99 :: y :: z', hz', Or.inl rfl⟩,
    _, hend⟩
  intro u v hu hv e
  rw [e, List.append_assoc] at hc
  obtain ⟨p, c, q, t, hpc, ht, htc, hv'⟩ := suffix_flatMap (s := v ++ [100]) (by simp) ⟨u, hc⟩
  obtain ⟨s, hs⟩ := htc
  have hcq : ∀ d ∈ c :: q, Q4 d := fun d hd => h2 d (by rw [hpc]; exact List.mem_append_right _ hd)
  by_cases hs0 : s = []
  · subst hs0
    rw [List.nil_append] at hs
    have hvq : v = pfCut (c :: q) := by
      have : v ++ [100] = pfCut (c :: q) ++ [100] := by rw [pfCut_concat (by simp), hv', hs]; rfl
      exact (List.append_inj' this rfl).1
    have hp : p ≠ [] := by
      rintro rfl
      rw [List.nil_append] at hpc
      rw [hvq, ← hpc] at e
      have := congrArg List.length e
      rw [List.length_append] at this
      have := List.length_pos_iff.2 hu
      omega
    rw [hvq]
    exact (pfCut_mis hne (by simp) h2 hcq (h1.mis hp (by simp) hpc)).lt
  · have hc98 : q = [] → c = 98 := by
      rintro rfl
      rw [hr] at hpc
      have := (List.append_inj' hpc rfl).2
      simpa using this.symm
    have hvt : ∃ x, v = t.dropLast ++ x ∧ (q ≠ [] → ∃ y, v = t ++ y) := by
      by_cases hq : q = []
      · subst hq
        refine ⟨[], ?_, fun h => absurd rfl h⟩
        have := congrArg List.dropLast hv'
        simpa using this
      · have : v = t ++ pfCut q := by
          rw [← pfCut_concat hq, ← List.append_assoc] at hv'
          exact (List.append_inj' hv' rfl).1
        refine ⟨[t.getLast ht] ++ pfCut q, ?_, fun _ => ⟨_, this⟩⟩
        rw [← List.append_assoc, List.dropLast_append_getLast]; exact this
    obtain ⟨x', hx', hq'⟩ := hvt
    rw [hz']
    rcases pfLyn_inside (hcq c (by simp)) hs0 hs.symm with rfl | rfl | ⟨y, rfl, hy, hyc⟩ | ⟨y, rfl⟩
    · exact absurd rfl ht
    · by_cases hq : q = []
      · subst hq
        simp at hv'
        exact absurd hv' hv
      · obtain ⟨y', rfl⟩ := hq' hq
        exact Mis.lt ⟨[], 97, 100, _, _, rfl, rfl, by decide⟩
    · by_cases hq : q = []
      · rw [hyc (hc98 hq)] at hx'
        rw [hx']
        exact Mis.lt ⟨[], 97, 98, _, _, rfl, rfl, by decide⟩
      · obtain ⟨y', rfl⟩ := hq' hq
        rcases hy with rfl | rfl
        · exact Mis.lt ⟨[97], 99, 100, _, _, rfl, rfl, by decide⟩
        · exact Mis.lt ⟨[], 97, 98, _, _, rfl, rfl, by decide⟩
    · rw [hx']
      exact Mis.lt ⟨[], 97, 99, _, _, rfl, rfl, by decide⟩

/-- One step: the factors of a word between the first factor `d` and the last factor. -/
theorem pf_fact_step {k : Nat} {G : List (List UInt8)} {X : List UInt8}
    (hG : ∀ f ∈ G, QLyn f) (hX : QBLyn X) (hp : (G ++ [X]).Pairwise (fun f g => g ≤ f))
    (hf : ([100] :: G ++ [X]).flatten = iter paperMor k [100]) :
    let G' := [98, 99, 98, 100] :: G.map (fun w => w.flatMap pfLyn)
    (∀ f ∈ G', QLyn f) ∧ QBLyn (pfCut X) ∧ (G' ++ [pfCut X]).Pairwise (fun f g => g ≤ f) ∧
      ([100] :: G' ++ [pfCut X]).flatten = iter paperMor (k + 2) [100] := by
  intro G'
  have hXn : X ≠ [] := hX.1.1.1
  refine ⟨?_, hX.cut, ?_, ?_⟩
  · intro f hf
    rcases List.mem_cons.1 hf with rfl | hf
    · exact ⟨by decide +kernel, by simp [Q4], 98, _, rfl, Or.inr rfl⟩
    · obtain ⟨g, hg, rfl⟩ := List.mem_map.1 hf
      exact (hG g hg).pf
  · rw [show G' ++ [pfCut X] = [98, 99, 98, 100] :: (G.map (fun w => w.flatMap pfLyn) ++ [pfCut X]) from rfl,
      List.pairwise_cons]
    rw [List.pairwise_append] at hp ⊢
    have hcut : pfCut X ≤ X.flatMap pfLyn := le_of_prefix ⟨[100], pfCut_concat hXn⟩
    have hst : ∀ f, QLyn f → f.flatMap pfLyn ≤ [98, 99, 98, 100] := by
      intro f hf
      obtain ⟨y, z, hz⟩ := hf.pf_start
      rw [hz]
      exact (Mis.lt ⟨[], 97, 98, _, _, rfl, rfl, by decide⟩).le
    refine ⟨?_, pairwise_map_le hp.1 ?_, by simp, ?_⟩
    · intro f hf
      rcases List.mem_append.1 hf with hf | hf
      · obtain ⟨g, hg, rfl⟩ := List.mem_map.1 hf
        exact hst g (hG g hg)
      · simp only [List.mem_singleton] at hf
        subst hf
        exact hcut.trans (hst X hX.1)
    · intro x hx y hy hxy
      exact mor_le pfLyn_mono (hG y hy).2.1 (hG x hx).2.1 hxy
    · intro f hf g hg
      obtain ⟨x, hx, rfl⟩ := List.mem_map.1 hf
      simp only [List.mem_singleton] at hg
      subst hg
      exact hcut.trans (mor_le pfLyn_mono hX.1.2.1 (hG x hx).2.1 (hp.2.2 x hx X (by simp)))
  · apply List.append_cancel_right (bs := [100])
    rw [pf_step, ← hf, ← flatten_map_flatMap]
    simp [G', pfLyn, ← pfCut_concat hXn]

theorem pf_factors_aux (k : Nat) : ∃ G X, G.length = (k + 1) / 2 ∧ (∀ f ∈ G, QLyn f) ∧ QBLyn X ∧
    (G ++ [X]).Pairwise (fun f g => g ≤ f) ∧ ([100] :: G ++ [X]).flatten = iter paperMor (k + 1) [100] := by
  have hb : QBLyn [98] := ⟨⟨isLyndon_singleton _, by simp [Q4], 98, [], rfl, Or.inr rfl⟩, [], rfl⟩
  induction k using Nat.strong_induction_on with
  | _ k ih =>
    match k with
    | 0 => exact ⟨[], [98], rfl, by simp, hb, by simp, by decide⟩
    | 1 =>
      refine ⟨[[98, 99]], [98], rfl, ?_, hb, ?_, by decide⟩
      · simp only [List.mem_singleton, forall_eq]
        exact ⟨by decide +kernel, by simp [Q4], 98, _, rfl, Or.inr rfl⟩
      · simp
        exact le_of_prefix ⟨[99], rfl⟩
    | k + 2 =>
      obtain ⟨G, X, h1, h2, h3, h4, h5⟩ := ih k (by omega)
      obtain ⟨g1, g2, g3, g4⟩ := pf_fact_step h2 h3 h4 h5
      exact ⟨_, _, by simp [h1]; omega, g1, g2, g3, g4⟩

theorem pf_factors (k : Nat) : ∃ fs, fs.length = (k + 1) / 2 + 2 ∧ IsLyndonFactorization fs (iter paperMor (k + 1) [100]) := by
  obtain ⟨G, X, h1, h2, h3, h4, h5⟩ := pf_factors_aux k
  have hall : ∀ f ∈ G ++ [X], QLyn f := by
    intro f hf
    rcases List.mem_append.1 hf with hf | hf
    · exact h2 f hf
    · simp only [List.mem_singleton] at hf; subst hf; exact h3.1
  refine ⟨[100] :: (G ++ [X]), by simp [h1], h5, ?_, ?_⟩
  · intro f hf
    rcases List.mem_cons.1 hf with rfl | hf
    · exact isLyndon_singleton _
    · exact (hall f hf).1
  · rw [List.pairwise_cons]
    refine ⟨?_, h4⟩
    intro f hf
    obtain ⟨-, -, x, r, rfl, rfl | rfl⟩ := hall f hf
    · exact (Mis.lt ⟨[], 97, 100, _, _, rfl, rfl, by decide⟩).le
    · exact (Mis.lt ⟨[], 98, 100, _, _, rfl, rfl, by decide⟩).le

end Verif
