import Verif.Lemmas.SmallAttractor
import Verif.Lemmas.BwtLaws
import Verif.Props.Attractor

/-! # C120: laws of the sets of positions `is_attractor` accepts

`Accepts sufsort T P`: `is_attractor` returns `true` for the text `T` with its sentinel and the positions `P`. -/

namespace Verif.Props

open Verif Spec Model

/-- `is_attractor` accepts the positions `P` for the text `T`. -/
def Accepts (sufsort : List UInt8 → List Nat) (T : List UInt8) (P : List Nat) : Prop :=
  isAttractor sufsort (T ++ [0]) P = .ok true

/-- The texts in question: non-empty, without zero bytes, not too long for the suffix sorter. -/
def Plain (T : List UInt8) : Prop := T ≠ [] ∧ (∀ x ∈ T, x ≠ 0) ∧ T.length < 2147483647

theorem accepts_iff {sufsort : List UInt8 → List Nat} (hs : SortsSuffixes sufsort) {T : List UInt8} (hT : Plain T) {P : List Nat}
    (hP : ∀ p ∈ P, p < T.length + 1) : Accepts sufsort T P ↔ IsAttractor T P :=
  (C25_attractor_exact sufsort hs T hT.1 hT.2.1 hT.2.2 P hP).1

/-- C120: adding positions keeps a set accepted; the order and the multiplicity of the positions do not matter, and neither
does the position of the sentinel. -/
theorem C120_monotone (sufsort : List UInt8 → List Nat) (hs : SortsSuffixes sufsort) (T : List UInt8) (hT : Plain T) (P Q : List Nat)
    (hQ : ∀ p ∈ Q, p < T.length + 1) (hPr : ∀ p ∈ P, p < T.length + 1) (hPQ : ∀ p ∈ P, p ≠ T.length → p ∈ Q)
    (h : Accepts sufsort T P) : Accepts sufsort T Q := by
  rw [accepts_iff hs hT hPr] at h
  rw [accepts_iff hs hT hQ]
  exact attractor_mono h fun p hp hl => hPQ p hp (by omega)

example := C120_monotone naiveSufsort naiveSufsort_sorts [97, 98, 97] ⟨by decide, by decide, by decide⟩ [0, 1] [2, 1, 1, 0] (by decide)
  (by decide) (by decide) (by unfold Accepts; decide +kernel)

/-- C120: renaming the letters one-to-one does not change what is accepted. -/
theorem C120_rename (sufsort : List UInt8 → List Nat) (hs : SortsSuffixes sufsort) (T : List UInt8) (hT : Plain T) (P : List Nat)
    (hP : ∀ p ∈ P, p < T.length + 1) (f : UInt8 → UInt8) (hf : ∀ x ∈ T, ∀ y ∈ T, f x = f y → x = y) (hf0 : ∀ x ∈ T, f x ≠ 0) :
    Accepts sufsort (T.map f) P ↔ Accepts sufsort T P := by
  rw [accepts_iff hs hT hP, accepts_iff hs ⟨by simpa using hT.1, by simpa using hf0, by simpa using hT.2.2⟩ (by simpa using hP)]
  have occ : ∀ (v : List UInt8) (j : Nat), v <:+: T → (OccursAt (v.map f) (T.map f) j ↔ OccursAt v T j) := by
    intro v j hv
    unfold OccursAt
    rw [List.length_map, List.length_map, ← List.map_drop, List.prefix_iff_eq_take, List.prefix_iff_eq_take, List.length_map,
      ← List.map_take]
    refine and_congr_right fun hjl => ⟨fun h => ?_, fun h => by rw [← h]⟩
    have hsub : ∀ x ∈ (T.drop j).take v.length, x ∈ T := fun x hx => List.mem_of_mem_drop (List.mem_of_mem_take hx)
    have hsub' : ∀ x ∈ v, x ∈ T := fun x hx => hv.subset hx
    generalize (T.drop j).take v.length = u at h hsub
    clear hv hjl
    induction v generalizing u with
    | nil => cases u <;> simp_all
    | cons a v ih =>
      cases u with
      | nil => simp at h
      | cons b u =>
        simp only [List.map_cons, List.cons.injEq] at h
        rw [hf a (hsub' a (by simp)) b (hsub b (by simp)) h.1,
          ih (fun x hx => hsub' x (by simp [hx])) u h.2 fun x hx => hsub x (by simp [hx])]
  constructor
  · intro h v hv hi
    obtain ⟨j, h1, p, hp, h2⟩ := h (v.map f) (by simpa using hv) (by obtain ⟨a, b, rfl⟩ := hi; exact ⟨a.map f, b.map f, by simp⟩)
    exact ⟨j, (occ v j hi).1 h1, p, hp, by simpa using h2⟩
  · intro h v hv hi
    obtain ⟨v', rfl, hi'⟩ : ∃ v', v = v'.map f ∧ v' <:+: T := by
      obtain ⟨i, h1, h2⟩ := infix_slice hi
      rw [List.length_map] at h1
      have h3 := (occursAt_of (by rw [List.length_map]; exact h1) h2).2
      rw [List.prefix_iff_eq_take, ← List.map_drop, ← List.map_take] at h3
      exact ⟨_, h3, (List.take_prefix _ _).isInfix.trans (List.drop_suffix _ _).isInfix⟩
    obtain ⟨j, h1, p, hp, h2⟩ := h v' (by simpa using hv) hi'
    exact ⟨j, (occ v' j hi').2 h1, p, hp, by simpa using h2⟩

example := C120_rename naiveSufsort naiveSufsort_sorts [97, 98, 97] ⟨by decide, by decide, by decide⟩ [0, 1] (by decide)
  (fun c => 255 - c) (by decide) (by decide)

/-- C120: positions are accepted for a text exactly if the mirrored positions are accepted for the reversed text. -/
theorem C120_reverse (sufsort : List UInt8 → List Nat) (hs : SortsSuffixes sufsort) (T : List UInt8) (hT : Plain T) (P : List Nat)
    (hP : ∀ p ∈ P, p < T.length) :
    Accepts sufsort T.reverse (P.map fun p => T.length - 1 - p) ↔ Accepts sufsort T P := by
  rw [accepts_iff hs hT fun p hp => by have := hP p hp; omega, accepts_iff hs ⟨by simpa using hT.1, by simpa using hT.2.1, by simpa using hT.2.2⟩ (by
    intro p hp
    obtain ⟨q, hq, rfl⟩ := List.mem_map.1 hp
    rw [List.length_reverse]
    omega)]
  have key : ∀ (S : List UInt8) (Q : List Nat), (∀ q ∈ Q, q < S.length) → IsAttractor S Q →
      IsAttractor S.reverse (Q.map fun p => S.length - 1 - p) := by
    intro S Q hQ h v hv hi
    obtain ⟨j, h1, p, hp, h2, h3⟩ := h v.reverse (by simpa using hv) (by
      rw [← List.reverse_reverse S]; exact List.reverse_infix.2 hi)
    have hl := h1.1
    have := hQ p hp
    rw [List.length_reverse] at hl h3
    refine ⟨S.length - (j + v.length), ?_, S.length - 1 - p, List.mem_map.2 ⟨p, hp, rfl⟩, by omega, by omega⟩
    have h4 : v.reverse = (S.drop j).take v.length := by
      have := List.prefix_iff_eq_take.1 h1.2
      rwa [List.length_reverse] at this
    refine occursAt_of (by rw [List.length_reverse]; omega) fun d hd => ?_
    have h5 : v = ((S.drop j).take v.length).reverse := by rw [← h4, List.reverse_reverse]
    have hlen : ((S.drop j).take v.length).length = v.length := by rw [← h4, List.length_reverse]
    conv_lhs => rw [h5]
    rw [List.getElem?_reverse (by omega), hlen, List.getElem?_take_of_lt (by omega), List.getElem?_drop,
      List.getElem?_reverse (by omega)]
    congr 1; omega
  constructor
  · intro h
    have h1 := key T.reverse _ (by
      intro q hq
      obtain ⟨p, hp, rfl⟩ := List.mem_map.1 hq
      have := hP p hp
      rw [List.length_reverse]; omega) h
    rw [List.reverse_reverse, List.map_map, List.length_reverse] at h1
    have e : P.map ((fun p => T.length - 1 - p) ∘ fun p => T.length - 1 - p) = P := by
      conv_rhs => rw [← List.map_id P]
      refine List.map_congr_left fun p hp => ?_
      have := hP p hp
      simp only [Function.comp, id]; omega
    rwa [e] at h1
  · exact key T P hP

example := C120_reverse naiveSufsort naiveSufsort_sorts [97, 98, 98] ⟨by decide, by decide, by decide⟩ [0, 1] (by decide)

/-- C120, concatenation: accepted positions of both parts, and the last position of the first part, are accepted for the
concatenation. -/
theorem C120_append (sufsort : List UInt8 → List Nat) (hs : SortsSuffixes sufsort) (u v : List UInt8) (hu : Plain u) (hv : Plain v)
    (hlen : (u ++ v).length < 2147483647) (P Q : List Nat) (hP : ∀ p ∈ P, p < u.length) (hQ : ∀ q ∈ Q, q < v.length)
    (h1 : Accepts sufsort u P) (h2 : Accepts sufsort v Q) :
    Accepts sufsort (u ++ v) (P ++ (u.length - 1) :: Q.map (u.length + ·)) := by
  rw [accepts_iff hs hu fun p hp => by have := hP p hp; omega] at h1
  rw [accepts_iff hs hv fun p hp => by have := hQ p hp; omega] at h2
  have hu0 := List.length_pos_iff.2 hu.1
  rw [accepts_iff hs]
  · intro x hx hi
    rcases infix_append hi with h | h | ⟨j, h3, h4, h5⟩
    · obtain ⟨j, g1, p, hp, g2⟩ := h1 x hx h
      exact ⟨j, occursAt_prefix g1 (List.prefix_append _ _), p, by simp [hp], g2⟩
    · obtain ⟨j, g1, p, hp, g2, g3⟩ := h2 x hx h
      refine ⟨u.length + j, ⟨by rw [List.length_append]; have := g1.1; omega, ?_⟩, u.length + p, by simp [hp], by omega, by omega⟩
      rw [List.drop_length_add_append]
      exact g1.2
    · exact ⟨j, h3, u.length - 1, by simp, by omega, by omega⟩
  · exact ⟨by simp [hu.1], fun x hx => (List.mem_append.1 hx).elim (hu.2.1 x) (hv.2.1 x), hlen⟩
  · intro p hp
    rw [List.length_append]
    simp only [List.mem_append, List.mem_cons, List.mem_map] at hp
    rcases hp with hp | rfl | ⟨q, hq, rfl⟩
    · have := hP p hp; omega
    · omega
    · have := hQ q hq; omega

example := C120_append naiveSufsort naiveSufsort_sorts [97, 98] [99, 99] ⟨by decide, by decide, by decide⟩
  ⟨by decide, by decide, by decide⟩ (by decide) [0, 1] [0] (by decide) (by decide) (by unfold Accepts; decide +kernel)
  (by unfold Accepts; decide +kernel)

/-- C120, repetition: for a text repeated any number of times, one more position is enough: the last one of its first copy. -/
theorem C120_power (sufsort : List UInt8 → List Nat) (hs : SortsSuffixes sufsort) (w : List UInt8) (hw : Plain w) (k : Nat)
    (hk : 0 < k) (hlen : k * w.length < 2147483647) (P : List Nat) (hP : ∀ p ∈ P, p < w.length) (h : Accepts sufsort w P) :
    Accepts sufsort (List.replicate k w).flatten (P ++ [w.length - 1]) := by
  rw [accepts_iff hs hw fun p hp => by have := hP p hp; omega] at h
  have hw0 := List.length_pos_iff.2 hw.1
  have e : (List.replicate k w).flatten = pw k w := rfl
  have hk' : w.length ≤ k * w.length := Nat.le_mul_of_pos_left _ hk
  rw [e, accepts_iff hs]
  · obtain ⟨m, rfl⟩ := Nat.exists_eq_succ_of_ne_zero hk.ne'
    clear hlen e hk hk'
    induction m with
    | zero =>
      rw [pw_succ, pw_zero, List.append_nil]
      exact attractor_mono h fun p hp _ => by simp [hp]
    | succ m ih =>
      intro v hv hi
      have hv0 := List.length_pos_iff.2 hv
      have epre : pw (m + 1).succ w = pw m.succ w ++ w := by
        rw [Nat.succ_eq_add_one, pw_add, pw_succ 0, pw_zero, List.append_nil]
      have inner : v <:+: pw m.succ w → ∃ j, OccursAt v (pw (m + 1).succ w) j ∧ ∃ p ∈ P ++ [w.length - 1], j ≤ p ∧ p < j + v.length := by
        intro hi
        obtain ⟨j, h1, h2⟩ := ih v hv hi
        exact ⟨j, occursAt_prefix h1 (by rw [epre]; exact List.prefix_append _ _), h2⟩
      have hi' := hi
      rw [Nat.succ_eq_add_one, pw_succ] at hi'
      rcases infix_append hi' with h' | h' | ⟨j, h3, h4, h5⟩
      · exact inner (h'.trans (by rw [Nat.succ_eq_add_one, pw_succ]; exact (List.prefix_append _ _).isInfix))
      · exact inner h'
      · exact ⟨j, by rw [Nat.succ_eq_add_one, pw_succ]; exact h3, w.length - 1, by simp, by omega, by omega⟩
  · refine ⟨by rw [← List.length_pos_iff, pw_length]; omega, fun x hx => ?_, by rw [pw_length]; exact hlen⟩
    obtain ⟨l, hl, hxl⟩ := List.mem_flatten.1 hx
    rw [List.eq_of_mem_replicate hl] at hxl
    exact hw.2.1 x hxl
  · intro p hp
    rw [pw_length]
    rcases List.mem_append.1 hp with hp | hp
    · have := hP p hp; omega
    · rw [List.mem_singleton] at hp; omega

example := C120_power naiveSufsort naiveSufsort_sorts [97, 98] ⟨by decide, by decide, by decide⟩ 4 (by decide) (by decide) [0, 1]
  (by decide) (by unfold Accepts; decide +kernel)

end Verif.Props
