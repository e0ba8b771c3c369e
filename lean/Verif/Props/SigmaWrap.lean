import Verif.Props.Streams
import Verif.Props.Necklace

/-! # C29 and C49: the exact behaviour outside the range where the claims hold -/

namespace Verif.Props

open Verif Spec Model

theorem sigma_rest {m : Build} (y : List UInt8) (inc : UInt8) {tbl : List UInt8}
    (h : ∀ d : UInt8, ∃ v, tbl[d.toNat]? = some v ∧ v ≠ 0) : forEach y (inc, tbl) (sigmaStep m) = .ok (inc, tbl) := by
  induction y with
  | nil => rfl
  | cons d y ih =>
    obtain ⟨v, hv, h0⟩ := h d
    rw [forEach_cons]
    have : sigmaStep m d (inc, tbl) = .ok (inc, tbl) := by
      simp only [sigmaStep]
      rw [rd_some hv, ok_bind, if_neg h0, pure_ok]
    rw [this, ok_bind, ih]

theorem sigma_wrap {m : Build} (y : List UInt8) (c : UInt8) {tbl : List UInt8}
    (hc : tbl[c.toNat]? = some 0) (h : ∀ d : UInt8, d ≠ c → ∃ v, tbl[d.toNat]? = some v ∧ v ≠ 0) :
    ∃ tbl', forEach y (0, tbl) (sigmaStep m) = .ok (if c ∈ y then 1 else 0, tbl') := by
  induction y with
  | nil => exact ⟨tbl, by simp [forEach_nil]⟩
  | cons d y ih =>
    rw [forEach_cons]
    by_cases hd : d = c
    · subst hd
      have hlt : d.toNat < tbl.length := by
        by_contra hn
        rw [List.getElem?_eq_none (by omega)] at hc
        cases hc
      have : sigmaStep m d (0, tbl) = .ok (1, tbl.set d.toNat 1) := by
        simp only [sigmaStep]
        rw [rd_some hc, ok_bind, if_pos rfl, incU8_ok (by decide), ok_bind, wr_ok hlt, ok_bind, pure_ok]
        rfl
      rw [this, ok_bind, sigma_rest y 1 (tbl := tbl.set d.toNat 1)]
      · exact ⟨tbl.set d.toNat 1, by simp⟩
      · intro e
        by_cases he : e = d
        · subst he
          exact ⟨1, by rw [List.getElem?_set, if_pos rfl, if_pos hlt], by decide⟩
        · obtain ⟨v, hv, h0⟩ := h e he
          exact ⟨v, by rw [List.getElem?_set_ne (fun h => he (UInt8.toNat.inj h.symm)), hv], h0⟩
    · obtain ⟨v, hv, h0⟩ := h d hd
      have : sigmaStep m d (0, tbl) = .ok (0, tbl) := by
        simp only [sigmaStep]
        rw [rd_some hv, ok_bind, if_neg h0, pure_ok]
      rw [this, ok_bind]
      obtain ⟨t', ht⟩ := ih
      refine ⟨t', ?_⟩
      rw [ht]
      simp [Ne.symm hd]

theorem allBytes_card : allBytes.toFinset.card = 256 := by
  have hn : allBytes.Nodup := by
    refine List.Nodup.map_on ?_ List.nodup_range
    intro x hx y hy h
    rw [List.mem_range] at hx hy
    have := congrArg UInt8.toNat h
    rwa [UInt8.toNat_ofNat', UInt8.toNat_ofNat', Nat.mod_eq_of_lt hx, Nat.mod_eq_of_lt hy] at this
  rw [List.toFinset_card_of_nodup hn, allBytes, List.length_map, List.length_range]

theorem mem_allBytes (d : UInt8) : d ∈ allBytes.toFinset := by
  rw [List.mem_toFinset, allBytes, List.mem_map]
  exact ⟨d.toNat, List.mem_range.2 d.toNat_lt, by simp⟩

/-- C29, the release build on texts with all 256 byte values: let `c` be the byte whose first occurrence is the last
one among all bytes; the result is 1 if `c` occurs again, and 0 if not. -/
theorem C29_release_partial (x y : List UInt8) (c : UInt8) (hx : ∀ d, d ≠ c → d ∈ x) (hc : c ∉ x) :
    countSigma .wrapping (x ++ c :: y) = .ok (if c ∈ y then 1 else 0) := by
  have hcard : x.toFinset.card = 255 := by
    have : x.toFinset = allBytes.toFinset.erase c := by
      ext d
      rw [List.mem_toFinset, Finset.mem_erase]
      exact ⟨fun h => ⟨fun e => hc (e ▸ h), mem_allBytes d⟩, fun h => hx d h.1⟩
    rw [this, Finset.card_erase_of_mem (mem_allBytes c), allBytes_card]
  obtain ⟨⟨inc, tbl⟩, g1, g2, g3, g4⟩ := sigmaLoop_ok .wrapping x (by omega)
  have e : countSigma .wrapping (x ++ c :: y) =
    (forEach (x ++ c :: y) ((0 : UInt8), List.replicate 256 (0 : UInt8)) (sigmaStep .wrapping) >>=
      fun s => pure s.1) := rfl
  obtain ⟨v, hv, hv0⟩ := g4 c
  dsimp only at hv g2 g3
  have hlt : c.toNat < tbl.length := by rw [g3]; exact c.toNat_lt
  have hstep : sigmaStep .wrapping c (inc, tbl) = .ok (0, tbl.set c.toNat 0) := by
    simp only [sigmaStep]
    have hi : incU8 .wrapping inc = .ok 0 := by
      rw [incU8, if_neg (by omega)]
    rw [rd_some hv, ok_bind, if_pos (hv0.2 hc), hi, ok_bind, wr_ok hlt, ok_bind, pure_ok]
  rw [e, forEach_append, g1, ok_bind, forEach_cons, hstep, ok_bind]
  obtain ⟨t', ht⟩ := sigma_wrap (m := .wrapping) y c (tbl := tbl.set c.toNat 0)
    (by rw [List.getElem?_set, if_pos rfl, if_pos hlt])
    (by
      intro d hd
      obtain ⟨w, hw, hw0⟩ := g4 d
      refine ⟨w, by rw [List.getElem?_set_ne (fun h => hd (UInt8.toNat.inj h.symm))]; exact hw, fun h0 => ?_⟩
      exact hw0.1 h0 (hx d hd))
  rw [ht, ok_bind, pure_ok]

/-- Every text with all byte values has the form of `C29_release_partial`. -/
theorem C29_release_covers (text : List UInt8) (h : text.toFinset.card = 256) :
    ∃ x c y, text = x ++ c :: y ∧ (∀ d, d ≠ c → d ∈ x) ∧ c ∉ x := by
  obtain ⟨x, c, y, e, h1, h2⟩ := last_new 255 text h
  refine ⟨x, c, y, e, fun d hd => ?_, h2⟩
  have : insert c x.toFinset = allBytes.toFinset := by
    apply Finset.eq_of_subset_of_card_le (fun d _ => mem_allBytes d)
    rw [Finset.card_insert_of_notMem (by simpa using h2), h1, allBytes_card]
  have hm := mem_allBytes d
  rw [← this, Finset.mem_insert, List.mem_toFinset] at hm
  exact hm.resolve_left hd

/-- The two cases occur: all bytes once, and all bytes twice. -/
example : ∃ x c, (∀ d : UInt8, d ≠ c → d ∈ x) ∧ c ∉ x ∧ countSigma .wrapping (x ++ [c]) = .ok 0 ∧
    countSigma .wrapping (x ++ [c, c]) = .ok 1 := by
  obtain ⟨x, c, y, _, h1, h2⟩ := C29_release_covers allBytes allBytes_card
  exact ⟨x, c, h1, h2, C29_release_partial x [] c h1 h2, by simpa using C29_release_partial x [c] c h1 h2⟩

/-- Beyond the range of `C49_power2_partial` the function panics. -/
theorem C49_limit (k : Nat) (hk : 63 ≤ k) : power2Sequence k = .error .alloc ∨ power2Sequence k = .error .arith := by
  unfold power2Sequence
  by_cases h : k < 64
  · left
    have : k = 63 := by omega
    subst this
    rfl
  · right
    rw [shl1, if_neg h]; rfl

example := C49_limit 63 (by decide)

end Verif.Props
