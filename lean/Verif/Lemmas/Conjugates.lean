import Verif.Lemmas.LyndonMore
import Verif.Lemmas.Period
import Verif.Props.Probe

/-! # Primitive words are the rotations of Lyndon words -/

namespace Verif

open Spec Model

section
variable {α : Type} [LinearOrder α]

theorem lyndon_lt_rot {w : List α} (hw : IsLyndon w) {d : Nat} (h0 : 0 < d) (h1 : d < w.length) : w < rot d w := by
  have hl := (isLyndon_iff_drop.1 hw).2 d h1 h0
  have := (mis_of_lt_of_length_le hl (by simp)).append [] (w.take d)
  rw [List.append_nil] at this
  exact this.lt

theorem lyndon_le_rot {w : List α} (hw : IsLyndon w) {d : Nat} (h1 : d < w.length) : w ≤ rot d w := by
  rcases Nat.eq_zero_or_pos d with rfl | h0
  · rw [rot_zero]
  · exact (lyndon_lt_rot hw h0 h1).le

theorem power_rot (x : List α) (m : Nat) : power x m ++ x = power x (m + 1) := by
  induction m with
  | zero => simp [power]
  | succ m ih => rw [power, List.append_assoc, ih]; rfl

theorem primitive_of_rot_ne {v : List α} (hv : v ≠ []) (h : ∀ d, 0 < d → d < v.length → rot d v ≠ v) :
    IsPrimitive v := by
  rintro ⟨x, k, hk, rfl⟩
  obtain ⟨m, rfl⟩ : ∃ m, k = m + 2 := ⟨k - 2, by omega⟩
  have hx : 0 < x.length := by
    rw [List.length_pos_iff]
    rintro rfl
    apply hv
    clear hv h hk
    induction m with
    | zero => rfl
    | succ m ih => rw [power, ih]; rfl
  refine h x.length hx ?_ ?_
  · simp only [power, List.length_append]; omega
  · rw [show power x (m + 2) = x ++ power x (m + 1) from rfl, rot_append, power_rot]; rfl

theorem rot_rot_sub {w : List α} {k : Nat} (hk : k < w.length) : rot (w.length - k) (rot k w) = w := by
  rw [rot_rot hk.le (by omega), show k + (w.length - k) = w.length by omega, Nat.mod_self, rot_zero]

theorem rot_lyndon_primitive {w : List α} (hw : IsLyndon w) {k : Nat} (hk : k < w.length) : IsPrimitive (rot k w) := by
  refine primitive_of_rot_ne (by rw [← List.length_pos_iff, rot_length]; omega) (fun d h0 h1 e => ?_)
  rw [rot_length] at h1
  have e' := congrArg (rot (w.length - k)) e
  have hm := Nat.mod_lt (k + d) (show 0 < w.length by omega)
  rw [rot_rot hk.le h1.le, rot_rot_sub hk, rot_rot hm.le (by omega), Nat.mod_add_mod,
    show k + d + (w.length - k) = d + w.length by omega, Nat.add_mod_right, Nat.mod_eq_of_lt h1] at e'
  exact absurd e' (ne_of_gt (lyndon_lt_rot hw h0 h1))

/-- Two rotations of Lyndon words agree only if they are the same rotation of the same word. -/
theorem rot_lyndon_inj {v w : List α} (hv : IsLyndon v) (hw : IsLyndon w) {i j : Nat} (hi : i < v.length)
    (hj : j < w.length) (h : rot i v = rot j w) : v = w ∧ i = j := by
  have hl : v.length = w.length := by have := congrArg List.length h; simpa [rot_length] using this
  have key : ∀ {v w : List α}, IsLyndon w → ∀ {i j : Nat}, i < v.length → j < w.length → v.length = w.length →
      rot i v = rot j w → w ≤ v := by
    intro v w hw i j hi hj hl h
    have e := congrArg (rot (v.length - i)) h
    rw [rot_rot_sub hi, rot_rot hj.le (by omega)] at e
    rw [e]
    exact lyndon_le_rot hw (Nat.mod_lt _ (by omega))
  have hvw : v = w := le_antisymm (key hv hj hi hl.symm h.symm) (key hw hi hj hl h)
  subst hvw
  refine ⟨rfl, ?_⟩
  have aux : ∀ {i j : Nat}, i < v.length → j < v.length → i < j → rot i v ≠ rot j v := by
    intro i j hi hj hlt e
    have e' := congrArg (rot (v.length - j)) e
    rw [rot_rot_sub hj, rot_rot hi.le (by omega), Nat.mod_eq_of_lt (by omega)] at e'
    exact absurd e' (ne_of_gt (lyndon_lt_rot hv (by omega) (by omega)))
  rcases Nat.lt_trichotomy i j with hlt | he | hlt
  · exact absurd h (aux hi hj hlt)
  · exact he
  · exact absurd h.symm (aux hj hi hlt)

theorem primitive_rot_lyndon {u : List α} (hu : u ≠ []) (hp : IsPrimitive u) :
    ∃ w k, IsLyndon w ∧ k < w.length ∧ u = rot k w := by
  obtain ⟨p, -, h2, h3⟩ := lyndonConjugate_ok hu
  refine ⟨rot p u, (u.length - p) % u.length, least_rot_lyndon hp h2 h3, ?_, ?_⟩
  · rw [rot_length]; exact Nat.mod_lt _ (by omega)
  · rcases Nat.eq_zero_or_pos p with rfl | h0
    · simp [rot_zero]
    · rw [Nat.mod_eq_of_lt (by omega), rot_rot_sub h2]

end

namespace Props

theorem lyndon_map_toNat {w : List UInt8} (hw : IsLyndon w) : IsLyndon (w.map UInt8.toNat) := by
  have h256 : ∀ u : List UInt8, ∀ c ∈ u.map UInt8.toNat, c < 256 := by
    intro u c hc
    obtain ⟨x, -, rfl⟩ := List.mem_map.1 hc
    exact x.toNat_lt
  have hid : ∀ u : List UInt8, (u.map UInt8.toNat).map UInt8.ofNat = u := by
    intro u; rw [List.map_map]
    conv_rhs => rw [← List.map_id u]
    apply List.map_congr_left
    intro c _; simp
  rw [isLyndon_iff_drop] at hw ⊢
  refine ⟨by simpa using hw.1, fun i h1 h2 => ?_⟩
  rw [← List.map_drop, ← map_ofNat_lt (h256 _) (h256 _), hid, hid]
  exact hw.2 i (by simpa using h1) (by simpa using h2)

end Props

end Verif
