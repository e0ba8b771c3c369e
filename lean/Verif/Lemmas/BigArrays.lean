import Verif.Lemmas.Lcp
import Verif.Lemmas.SmallerValues

/-! # The 32-bit arrays on inputs with 2^32 and more entries -/

namespace Verif

open Spec Model

variable {α : Type} [LinearOrder α]

/-- As `jump_psv`, for arrays of any length. -/
theorem jump_psv_big {arr : List α} {sv : List Nat} {i : Nat} (hi : i < arr.length) (hn : i < 4294967296)
    (hsv : ∀ j, j < i → ∃ v, sv[j]? = some v ∧ IsPsv INVALID arr j v)
    (fuel p : Nat)
    (hp : (p = INVALID ∧ 0 < fuel ∧ ∀ j y, j < i → arr[j]? = some y → arr[i] ≤ y) ∨
      (p < i ∧ p + 1 < fuel ∧ ∀ j y, p < j → j < i → arr[j]? = some y → arr[i] ≤ y)) :
    ∃ v, jump arr sv i fuel p = .ok v ∧ IsPsv INVALID arr i v := by
  have hI : INVALID = 4294967295 := rfl
  induction fuel generalizing p with
  | zero => omega
  | succ fuel ih =>
    unfold jump
    rcases hp with ⟨rfl, -, hall⟩ | ⟨h1, h2, hall⟩
    · rw [if_neg (by simp)]
      exact ⟨INVALID, rfl, arr[i], List.getElem?_eq_getElem hi, Or.inl ⟨rfl, hall⟩⟩
    · rw [if_pos (by omega), rd_ok (show p < arr.length by omega), ok_bind, rd_ok hi, ok_bind]
      by_cases hlt : arr[p] < arr[i]
      · rw [if_pos hlt]
        refine ⟨p, by rw [asU32, Nat.mod_eq_of_lt (by omega)]; rfl, arr[i],
          List.getElem?_eq_getElem hi, Or.inr ⟨h1, ⟨arr[p], List.getElem?_eq_getElem _, hlt⟩, hall⟩⟩
      · rw [if_neg hlt]
        rw [not_lt] at hlt
        obtain ⟨v, e1, x, e2, e3⟩ := hsv p h1
        rw [List.getElem?_eq_getElem (show p < arr.length by omega)] at e2
        simp only [Option.some.injEq] at e2
        subst e2
        rw [rd_some e1, ok_bind]
        have hsplit : ∀ j y, j < i → arr[j]? = some y → (j < p → arr[p] ≤ y) → arr[i] ≤ y := by
          intro j y hj hy hjp
          rcases lt_trichotomy j p with h | rfl | h
          · exact hlt.trans (hjp h)
          · rw [List.getElem?_eq_getElem (by omega)] at hy
            simp only [Option.some.injEq] at hy
            rw [← hy]; exact hlt
          · exact hall j y h hj hy
        apply ih
        rcases e3 with ⟨rfl, h3⟩ | ⟨h3, -, h4⟩
        · exact Or.inl ⟨rfl, by omega, fun j y hj hy => hsplit j y hj hy (fun hjp => h3 j y hjp hy)⟩
        · exact Or.inr ⟨by omega, by omega, fun j y hvj hj hy =>
            hsplit j y hj hy (fun hjp => h4 j y hvj hjp hy)⟩

/-- The loop always ends, with `INVALID` or something smaller than the index. -/
theorem jump_psv_total {arr : List α} {sv : List Nat} {i : Nat} (hi : i < arr.length)
    (hsv : ∀ j, j < i → ∃ v, sv[j]? = some v ∧ (v = INVALID ∨ v < j)) (fuel p : Nat)
    (hp : (p = INVALID ∧ 0 < fuel) ∨ (p < i ∧ p + 1 < fuel)) :
    ∃ v, jump arr sv i fuel p = .ok v ∧ (v = INVALID ∨ v < i) := by
  induction fuel generalizing p with
  | zero => omega
  | succ fuel ih =>
    unfold jump
    by_cases hI : p = INVALID
    · rw [if_neg (by simpa using hI)]
      exact ⟨_, rfl, .inl rfl⟩
    · rcases hp with ⟨h, -⟩ | ⟨h1, h2⟩
      · exact absurd h hI
      · rw [if_pos hI, rd_ok (show p < arr.length by omega), ok_bind, rd_ok hi, ok_bind]
        by_cases hlt : arr[p] < arr[i]
        · rw [if_pos hlt]
          exact ⟨_, rfl, .inr (lt_of_le_of_lt (Nat.mod_le _ _) h1)⟩
        · rw [if_neg hlt]
          obtain ⟨v, e1, e2⟩ := hsv p h1
          rw [rd_some e1, ok_bind]
          apply ih
          rcases e2 with rfl | e2
          · exact .inl ⟨rfl, by omega⟩
          · exact .inr ⟨by omega, by omega⟩

theorem computePsv_big {arr : List α} (h0 : 0 < arr.length) :
    ∃ psv, computePsv arr = .ok psv ∧ psv.length = arr.length ∧
      ∀ i, i < arr.length → ∃ v, psv[i]? = some v ∧ (i < 4294967296 → IsPsv INVALID arr i v) ∧ (i = 4294967296 → v = INVALID) ∧
        (∀ x y, 4294967296 < i → arr[i - 1]? = some x → arr[i]? = some y → x < y → v = (i - 1) % 4294967296) ∧
        (v = INVALID ∨ v < i) := by
  have hI : INVALID = 4294967295 := rfl
  have hsmall : ∀ {j v}, IsPsv INVALID arr j v → v = INVALID ∨ v < j := by
    rintro j v ⟨x, -, ⟨h, -⟩ | ⟨h, -⟩⟩
    · exact .inl h
    · exact .inr h
  simp only [computePsv]
  rw [wr_ok (by simpa using h0), ok_bind]
  obtain ⟨psv, h1, h2, h3⟩ := forRange_inv
    (fun k (psv : List Nat) => psv.length = arr.length ∧
      ∀ i, i < k → ∃ v, psv[i]? = some v ∧ (i < 4294967296 → IsPsv INVALID arr i v) ∧ (i = 4294967296 → v = INVALID) ∧
        (∀ x y, 4294967296 < i → arr[i - 1]? = some x → arr[i]? = some y → x < y → v = (i - 1) % 4294967296) ∧
        (v = INVALID ∨ v < i))
    (lo := 1) (hi := arr.length) (s := (List.replicate arr.length 0).set 0 INVALID)
    (body := fun i psv => do
      let p ← usub i 1
      let psv ← wr psv i INVALID
      let v ← jump arr psv i (arr.length + 1) p
      wr psv i v) h0
    ⟨by simp, fun i hi => by
      have : i = 0 := by omega
      subst this
      exact ⟨INVALID, by simp [h0], fun _ => ⟨arr[0], List.getElem?_eq_getElem h0, Or.inl ⟨rfl, by intros; omega⟩⟩,
        fun _ => rfl, by intros; omega, .inl rfl⟩⟩ (by
      intro i psv hi1 hi2 ⟨e1, e2⟩
      rw [usub_ok hi1, ok_bind, wr_ok (by omega), ok_bind]
      have hget : ∀ j, j < i → (psv.set i INVALID)[j]? = psv[j]? := fun j hj => by rw [List.getElem?_set_ne (by omega)]
      obtain ⟨v, hv, hpsv⟩ : ∃ v, jump arr (psv.set i INVALID) i (arr.length + 1) (i - 1) = .ok v ∧
          (i < 4294967296 → IsPsv INVALID arr i v) ∧ (i = 4294967296 → v = INVALID) ∧
          (∀ x y, 4294967296 < i → arr[i - 1]? = some x → arr[i]? = some y → x < y → v = (i - 1) % 4294967296) ∧
          (v = INVALID ∨ v < i) := by
        rcases lt_trichotomy i 4294967296 with hlt | heq | hgt
        · obtain ⟨v, hv, hpsv⟩ := jump_psv_big (arr := arr) (sv := psv.set i INVALID) (i := i) hi2 hlt
            (by
              intro j hj
              obtain ⟨v, g1, g2, -⟩ := e2 j hj
              exact ⟨v, by rw [hget j hj]; exact g1, g2 (by omega)⟩)
            (arr.length + 1) (i - 1) (Or.inr ⟨by omega, by omega, by intros; omega⟩)
          exact ⟨v, hv, fun _ => hpsv, fun h => by omega, by intros; omega, hsmall hpsv⟩
        · refine ⟨INVALID, ?_, fun h => by omega, fun _ => rfl, by intros; omega, .inl rfl⟩
          unfold jump
          rw [if_neg (by rw [hI]; omega)]
          rfl
        · obtain ⟨v, hv, hpsv⟩ := jump_psv_total (arr := arr) (sv := psv.set i INVALID) (i := i) hi2
            (by
              intro j hj
              obtain ⟨v, g1, -, -, -, g2⟩ := e2 j hj
              exact ⟨v, by rw [hget j hj]; exact g1, g2⟩)
            (arr.length + 1) (i - 1) (Or.inr ⟨by omega, by omega⟩)
          refine ⟨v, hv, fun h => by omega, fun h => by omega, ?_, hpsv⟩
          intro x y _ hx hy hxy
          unfold jump at hv
          rw [if_pos (by rw [hI]; omega), rd_some hx, ok_bind, rd_some hy, ok_bind, if_pos hxy] at hv
          injection hv with hv
          exact hv.symm
      rw [hv, ok_bind, wr_ok (by simp; omega)]
      refine ⟨_, rfl, by simpa using e1, ?_⟩
      intro j hj
      rcases Nat.lt_or_ge j i with hlt | hge
      · obtain ⟨w, g1, g2⟩ := e2 j hlt
        exact ⟨w, by rw [List.getElem?_set_ne (by omega), List.getElem?_set_ne (by omega)]; exact g1, g2⟩
      · have : j = i := by omega
        subst this
        exact ⟨v, by simp [show j < psv.length by omega], hpsv⟩)
  exact ⟨psv, h1, h2, h3⟩

/-- As `jump_nsv`, when the entry `4294967295` is the last one: it is never looked at. -/
theorem jump_nsv_last {arr : List α} {sv : List Nat} {i : Nat} (hn : arr.length = 4294967296) (hi : i < 4294967295)
    (hsv : ∀ j, i < j → j < 4294967295 → ∃ v, sv[j]? = some v ∧ IsNsv INVALID (arr.take 4294967295) j v)
    (fuel p : Nat)
    (hp : (p = INVALID ∧ 0 < fuel ∧ ∀ j y, i < j → (arr.take 4294967295)[j]? = some y → arr[i] ≤ y) ∨
      (i < p ∧ p < 4294967295 ∧ arr.length - p + 1 < fuel ∧
        ∀ j y, i < j → j < p → (arr.take 4294967295)[j]? = some y → arr[i] ≤ y)) :
    ∃ v, jump arr sv i fuel p = .ok v ∧ IsNsv INVALID (arr.take 4294967295) i v := by
  have hI : INVALID = 4294967295 := rfl
  have htk : ∀ j (h : j < 4294967295), (arr.take 4294967295)[j]? = some (arr[j]'(by omega)) := fun j h => by
    rw [List.getElem?_take_of_lt h, List.getElem?_eq_getElem]
  have htl : ∀ j y, (arr.take 4294967295)[j]? = some y → j < 4294967295 := fun j y h => by
    have := (List.getElem?_eq_some_iff.1 h).1
    rw [List.length_take] at this
    omega
  induction fuel generalizing p with
  | zero => omega
  | succ fuel ih =>
    unfold jump
    rcases hp with ⟨rfl, -, hall⟩ | ⟨h1, hpl, h2, hall⟩
    · rw [if_neg (by simp)]
      exact ⟨INVALID, rfl, arr[i], htk i hi, Or.inl ⟨rfl, hall⟩⟩
    · rw [if_pos (by omega), rd_ok (by omega), ok_bind, rd_ok (by omega), ok_bind]
      by_cases hlt : arr[p] < arr[i]
      · rw [if_pos hlt]
        refine ⟨p, by rw [asU32, Nat.mod_eq_of_lt (by omega)]; rfl, arr[i], htk i hi,
          Or.inr ⟨h1, ⟨arr[p], htk p hpl, hlt⟩, hall⟩⟩
      · rw [if_neg hlt]
        rw [not_lt] at hlt
        obtain ⟨v, e1, x, e2, e3⟩ := hsv p h1 hpl
        rw [htk p hpl] at e2
        simp only [Option.some.injEq] at e2
        subst e2
        rw [rd_some e1, ok_bind]
        have hsplit : ∀ j y, i < j → (arr.take 4294967295)[j]? = some y → (p < j → arr[p] ≤ y) → arr[i] ≤ y := by
          intro j y hj hy hjp
          rcases lt_trichotomy j p with h | rfl | h
          · exact hall j y hj h hy
          · rw [htk j hpl] at hy
            simp only [Option.some.injEq] at hy
            rw [← hy]; exact hlt
          · exact hlt.trans (hjp h)
        apply ih
        rcases e3 with ⟨rfl, h3⟩ | ⟨h3, ⟨y, hy, -⟩, h4⟩
        · exact Or.inl ⟨rfl, by omega, fun j y hj hy => hsplit j y hj hy (fun hjp => h3 j y hjp hy)⟩
        · have hvl := htl v y hy
          exact Or.inr ⟨by omega, hvl, by omega, fun j y hvj hj hy =>
            hsplit j y hvj hy (fun hjp => h4 j y hjp hj hy)⟩

theorem computeNsv_last {arr : List α} (hn : arr.length = 4294967296) :
    ∃ nsv, computeNsv arr = .ok nsv ∧ nsv.length = arr.length ∧ nsv[4294967295]? = some INVALID ∧
      ∀ i, i < 4294967295 → ∃ v, nsv[i]? = some v ∧ IsNsv INVALID (arr.take 4294967295) i v := by
  have hI : INVALID = 4294967295 := rfl
  simp only [computeNsv]
  rw [usub_ok (by omega), ok_bind, wr_ok (by rw [List.length_replicate]; omega), ok_bind]
  obtain ⟨nsv, h1, h2, h3, h4⟩ := forRange_inv
    (fun t (nsv : List Nat) => nsv.length = arr.length ∧ nsv[4294967295]? = some INVALID ∧
      ∀ i, arr.length - 1 - t ≤ i → i < 4294967295 →
        ∃ v, nsv[i]? = some v ∧ IsNsv INVALID (arr.take 4294967295) i v)
    (lo := 0) (hi := arr.length - 1)
    (s := (List.replicate arr.length 0).set (arr.length - 1) INVALID)
    (body := fun t nsv => do
      let i := arr.length - 1 - 1 - t
      let nsv ← wr nsv i INVALID
      let v ← jump arr nsv i (arr.length + 1) (i + 1)
      wr nsv i v) (Nat.zero_le _)
    ⟨by rw [List.length_set, List.length_replicate], by
      rw [show arr.length - 1 = 4294967295 by omega, List.getElem?_set_self (by rw [List.length_replicate]; omega)],
      fun i hi1 hi2 => by omega⟩ (by
      intro t nsv _ ht ⟨e1, e0, e2⟩
      generalize hidef : arr.length - 1 - 1 - t = i
      have hi2 : i + 1 < arr.length := by omega
      dsimp only
      rw [wr_ok (by omega), ok_bind]
      obtain ⟨v, hv, hnsv⟩ := jump_nsv_last (arr := arr) (sv := nsv.set i INVALID) (i := i) hn (by omega)
        (by
          intro j hj hjl
          obtain ⟨v, g1, g2⟩ := e2 j (by omega) hjl
          exact ⟨v, by rw [List.getElem?_set_ne (by omega)]; exact g1, g2⟩)
        (arr.length + 1) (i + 1) (by
          rcases Nat.lt_or_ge (i + 1) 4294967295 with h | h
          · exact Or.inr ⟨by omega, h, by omega, by intros; omega⟩
          · refine Or.inl ⟨by omega, by omega, fun j y hj hy => ?_⟩
            have := (List.getElem?_eq_some_iff.1 hy).1
            rw [List.length_take] at this
            omega)
      rw [hv, ok_bind, wr_ok (by rw [List.length_set]; omega)]
      refine ⟨_, rfl, by rw [List.length_set, List.length_set]; exact e1, ?_, ?_⟩
      · rw [List.getElem?_set_ne (by omega), List.getElem?_set_ne (by omega)]; exact e0
      intro j hj hjl
      rcases Nat.lt_or_ge i j with hlt | hge
      · obtain ⟨w, g1, g2⟩ := e2 j (by omega) hjl
        exact ⟨w, by rw [List.getElem?_set_ne (by omega), List.getElem?_set_ne (by omega)]; exact g1, g2⟩
      · have : j = i := by omega
        subst this
        exact ⟨v, by rw [List.getElem?_set_self (by rw [List.length_set]; omega)], hnsv⟩)
  exact ⟨nsv, h1, h2, h3, fun i hi => h4 i (by omega) hi⟩

theorem computePlcp_big {t : List α} {sa phi : List Nat} (hs : IsSuffixArray t sa) (hp : IsPhi sa phi) :
    ∃ plcp, computePlcp t phi = .ok plcp ∧ plcp.length = t.length ∧
      ∀ b, b < t.length → ∃ a, phi[b]? = some a ∧ a < t.length ∧
        plcp[b]? = some (lcpLen (t.drop a) (t.drop b) % 4294967296) := by
  simp only [computePlcp, assertR]
  rw [if_pos (by simp [hp.len, hs.length]), ok_bind]
  obtain ⟨⟨plcp, l⟩, h1, h2, h3, -⟩ := forRange_inv
    (fun k (s : List Nat × Nat) => s.1.length = t.length ∧
      (∀ b, b < k → ∃ a, phi[b]? = some a ∧ a < t.length ∧
        s.1[b]? = some (lcpLen (t.drop a) (t.drop b) % 4294967296)) ∧
      (∀ a, k < t.length → phi[k]? = some a → s.2 ≤ lcpLen (t.drop a) (t.drop k)))
    (lo := 0) (hi := t.length) (s := (List.replicate t.length 0, 0))
    (body := fun b (s : List Nat × Nat) => do
      let (plcp, length) := s
      let a ← rd phi b
      let length ← whileLoop (t.length + 1) (plcpCond t a b) (fun l => pure (l + 1)) length
      let plcp ← wr plcp b (asU32 length)
      pure (plcp, length - 1)) (Nat.zero_le _)
    ⟨by simp, by intros; omega, by intros; simp⟩ (by
      rintro b ⟨plcp, l⟩ - hb ⟨e1, e2, e3⟩
      dsimp only at e1 e2 e3 ⊢
      obtain ⟨a, ha, hal⟩ := hp.total hs hb
      have hL := lcpLen_le_right (t.drop a) (t.drop b)
      rw [List.length_drop] at hL
      rw [rd_some ha, ok_bind, plcpLoop hal hb (e3 a hb ha), ok_bind, wr_ok (by omega), ok_bind]
      refine ⟨_, rfl, by simpa using e1, ?_, ?_⟩
      · intro c hc
        dsimp only
        rcases Nat.lt_or_ge c b with h | h
        · rw [List.getElem?_set_ne (by omega)]; exact e2 c h
        · have : c = b := by omega
          subst this
          refine ⟨a, ha, hal, ?_⟩
          rw [List.getElem?_set_self (by omega), asU32]
      · intro a' hb' ha'
        exact kasai hs hp hb' ha ha')
  dsimp only at h2 h3
  exact ⟨plcp, by rw [h1]; rfl, h2, h3⟩

theorem jump_stuck {arr : List α} {sv : List Nat} {i : Nat} (hi : i < arr.length) (h0 : sv[0]? = some 0) (x : α) (hx : arr[0]? = some x)
    (hle : ¬ x < arr[i]) (fuel : Nat) : jump arr sv i fuel 0 = .error .fuel := by
  induction fuel with
  | zero => rfl
  | succ fuel ih =>
    unfold jump
    rw [if_pos (by decide), rd_some hx, ok_bind, rd_ok hi, ok_bind, if_neg hle, rd_some h0, ok_bind]
    exact ih

/-- the array that makes `compute_nsv` loop for ever -/
theorem nsv_hangs {n : Nat} (hn : n = 4294967296) (a b : α) (hab : b < a) :
    (∀ fuel, jump (List.replicate (n + 1) a ++ [b]) ((((List.replicate (n + 2) 0).set (n + 1) INVALID).set n 1).set (n - 1) INVALID)
      (n - 1) fuel n = .error .fuel) ∧
    computeNsv (List.replicate (n + 1) a ++ [b]) = .error .fuel := by
  have hI : INVALID = 4294967295 := rfl
  generalize harr : List.replicate (n + 1) a ++ [b] = arr
  have hlen : arr.length = n + 2 := by rw [← harr, List.length_append, List.length_replicate]; rfl
  have hget : ∀ j, j < n + 1 → arr[j]? = some a := fun j hj => by
    rw [← harr, List.getElem?_append_left (by rw [List.length_replicate]; exact hj), List.getElem?_replicate_of_lt hj]
  have hlast : arr[n + 1]? = some b := by
    rw [← harr, List.getElem?_append_right (by rw [List.length_replicate]), List.length_replicate, Nat.sub_self]
    rfl
  have hg : ∀ j (hj : j < n + 1) (h : j < arr.length), arr[j] = a := fun j hj h => by
    have := hget j hj
    rw [List.getElem?_eq_getElem h] at this
    exact Option.some.inj this
  have hstuck : ∀ fuel, jump arr ((((List.replicate (n + 2) 0).set (n + 1) INVALID).set n 1).set (n - 1) INVALID) (n - 1) fuel n =
      .error .fuel := by
    intro fuel
    generalize hsv : (((List.replicate (n + 2) 0).set (n + 1) INVALID).set n 1).set (n - 1) INVALID = sv
    have hz : ∀ j, j < n - 1 → sv[j]? = some 0 := fun j hj => by
      rw [← hsv, List.getElem?_set_ne (by omega), List.getElem?_set_ne (by omega), List.getElem?_set_ne (by omega),
        List.getElem?_replicate_of_lt (by omega)]
    have hsn : sv[n]? = some 1 := by
      rw [← hsv, List.getElem?_set_ne (by omega), List.getElem?_set_self (by rw [List.length_set, List.length_replicate]; omega)]
    have hi : n - 1 < arr.length := by omega
    have hai := hg (n - 1) (by omega) hi
    cases fuel with
    | zero => rfl
    | succ fuel =>
      unfold jump
      rw [if_pos (by rw [hI]; omega), rd_some (hget n (by omega)), ok_bind, rd_ok hi, ok_bind, if_neg (by rw [hai]; exact lt_irrefl a),
        rd_some hsn, ok_bind]
      cases fuel with
      | zero => rfl
      | succ fuel =>
        unfold jump
        rw [if_pos (by rw [hI]; omega), rd_some (hget 1 (by omega)), ok_bind, rd_ok hi, ok_bind, if_neg (by rw [hai]; exact lt_irrefl a),
          rd_some (hz 1 (by omega)), ok_bind]
        exact jump_stuck hi (hz 0 (by omega)) a (hget 0 (by omega)) (by rw [hai]; exact lt_irrefl a) fuel
  refine ⟨hstuck, ?_⟩
  simp only [computeNsv]
  rw [usub_ok (by omega), ok_bind, wr_ok (by rw [List.length_replicate]; omega), ok_bind, forRange_step (by omega)]
  rw [hlen, show n + 2 - 1 = n + 1 by omega, show n + 1 - 1 - 0 = n by omega]
  rw [wr_ok (by rw [List.length_set, List.length_replicate]; omega), ok_bind]
  have hj1 : jump arr (((List.replicate (n + 2) 0).set (n + 1) INVALID).set n INVALID) n (n + 2 + 1) (n + 1) = .ok 1 := by
    unfold jump
    rw [if_pos (by rw [hI]; omega), rd_some hlast, ok_bind, rd_some (hget n (by omega)), ok_bind, if_pos hab]
    rw [asU32, hn]
    rfl
  rw [hj1, ok_bind, wr_ok (by rw [List.length_set, List.length_set, List.length_replicate]; omega), ok_bind, List.set_set,
    forRange_step (by omega)]
  rw [show n + 1 - 1 - (0 + 1) = n - 1 by omega, wr_ok (by rw [List.length_set, List.length_set, List.length_replicate]; omega), ok_bind,
    show n - 1 + 1 = n by omega, hstuck]
  rfl
end Verif
