import Verif.Model.Parallel
import Verif.Lemmas.Duval
import Mathlib.Data.Finset.Card
import Mathlib.Data.Finset.Dedup
import Mathlib.Data.Nat.Find

/-! # Lemmas on `number_distinct_lyndon_factors` -/

namespace Verif

open Spec Model

variable {α : Type} [LinearOrder α]

/-- number of neighbouring unequal entries -/
def adj {β : Type} [DecidableEq β] : List β → Nat
  | [] => 0
  | [_] => 0
  | u :: v :: r => (if u = v then 0 else 1) + adj (v :: r)

theorem card_sorted {β : Type} [PartialOrder β] [DecidableEq β] (l : List β) (x : β)
    (h : (x :: l).Pairwise (fun f g => g ≤ f)) : (x :: l).toFinset.card = 1 + adj (x :: l) := by
  induction l generalizing x with
  | nil => simp [adj]
  | cons y l ih =>
    have h2 := List.pairwise_cons.1 h
    have := ih y h2.2
    rw [List.toFinset_cons, adj]
    by_cases hxy : x = y
    · subst hxy
      rw [Finset.insert_eq_of_mem (by simp), this]; simp
    · have hn : x ∉ (y :: l).toFinset := by
        intro hx
        rw [List.mem_toFinset] at hx
        have h3 := List.pairwise_cons.1 h2.2
        have hyx := h2.1 y (by simp)
        rcases List.mem_cons.1 hx with h4 | h4
        · exact hxy h4
        · exact hxy (le_antisymm (h3.1 x h4) hyx)
      rw [Finset.card_insert_of_notMem hn, this, if_neg hxy]; omega

omit [LinearOrder α] in
theorem ends_at {fs pre rest : List (List α)} {f : List α}
    (h : fs = pre ++ f :: rest) :
    (ends 0 fs)[pre.length]? = some (pre.flatten.length + f.length - 1) := by
  subst h
  rw [ends_append, List.getElem?_append_right (by rw [ends_length]), ends_length]
  simp [ends]

theorem lettersDiffer_ok {x u y v z : List α} {m : Nat} (hu : m ≤ u.length) (hv : m ≤ v.length) :
    lettersDiffer (x ++ u ++ y ++ v ++ z) x.length (x.length + u.length + y.length) m =
      .ok (decide (u.take m ≠ v.take m)) := by
  set t := x ++ u ++ y ++ v ++ z with ht
  have g1 : ∀ i, i < m → t[x.length + i]? = u[i]? := by
    intro i hi
    rw [ht]
    simp only [List.append_assoc]
    rw [List.getElem?_append_right (by omega), List.getElem?_append_left (by omega)]
    congr 1; omega
  have g2 : ∀ i, i < m → t[x.length + u.length + y.length + i]? = v[i]? := by
    intro i hi
    rw [ht]
    simp only [List.append_assoc]
    rw [List.getElem?_append_right (by omega), List.getElem?_append_right (by omega),
      List.getElem?_append_right (by omega), List.getElem?_append_left (by omega)]
    congr 1; omega
  have hb : ∀ i (hi : i < m), (do
      let a ← rd t (x.length + i)
      let b ← rd t (x.length + u.length + y.length + i)
      if a ≠ b then pure (some ()) else pure none : Res (Option Unit)) =
      .ok (if u[i] = v[i] then none else some ()) := by
    intro i hi
    have e1 : t[x.length + i]? = some u[i] := by rw [g1 i hi]; simp
    have e2 : t[x.length + u.length + y.length + i]? = some v[i] := by rw [g2 i hi]; simp
    rw [rd_some e1, ok_bind, rd_some e2, ok_bind]
    by_cases h : u[i] = v[i] <;> simp [h, pure_ok]
  unfold lettersDiffer
  by_cases heq : u.take m = v.take m
  · rw [forFind_none]
    · simp [heq, pure_ok]
    · intro i _ hi
      rw [hb i hi, if_pos]
      have := congrArg (fun l => l[i]?) heq
      simp only [List.getElem?_take, if_pos hi] at this
      simpa [List.getElem?_eq_getElem (show i < u.length by omega),
        List.getElem?_eq_getElem (show i < v.length by omega)] using this
  · have hex : ∃ i, ∃ (hi : i < m), u[i] ≠ v[i] := by
      by_contra hcon
      push Not at hcon
      apply heq
      apply List.ext_getElem
      · simp; omega
      · intro i h1 h2
        simp only [List.getElem_take]
        exact hcon i (by simp at h1; omega)
    have hex' : ∃ i, i < m ∧ u[i]? ≠ v[i]? := by
      obtain ⟨i, hi, h⟩ := hex
      refine ⟨i, hi, ?_⟩
      simpa [List.getElem?_eq_getElem (show i < u.length by omega),
        List.getElem?_eq_getElem (show i < v.length by omega)] using h
    classical
    have hk := Nat.find_spec hex'
    have hmin := fun i => Nat.find_min hex' (m := i)
    generalize Nat.find hex' = k at hk hmin
    rw [forFind_some (m := k) (x := ()) (by omega) hk.1]
    · simp [heq, pure_ok]
    · intro i _ hi
      have hi' : i < m := by omega
      rw [hb i hi', if_pos]
      have := hmin i hi
      simp only [hi', true_and, not_not] at this
      simpa [List.getElem?_eq_getElem (show i < u.length by omega),
        List.getElem?_eq_getElem (show i < v.length by omega)] using this
    · rw [hb k hk.1, if_neg]
      have := hk.2
      simpa [List.getElem?_eq_getElem (show k < u.length by omega),
        List.getElem?_eq_getElem (show k < v.length by omega)] using this

theorem distinctStep_ok {text : List α} {fs pre rest : List (List α)} {u v : List α}
    (h : fs = pre ++ u :: v :: rest) (ht : fs.flatten = text) (hne : ∀ g ∈ fs, g ≠ []) (hp : pre ≠ [])
    (counter : Nat) :
    distinctStep text (ends 0 fs) pre.length counter = .ok (counter + if u = v then 0 else 1) := by
  have hul := List.length_pos_iff.2 (hne u (by simp [h]))
  have hvl := List.length_pos_iff.2 (hne v (by simp [h]))
  have hpl := List.length_pos_iff.2 hp
  obtain ⟨pre', g, rfl⟩ : ∃ pre' g, pre = pre' ++ [g] :=
    ⟨pre.dropLast, pre.getLast hp, (List.dropLast_append_getLast hp).symm⟩
  have hgl := List.length_pos_iff.2 (hne g (by simp [h]))
  have h0 : fs = pre' ++ g :: (u :: v :: rest) := by rw [h]; simp
  have h2 : fs = (pre' ++ [g, u]) ++ v :: rest := by rw [h]; simp
  have e1 : (pre' ++ [g]).length - 1 = pre'.length := by simp
  have e2 : (pre' ++ [g]).length + 1 = (pre' ++ [g, u]).length := by simp
  have l1 : (pre' ++ [g]).flatten.length = pre'.flatten.length + g.length := by simp
  have l2 : (pre' ++ [g, u]).flatten.length = pre'.flatten.length + g.length + u.length := by
    simp; omega
  unfold distinctStep
  rw [usub_ok hpl, ok_bind, e1, rd_some (ends_at h0), ok_bind, rd_some (ends_at h), ok_bind, e2,
    rd_some (ends_at h2), ok_bind, l1, l2, usub_ok (by omega), ok_bind, usub_ok (by omega), ok_bind]
  generalize hL : pre'.flatten.length = L at *
  by_cases hlen : u.length = v.length
  · rw [if_neg (by omega)]
    have htx : text = (pre' ++ [g]).flatten ++ u ++ [] ++ v ++ rest.flatten := by rw [← ht, h]; simp
    have := lettersDiffer_ok (x := (pre' ++ [g]).flatten) (u := u) (y := []) (v := v)
      (z := rest.flatten) (m := u.length) (le_refl _) (by omega)
    rw [← htx, l1] at this
    have a1 : L + g.length - 1 + 1 = L + g.length := by omega
    have a2 : L + g.length + u.length - 1 + 1 = L + g.length + u.length + ([] : List α).length := by
      simp; omega
    have a3 : L + g.length + u.length - 1 - (L + g.length - 1) = u.length := by omega
    rw [a1, a2, a3, this, ok_bind, List.take_length, hlen, List.take_length]
    by_cases huv : u = v <;> simp [huv, pure_ok]
  · rw [if_pos (by omega), if_neg (fun h => hlen (by rw [h])), pure_ok]

theorem distinctLoop_ok {text : List α} {fs : List (List α)} (ht : fs.flatten = text)
    (hne : ∀ g ∈ fs, g ≠ []) (rest : List (List α)) :
    ∀ (pre : List (List α)) (u : List α) (counter : Nat), fs = pre ++ u :: rest → pre ≠ [] →
    forRange pre.length (fs.length - 1) counter (distinctStep text (ends 0 fs)) =
      .ok (counter + adj (u :: rest)) := by
  induction rest with
  | nil => intro pre u counter h hp; rw [forRange_done (by rw [h]; simp)]; simp [adj]
  | cons v rest ih =>
    intro pre u counter h hp
    rw [forRange_step (by rw [h]; simp), distinctStep_ok h ht hne hp, ok_bind]
    have := ih (pre ++ [u]) v (counter + if u = v then 0 else 1) (by rw [h]; simp) (by simp)
    rw [show (pre ++ [u]).length = pre.length + 1 by simp] at this
    rw [this, adj, Nat.add_assoc]

theorem numberDistinct_one {text f : List α} (h : IsLyndonFactorization [f] text) :
    numberDistinctLyndonFactors text = .ok 1 := by
  have hf := List.length_pos_iff.2 (h.2.1 f (by simp)).1
  have htl : text = f := by rw [← h.1]; simp
  unfold numberDistinctLyndonFactors
  rw [if_neg (by rw [htl]; omega), duval_of_factorization h, ok_bind, if_pos (by simp [ends]), pure_ok]

theorem numberDistinct_two {text u v : List α} {rest : List (List α)}
    (h : IsLyndonFactorization (u :: v :: rest) text) :
    numberDistinctLyndonFactors text =
      .ok ((if u.length = v.length ∧ u.dropLast = v.dropLast then 1 else 2) + adj (v :: rest)) := by
  have hne : ∀ g ∈ u :: v :: rest, g ≠ [] := fun g hg => (h.2.1 g hg).1
  have hul := List.length_pos_iff.2 (hne u (by simp))
  have hvl := List.length_pos_iff.2 (hne v (by simp))
  have htl : text = u ++ (v ++ rest.flatten) := by rw [← h.1]; simp
  unfold numberDistinctLyndonFactors
  rw [if_neg (by rw [htl, List.length_append]; omega), duval_of_factorization h, ok_bind,
    if_neg (by simp [ends])]
  have h0 : (ends 0 (u :: v :: rest))[0]? = some (u.length - 1) := by simp [ends]
  have h1 : (ends 0 (u :: v :: rest))[1]? = some (u.length + v.length - 1) := by simp [ends]
  rw [rd_some h1, ok_bind, rd_some h0, ok_bind, usub_ok (by omega), ok_bind]
  have hloop := fun c => distinctLoop_ok h.1 hne rest [u] v c (by simp) (by simp)
  have hd : lettersDiffer text 0 (u.length - 1 + 1) (u.length - 1) = .ok
      (decide (u.take (u.length - 1) ≠ v.take (u.length - 1))) ∨ v.length + 1 ≤ u.length := by
    by_cases hh : v.length + 1 ≤ u.length
    · exact Or.inr hh
    left
    have := lettersDiffer_ok (x := ([] : List α)) (u := u) (y := []) (v := v)
      (z := rest.flatten) (m := u.length - 1) (by omega) (by omega)
    rw [htl]
    simpa [show u.length - 1 + 1 = u.length by omega] using this
  have hhi : usub (ends 0 (u :: v :: rest)).length 1 = .ok ((u :: v :: rest).length - 1) := by
    rw [usub_ok (by simp [ends]), ends_length]
  by_cases hlen : u.length = v.length
  · rw [if_neg (by omega)]
    have hd' := hd.resolve_right (by omega)
    simp only [hd', ok_bind, pure_bind', hhi]
    have := hloop (if decide (u.take (u.length - 1) ≠ v.take (u.length - 1)) = true then 2 else 1)
    rw [List.length_singleton] at this
    rw [this]
    have e1 : u.dropLast = u.take (u.length - 1) := List.dropLast_eq_take
    have e2 : v.dropLast = v.take (u.length - 1) := by rw [List.dropLast_eq_take, hlen]
    rw [e1, e2]
    by_cases hx : u.take (u.length - 1) = v.take (u.length - 1) <;> simp [hlen, hx]
  · rw [if_pos (by omega)]
    simp only [pure_bind', hhi, ok_bind]
    have := hloop 2
    rw [List.length_singleton] at this
    rw [this, if_neg (fun h => hlen h.1)]

end Verif
