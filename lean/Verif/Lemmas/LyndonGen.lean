import Verif.Model.Generators
import Verif.Lemmas.Lyndon
import Verif.Lemmas.Loops

/-! # Duval's generation of Lyndon words: the successor of a Lyndon word -/

namespace Verif
open Spec

section order
variable {α : Type} [LinearOrder α]

omit [LinearOrder α] in
theorem PPow.of_prefix {u x y : List α} (h : PPow u x) (hy : y <+: x) (hl : u.length ≤ y.length) :
    PPow u y := by
  refine ⟨h.ne, hl, fun m hm => ?_⟩
  rw [← h.eq m (by have := hy.length_le; omega)]
  obtain ⟨t, rfl⟩ := hy
  rw [List.getElem?_append_left hm]

/-- A Lyndon word has no proper period given by a proper prefix. -/
theorem Spec.IsLyndon.not_ppow {u v : List α} (hv : IsLyndon v) (h : PPow u v) (hl : u.length < v.length) :
    False := by
  have h0 : 0 < u.length := List.length_pos_iff.2 h.ne
  have h1 := (hv.mis_drop h0 hl).lt
  exact absurd h1 (not_lt.2 (le_of_prefix h.drop_prefix))

/-- Every Lyndon word `v > w` that is not longer than `x`, the prefix of `w w w ...`, differs from `x`
at a position where it is larger. -/
theorem Spec.IsLyndon.mis_of_gt {w x v : List α} (hx : PPow w x) (hv : IsLyndon v)
    (hl : v.length ≤ x.length) (hgt : w < v) : Mis x v := by
  have hw0 : 0 < w.length := List.length_pos_iff.2 hx.ne
  have key : v <+: x → False := by
    intro hp
    by_cases hlw : v.length ≤ w.length
    · have : v <+: w := List.prefix_of_prefix_length_le hp hx.prefix hlw
      exact absurd hgt (not_lt.2 (le_of_prefix this))
    · exact hv.not_ppow (hx.of_prefix hp (by omega)) (by omega)
  rcases word_cases x v with rfl | ⟨h1, h2⟩ | ⟨h1, _⟩ | h1 | h1
  · exact (key (List.prefix_refl _)).elim
  · have := h1.eq_of_length_le hl
    exact absurd this h2
  · exact (key h1).elim
  · exact h1
  · exfalso
    obtain ⟨i, hi1, hi2, heq, hlt⟩ := mis_iff_index.1 h1
    by_cases hiw : i < w.length
    · have : Mis v w := by
        refine mis_iff_index.2 ⟨i, hi1, hiw, ?_, ?_⟩
        · intro t ht
          rw [heq t ht, hx.eq t (by omega), Nat.mod_eq_of_lt (by omega)]
        · have : x[i]? = w[i]? := by rw [hx.eq i hi2, Nat.mod_eq_of_lt hiw]
          rw [List.getElem?_eq_getElem hi2, List.getElem?_eq_getElem hiw] at this
          injection this with this
          rw [← this]; exact hlt
      exact lt_asymm hgt this.lt
    · -- the suffix after |w| letters is smaller
      have hlt' : Mis (v.drop w.length) v := by
        refine mis_iff_index.2 ⟨i - w.length, by simp; omega, by omega, ?_, ?_⟩
        · intro t ht
          rw [List.getElem?_drop, heq _ (by omega), heq t (by omega), Nat.add_comm,
            hx.shift (by omega)]
        · have e1 : v[i - w.length]? = x[i]? := by
            rw [heq _ (by omega), ← hx.shift (by omega)]
            congr 1; omega
          rw [List.getElem?_eq_getElem (by omega), List.getElem?_eq_getElem hi2] at e1
          injection e1 with e1
          rw [e1, List.getElem_drop]
          have : w.length + (i - w.length) = i := by omega
          simp only [this]
          exact hlt
      exact lt_asymm hlt'.lt (hv.mis_drop hw0 (by omega)).lt

/-- Raising the last letter of a prefix of a Lyndon word gives a Lyndon word. -/
theorem Spec.IsLyndon.raise {p r : List α} {c d : α} (h : IsLyndon (p ++ c :: r)) (hcd : c < d) :
    IsLyndon (p ++ [d]) := by
  refine isLyndon_of_drop (by simp) ?_
  intro k hk0 hk1
  simp at hk1
  have hm := h.mis_drop hk0 (by simp; omega)
  rw [List.drop_append_of_le_length (by omega)] at hm
  obtain ⟨j, hj1, hj2, heq, hlt⟩ := mis_iff_index.1 hm
  have hm' : Mis (p ++ [d]) ((p ++ [d]).drop k) := by
    rw [List.drop_append_of_le_length (by omega)]
    have hpl : (p.drop k).length = p.length - k := by simp
    by_cases hj : j < p.length - k
    · refine mis_iff_index.2 ⟨j, by simp; omega, by simp; omega, ?_, ?_⟩
      · intro t ht
        have := heq t ht
        rw [List.getElem?_append_left (by omega), List.getElem?_append_left (by simp; omega)] at this ⊢
        exact this
      · rw [List.getElem_append_left (by omega), List.getElem_append_left (by simp; omega)] at hlt ⊢
        exact hlt
    · have hle : ∃ b, p[p.length - k]? = some b ∧ b ≤ c := by
        rw [List.getElem?_eq_getElem (by omega)]
        refine ⟨_, rfl, ?_⟩
        rcases Nat.lt_or_ge (p.length - k) j with h1 | h1
        · have := heq _ h1
          rw [List.getElem?_append_left (by omega), List.getElem?_append_right (by simp), hpl,
            Nat.sub_self, List.getElem?_eq_getElem (by omega)] at this
          simp at this
          rw [this]
        · have : j = p.length - k := by omega
          subst this
          rw [List.getElem_append_left (by omega), List.getElem_append_right (by simp)] at hlt
          simp at hlt
          exact hlt.le
      obtain ⟨b, hb, hbc⟩ := hle
      refine mis_iff_index.2 ⟨p.length - k, by simp; omega, by simp, ?_, ?_⟩
      · intro t ht
        have := heq t (by omega)
        rw [List.getElem?_append_left (by omega), List.getElem?_append_left (by simp; omega)] at this ⊢
        exact this
      · rw [List.getElem_append_left (by omega), List.getElem_append_right (by simp)]
        rw [List.getElem?_eq_getElem (by omega)] at hb
        injection hb with hb
        simp [hb]
        exact lt_of_le_of_lt hbc hcd
  exact hm'.lt

end order

/-- A word over the letters `0, ..., s-1`. -/
abbrev Over (s : Nat) (w : List Nat) : Prop := ∀ c ∈ w, c < s

theorem lwgFill_ok {n : Nat} {w : List Nat} (hw : w ≠ []) (hn : w.length ≤ n) :
    ∃ x, Model.lwgFill n w.length w = .ok x ∧ PPow w x ∧ x.length = n := by
  have hw0 : 0 < w.length := List.length_pos_iff.2 hw
  unfold Model.lwgFill
  obtain ⟨x, h1, ⟨h2, h3⟩, h4⟩ := whileLoop_inv
    (cond := fun stack : List Nat => (pure (decide (stack.length < n)) : Res Bool))
    (body := fun stack => do
      let p ← usub stack.length w.length
      let c ← rd stack p
      pure (stack ++ [c]))
    (fun x : List Nat => PPow w x ∧ x.length ≤ n) (fun x => n - x.length)
    (fuel := n + 1) (s := w) ⟨PPow.refl hw, hn⟩ (by omega) (by
      rintro x ⟨hp, hl⟩
      by_cases hc : x.length < n
      · right
        have := hp.le
        refine ⟨by simp [hc, pure_ok], x ++ [x[x.length - w.length]'(by omega)], ?_, ⟨?_, ?_⟩, ?_⟩
        · rw [usub_ok hp.le, ok_bind, rd_ok (by omega), ok_bind, pure_ok]
        · exact hp.push (List.getElem?_eq_getElem (by omega))
        · simp; omega
        · simp; omega
      · left; simp [hc, pure_ok])
  refine ⟨x, h1, h2, ?_⟩
  simp [pure_ok] at h4
  omega

theorem lwgPop_ok {s : Nat} (hs : 0 < s) (x : List Nat) :
    ∃ y d, Model.lwgPop s x = .ok y ∧ x = y ++ List.replicate d (s - 1) ∧
      (∀ c, y.getLast? = some c → c ≠ s - 1) := by
  unfold Model.lwgPop
  obtain ⟨y, h1, ⟨d, h2⟩, h4⟩ := whileLoop_inv
    (cond := fun stack : List Nat => match stack.getLast? with
      | none => (pure false : Res Bool)
      | some c => do
        let z ← usub s 1
        pure (decide (c = z)))
    (body := fun stack => (pure stack.dropLast : Res (List Nat)))
    (fun y : List Nat => ∃ d, x = y ++ List.replicate d (s - 1)) (fun y => y.length)
    (fuel := x.length + 1) (s := x) ⟨0, by simp⟩ (by omega) (by
      rintro y ⟨d, hd⟩
      rcases List.eq_nil_or_concat' y with rfl | ⟨y', c, rfl⟩
      · left; rfl
      · have hg : (y' ++ [c]).getLast? = some c := by simp
        simp only [hg, usub_ok (show 1 ≤ s by omega), ok_bind, pure_ok]
        by_cases hc : c = s - 1
        · right
          refine ⟨by simp [hc], y', by simp, ⟨d + 1, ?_⟩, by simp⟩
          rw [hd, hc, List.replicate_succ]; simp
        · left; simp [hc])
  refine ⟨y, d, h1, h2, ?_⟩
  intro c hc
  simp only [hc, usub_ok (show 1 ≤ s by omega), ok_bind, pure_ok] at h4
  simpa using h4

/-- The two possible outcomes of a step from the Lyndon word `w`. -/
theorem lwg_step {n s : Nat} (hs : 0 < s) (hs' : s ≤ 256) {w : List Nat} (hw : IsLyndon w)
    (hn : w.length ≤ n) (ho : Over s w) :
    ((∃ st, (⟨n, s, w⟩ : Model.LyndonWordGenerator).next = .ok (none, ⟨0, s, st⟩)) ∧
      ∀ v, IsLyndon v → v.length ≤ n → Over s v → ¬ w < v) ∨
    ∃ w', (⟨n, s, w⟩ : Model.LyndonWordGenerator).next = .ok (some w', ⟨n, s, w'⟩) ∧
      IsLyndon w' ∧ w'.length ≤ n ∧ Over s w' ∧ w < w' ∧
      ∀ v, IsLyndon v → v.length ≤ n → Over s v → w < v → w' ≤ v := by
  have hw0 := hw.length_pos
  obtain ⟨x, hx1, hx2, hx3⟩ := lwgFill_ok hw.ne_nil hn
  obtain ⟨y, d, hy1, hy2, hy3⟩ := lwgPop_ok hs x
  have hnext : (⟨n, s, w⟩ : Model.LyndonWordGenerator).next =
      (match y.getLast? with
      | none => pure (none, ⟨0, s, y⟩)
      | some c =>
        if c + 1 < 256 then pure (some (y.dropLast ++ [c + 1]), ⟨n, s, y.dropLast ++ [c + 1]⟩)
        else .error .arith) := by
    unfold Model.LyndonWordGenerator.next
    rw [if_neg (show ¬ n = 0 by omega), if_neg (show ¬ w = [] from hw.ne_nil)]
    simp only [hx1, ok_bind, hy1]
    cases y.getLast? <;> rfl
  -- the position of the mismatch lies in `y`
  have hpos : ∀ v, IsLyndon v → v.length ≤ n → Over s v → w < v →
      ∃ i, ∃ (h1 : i < y.length) (h2 : i < v.length),
        (∀ t, t < i → y[t]? = v[t]?) ∧ y[i] < v[i] := by
    intro v hv hvl hvo hgt
    obtain ⟨i, h1, h2, heq, hlt⟩ := mis_iff_index.1 (hv.mis_of_gt hx2 (by omega) hgt)
    have hvi : v[i] < s := hvo _ (List.getElem_mem _)
    have hiy : i < y.length := by
      by_contra hc
      have : x[i] = s - 1 := by
        simp only [hy2]
        rw [List.getElem_append_right (by omega)]
        simp
      omega
    have hyx : ∀ t, t ≤ i → y[t]? = x[t]? := by
      intro t ht
      rw [hy2, List.getElem?_append_left (by omega)]
    refine ⟨i, hiy, h2, fun t ht => by rw [hyx t (by omega), heq t ht], ?_⟩
    have := hyx i (le_refl _)
    rw [List.getElem?_eq_getElem hiy, List.getElem?_eq_getElem h1] at this
    injection this with this
    omega
  rcases List.eq_nil_or_concat' y with rfl | ⟨y', c, rfl⟩
  · left
    refine ⟨⟨[], hnext⟩, fun v hv hvl hvo hgt => ?_⟩
    obtain ⟨i, h1, _⟩ := hpos v hv hvl hvo hgt
    simp at h1
  · right
    have hxo : Over s x := by
      intro a ha
      obtain ⟨m, hm, rfl⟩ := List.getElem_of_mem ha
      have := hx2.eq m hm
      have hm' : m % w.length < w.length := Nat.mod_lt _ hw0
      rw [List.getElem?_eq_getElem hm, List.getElem?_eq_getElem hm'] at this
      injection this with this
      rw [this]; exact ho _ (List.getElem_mem _)
    have hcs : c < s := hxo c (by rw [hy2]; simp)
    have hcz : c ≠ s - 1 := hy3 c (by simp)
    have hlen : y'.length + 1 ≤ n := by
      rw [← hx3, hy2]; simp
    refine ⟨y' ++ [c + 1], ?_, ?_, ?_, ?_, ?_, ?_⟩
    · rw [hnext]
      simp only [List.getLast?_concat, List.dropLast_concat]
      rw [if_pos (by omega)]; rfl
    · -- Lyndon
      have hpre : y' ++ [c] <+: x := ⟨_, hy2.symm⟩
      by_cases hyw : w.length ≤ y'.length
      · have hp1 : PPow w y' := hx2.of_prefix ((List.prefix_append _ _).trans hpre) hyw
        refine hw.extend hp1 (a := c) ?_ (by omega)
        have e := hx2.shift (m := y'.length - w.length) (by
          have := hpre.length_le; simp at this; omega)
        rw [show y'.length - w.length + w.length = y'.length by omega] at e
        have e1 : x[y'.length]? = some c := by rw [hy2]; simp
        have e2 : x[y'.length - w.length]? = y'[y'.length - w.length]? := by
          rw [hy2, List.append_assoc, List.getElem?_append_left (by omega)]
        rw [← e2, ← e, e1]
      · have : y' ++ [c] <+: w := List.prefix_of_prefix_length_le hpre hx2.prefix (by simp; omega)
        obtain ⟨r, hr⟩ := this
        have : IsLyndon (y' ++ c :: r) := by
          rw [← hr] at hw; simpa using hw
        exact this.raise (by omega)
    · simp; omega
    · intro a ha
      simp only [List.mem_append, List.mem_singleton] at ha
      rcases ha with ha | rfl
      · exact hxo a (by rw [hy2]; simp [ha])
      · omega
    · have : Mis x (y' ++ [c + 1]) :=
        ⟨y', c, c + 1, List.replicate d (s - 1), [], by rw [hy2]; simp, rfl, by omega⟩
      exact lt_of_le_of_lt (le_of_prefix hx2.prefix) this.lt
    · intro v hv hvl hvo hgt
      obtain ⟨i, h1, h2, heq, hlt⟩ := hpos v hv hvl hvo hgt
      simp at h1
      by_cases hi : i < y'.length
      · have : Mis (y' ++ [c + 1]) v := by
          refine mis_iff_index.2 ⟨i, by simp; omega, h2, ?_, ?_⟩
          · intro t ht
            have := heq t ht
            rw [List.getElem?_append_left (by omega)] at this ⊢
            exact this
          · rw [List.getElem_append_left hi] at hlt ⊢
            exact hlt
        exact this.lt.le
      · have : i = y'.length := by omega
        subst this
        have hcv : c < v[y'.length] := by simpa using hlt
        have hsplit : v = y' ++ v[y'.length] :: v.drop (y'.length + 1) := by
          conv_lhs => rw [← List.take_append_drop y'.length v]
          rw [List.drop_eq_getElem_cons h2]
          congr 1
          apply List.ext_getElem?
          intro t
          by_cases ht : t < y'.length
          · rw [List.getElem?_take_of_lt ht, ← heq t ht, List.getElem?_append_left ht]
          · rw [List.getElem?_eq_none (by simp; omega), List.getElem?_eq_none (by omega)]
        rw [hsplit, append_le_left]
        rcases Nat.lt_or_ge (c + 1) v[y'.length] with h | h
        · exact (cons_lt_cons.2 (Or.inl h)).le
        · have : c + 1 = v[y'.length] := by omega
          rw [this]
          exact le_of_prefix ⟨_, rfl⟩

/-! ### All words in lexicographic order -/

/-- All words of length at most `n` over `0, ..., s-1`, in lexicographic order. -/
def allWords (s : Nat) : Nat → List (List Nat)
  | 0 => [[]]
  | n + 1 => [] :: (List.range s).flatMap (fun c => (allWords s n).map (c :: ·))

theorem mem_allWords {s n : Nat} {w : List Nat} : w ∈ allWords s n ↔ w.length ≤ n ∧ Over s w := by
  induction n generalizing w with
  | zero =>
    simp only [allWords, List.mem_singleton]
    constructor
    · rintro rfl; exact ⟨le_refl _, fun _ h => by simp at h⟩
    · rintro ⟨h, _⟩; exact List.length_eq_zero_iff.1 (by omega)
  | succ n ih =>
    simp only [allWords, List.mem_cons, List.mem_flatMap, List.mem_range, List.mem_map]
    constructor
    · rintro (rfl | ⟨c, hc, v, hv, rfl⟩)
      · exact ⟨Nat.zero_le _, fun _ h => by simp at h⟩
      · obtain ⟨h1, h2⟩ := ih.1 hv
        refine ⟨by simp; omega, ?_⟩
        intro a ha
        rcases List.mem_cons.1 ha with rfl | ha
        · exact hc
        · exact h2 a ha
    · rintro ⟨h1, h2⟩
      cases w with
      | nil => exact Or.inl rfl
      | cons c v =>
        refine Or.inr ⟨c, h2 c (by simp), v, ih.2 ⟨by simpa using h1, fun a ha => h2 a (by simp [ha])⟩, rfl⟩

theorem allWords_sorted (s n : Nat) : (allWords s n).Pairwise (· < ·) := by
  induction n with
  | zero => simp [allWords]
  | succ n ih =>
    simp only [allWords]
    rw [List.pairwise_cons]
    refine ⟨?_, ?_⟩
    · intro w hw
      simp only [List.mem_flatMap, List.mem_map] at hw
      obtain ⟨c, _, v, _, rfl⟩ := hw
      exact List.nil_lt_cons _ _
    · rw [List.pairwise_flatMap]
      refine ⟨?_, ?_⟩
      · intro c _
        rw [List.pairwise_map]
        exact ih.imp (fun h => cons_lt_cons.2 (Or.inr ⟨rfl, h⟩))
      · refine List.pairwise_lt_range.imp ?_
        intro a b hab x hx y hy
        simp only [List.mem_map] at hx hy
        obtain ⟨x', _, rfl⟩ := hx
        obtain ⟨y', _, rfl⟩ := hy
        exact cons_lt_cons.2 (Or.inl hab)

/-! ### Iterating -/

theorem lwg_runIter_none (s : Nat) (st : List Nat) (k : Nat) :
    Model.runIter Model.LyndonWordGenerator.next k ⟨0, s, st⟩ = .ok (List.replicate k none) := by
  induction k with
  | zero => rfl
  | succ k ih =>
    have : (⟨0, s, st⟩ : Model.LyndonWordGenerator).next = .ok (none, ⟨0, s, st⟩) := rfl
    simp only [Model.runIter, this, ok_bind, ih, pure_ok, List.replicate_succ]

theorem take_cons_none {β : Type} (a : Option β) (l : List (Option β)) (k : Nat) :
    (a :: l ++ List.replicate (k + 1) none).take (k + 1) =
      a :: (l ++ List.replicate k none).take k := by
  rw [List.cons_append, List.take_succ_cons, List.replicate_succ']
  rw [← List.append_assoc, List.take_append_of_le_length (by simp)]

theorem lwg_runIter {n s : Nat} (hs : 0 < s) (hs' : s ≤ 256) (ws : List (List Nat))
    (hsort : ws.Pairwise (· < ·))
    (hmem : ∀ w, w ∈ ws ↔ IsLyndon w ∧ w.length ≤ n ∧ Over s w) (k : Nat) :
    ∀ pre w post, ws = pre ++ w :: post →
      Model.runIter Model.LyndonWordGenerator.next k ⟨n, s, w⟩ =
        .ok ((post.map some ++ List.replicate k none).take k) := by
  induction k with
  | zero => intros; simp [Model.runIter]
  | succ k ih =>
    intro pre w post he
    have hw := (hmem w).1 (by rw [he]; simp)
    have hpost : ∀ v ∈ post, w < v := by
      rw [he, List.pairwise_append] at hsort
      exact (List.pairwise_cons.1 hsort.2.1).1
    have hpre : ∀ v ∈ pre, v < w := by
      rw [he, List.pairwise_append] at hsort
      intro v hv
      exact hsort.2.2 v hv w (by simp)
    rcases lwg_step hs hs' hw.1 hw.2.1 hw.2.2 with ⟨⟨st, h1⟩, h2⟩ | ⟨w', h1, h2, h3, h4, h5, h6⟩
    · have : post = [] := by
        rw [List.eq_nil_iff_forall_not_mem]
        intro v hv
        have := (hmem v).1 (by rw [he]; simp [hv])
        exact h2 v this.1 this.2.1 this.2.2 (hpost v hv)
      subst this
      simp only [Model.runIter, h1, ok_bind, lwg_runIter_none, pure_ok]
      rw [List.map_nil, List.nil_append, List.take_of_length_le (by simp), List.replicate_succ]
    · have hw' : w' ∈ post := by
        have : w' ∈ ws := (hmem w').2 ⟨h2, h3, h4⟩
        rw [he] at this
        simp only [List.mem_append, List.mem_cons] at this
        rcases this with h | rfl | h
        · exact absurd (hpre _ h) (lt_asymm h5)
        · exact absurd h5 (lt_irrefl _)
        · exact h
      cases post with
      | nil => simp at hw'
      | cons v post =>
        have : w' = v := by
          have hv := (hmem v).1 (by rw [he]; simp)
          have hle := h6 v hv.1 hv.2.1 hv.2.2 (hpost v (by simp))
          rcases List.mem_cons.1 hw' with h | h
          · exact h
          · rw [he, List.pairwise_append] at hsort
            have := (List.pairwise_cons.1 (List.pairwise_cons.1 hsort.2.1).2).1 w' h
            exact absurd hle (not_le.2 this)
        subst this
        have := ih (pre ++ [w]) w' post (by rw [he]; simp)
        simp only [Model.runIter, h1, ok_bind, this, pure_ok]
        rw [List.map_cons, take_cons_none]

theorem lwg_all {n s : Nat} (hs : 0 < s) (hs' : s ≤ 256) :
    ∃ ws : List (List Nat), ws.Pairwise (· < ·) ∧
      (∀ w, w ∈ ws ↔ IsLyndon w ∧ w.length ≤ n ∧ Over s w) ∧
      ∀ k, Model.runIter Model.LyndonWordGenerator.next k (Model.LyndonWordGenerator.new n s) =
        .ok ((ws.map some ++ List.replicate k none).take k) := by
  have hmem : ∀ w, w ∈ (allWords s n).filter (fun w => decide (IsLyndon w)) ↔
      IsLyndon w ∧ w.length ≤ n ∧ Over s w := by
    intro w
    rw [List.mem_filter, mem_allWords, decide_eq_true_iff]
    tauto
  refine ⟨(allWords s n).filter (fun w => decide (IsLyndon w)), (allWords_sorted s n).filter _, hmem, ?_⟩
  intro k
  generalize hws : (allWords s n).filter (fun w => decide (IsLyndon w)) = ws at hmem
  have hsort : ws.Pairwise (· < ·) := hws ▸ (allWords_sorted s n).filter _
  clear hws
  rcases Nat.eq_zero_or_pos n with rfl | hn
  · have : ws = [] := by
      rw [List.eq_nil_iff_forall_not_mem]
      intro w hw
      have := (hmem w).1 hw
      have h1 := this.1.length_pos
      omega
    subst this
    rw [show Model.LyndonWordGenerator.new 0 s = ⟨0, s, []⟩ from rfl, lwg_runIter_none]
    simp
  · cases k with
    | zero => simp [Model.runIter]
    | succ k =>
      have h0 : [0] ∈ ws := (hmem _).2 ⟨isLyndon_singleton 0, hn, fun c hc => by
        rw [List.mem_singleton] at hc; omega⟩
      cases ws with
      | nil => simp at h0
      | cons v post =>
        have hv : v = [0] := by
          rcases List.mem_cons.1 h0 with h | h
          · exact h.symm
          · have h1 := (List.pairwise_cons.1 hsort).1 _ h
            have h2 := ((hmem v).1 (by simp)).1.ne_nil
            obtain ⟨a, r, rfl⟩ := List.exists_cons_of_ne_nil h2
            rcases cons_lt_cons.1 h1 with h3 | ⟨_, h3⟩
            · omega
            · exact absurd h3 (not_lt.2 (nil_le' r))
        subst hv
        have hnext : (Model.LyndonWordGenerator.new n s).next = .ok (some [0], ⟨n, s, [0]⟩) := by
          unfold Model.LyndonWordGenerator.next Model.LyndonWordGenerator.new
          rw [if_neg (show ¬ n = 0 by omega), if_pos rfl]; rfl
        have := lwg_runIter hs hs' _ hsort hmem k [] [0] post rfl
        simp only [Model.runIter, hnext, ok_bind, this, pure_ok]
        rw [List.map_cons, take_cons_none]

end Verif
