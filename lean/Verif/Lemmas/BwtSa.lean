import Verif.Lemmas.Bwt
import Verif.Lemmas.Perm

/-! # The suffix-array BWT -/

namespace Verif

open Spec Model

variable {α : Type}

theorem bwtFromSa_ok {t : List α} {sa : List Nat} (hne : t ≠ [])
    (hp : sa.Perm (List.range t.length)) :
    ∃ b, bwtFromSa t sa = .ok b ∧ b.map some = sa.map (fun i => (rot i t).getLast?) := by
  have h0 : 0 < t.length := List.length_pos_iff.2 hne
  have hsl := perm_range_length hp
  simp only [bwtFromSa]
  rw [rd_ok h0, ok_bind]
  rw [forRange_fill (g := fun i => t.getD ((t.length + sa.getD i 0 - 1) % t.length) t[0])
    (by simp) (by
      intro i w hi _
      rw [rd_ok (show i < sa.length by omega), ok_bind, usub_ok (by omega), ok_bind,
        rd_ok (Nat.mod_lt _ h0), ok_bind]
      simp [show i < sa.length by omega, Nat.mod_lt _ h0])]
  refine ⟨_, rfl, ?_⟩
  apply List.ext_getElem?
  intro i
  by_cases hi : i < t.length
  · have hi' : i < sa.length := by omega
    have hs : sa[i] < t.length := (perm_range_mem hp).1 (List.getElem_mem hi')
    simp [hi, hi', rot_getLast hs, Nat.mod_lt _ h0, Nat.add_comm]
  · rw [List.getElem?_eq_none (by simp; omega), List.getElem?_eq_none (by simp; omega)]

theorem bwtFromSa_nil (sa : List Nat) : bwtFromSa ([] : List α) sa = .error .index := rfl

section sentinel
variable [LinearOrder α]

/-- In a text whose last letter occurs nowhere else no suffix is a proper prefix of another one. -/
theorem mis_of_unique_last {w : List α} {z : α} (hz : z ∉ w) {i j : Nat}
    (hi : i < (w ++ [z]).length) (hj : j < (w ++ [z]).length)
    (h : (w ++ [z]).drop i < (w ++ [z]).drop j) : Mis ((w ++ [z]).drop i) ((w ++ [z]).drop j) := by
  rcases lt_iff_mis.1 h with ⟨h1, h2⟩ | h1
  · exfalso
    have hl : ((w ++ [z]).drop i).length < ((w ++ [z]).drop j).length := by
      refine lt_of_le_of_ne h1.length_le (fun e => h2 (h1.eq_of_length e))
    simp only [List.length_drop, List.length_append, List.length_singleton] at hl hi hj
    have e1 : ((w ++ [z]).drop i)[w.length - i]? = some z := by
      rw [List.getElem?_drop, show i + (w.length - i) = w.length by omega]; simp
    have e2 : ((w ++ [z]).drop j)[w.length - i]? = some z := by
      obtain ⟨s, hs⟩ := h1
      rw [← hs, List.getElem?_append_left (by simp; omega), e1]
    rw [List.getElem?_drop, List.getElem?_append_left (by omega)] at e2
    exact hz (List.mem_of_getElem? e2)
  · exact h1

theorem rot_lt_of_mis {t : List α} {i j : Nat} (h : Mis (t.drop i) (t.drop j)) :
    rot i t < rot j t := (h.append _ _).lt

/-- With a unique last letter, the suffix array sorts the rotations. -/
theorem sa_matrix {w : List α} {z : α} (hz : z ∉ w) {sa : List Nat}
    (h : IsSuffixArray (w ++ [z]) sa) :
    matrix (w ++ [z]) = sa.map (fun i => rot i (w ++ [z])) := by
  apply matrix_unique
  refine ⟨h.1.map _, ?_⟩
  rw [List.pairwise_map]
  refine h.2.imp_of_mem ?_
  intro a b ha hb hab
  exact (rot_lt_of_mis (mis_of_unique_last hz (h.mem.1 ha) (h.mem.1 hb) hab)).le

/-- Suffix order of `L ++ [z]` (with `z` below all letters of `L`) implies the order of the rotations
of a necklace `L`. -/
theorem necklace_suffix_rot {L : List α} {z : α} (hz : ∀ x ∈ L, z < x) (hL : IsNecklace L) {x y : Nat}
    (hx : x < L.length) (hy : y < L.length) (h : (L ++ [z]).drop x < (L ++ [z]).drop y) :
    rot x L ≤ rot y L := by
  rw [List.drop_append_of_le_length hx.le, List.drop_append_of_le_length hy.le] at h
  rcases word_cases (L.drop x) (L.drop y) with e | ⟨hp, hne⟩ | ⟨hp, hne⟩ | hm | hm
  · have := drop_injOn hx.le hy.le e
    rw [this]
  · -- `L[x..]` is a proper prefix of `L[y..]`
    obtain ⟨s, hs⟩ := hp
    have hlen : L.length - x + s.length = L.length - y := by
      have := congrArg List.length hs
      simpa [List.length_append] using this
    have hspos : 0 < s.length := by
      apply List.length_pos_iff.2
      rintro rfl
      rw [List.append_nil] at hs; exact hne hs
    -- rot y L = L[x..] ++ (s ++ L[..y]), and `s ++ L[..y]` starts a rotation of `L`
    have hs' : s = L.drop (y + (L.length - x)) := by
      rw [← List.drop_drop, ← hs, List.drop_append_of_le_length (by simp)]
      simp; omega
    rw [rot, rot, ← hs, List.append_assoc, append_le_left]
    -- compare `L.take x` with `s ++ L.take y`, both of length `x`
    have hk : y + (L.length - x) < L.length := by omega
    have h1 := hL (y + (L.length - x)) hk
    have h2 := take_le_take h1 x (Or.inl hx.le)
    refine h2.trans (le_of_eq ?_)
    rw [rot, ← hs', List.take_append, List.take_of_length_le (by omega), List.take_take]
    congr 2
    omega
  · -- `L[y..]` proper prefix of `L[x..]`: then the sentinel makes it smaller
    exfalso
    obtain ⟨s, hs⟩ := hp
    have hne' : s ≠ [] := by rintro rfl; rw [List.append_nil] at hs; exact hne hs.symm
    obtain ⟨c, s, rfl⟩ := List.exists_cons_of_ne_nil hne'
    have hc : z < c := by
      apply hz
      have : c ∈ L.drop x := by rw [← hs]; simp
      exact List.mem_of_mem_drop this
    rw [← hs, List.append_assoc, append_lt_left] at h
    have h' : [z] < c :: s ++ [z] := by
      rw [List.cons_append, cons_lt_cons]; exact Or.inl hc
    exact lt_asymm h h'
  · exact (hm.append _ _).lt.le
  · exact absurd h (lt_asymm ((hm.append _ _).lt))

end sentinel

/-! ### Byte texts -/

theorem byte_zero_lt {x : UInt8} (h : x ≠ 0) : (0 : UInt8) < x := UInt8.pos_iff_ne_zero.2 h

theorem bwtFromTextBySa_ok {sufsort : List UInt8 → List Nat} (hs : SortsSuffixes sufsort)
    {w : List UInt8} {z : UInt8} (hz : ∀ x ∈ w, x ≠ 0) (hlen : w.length < 2147483647) :
    ∃ b, bwtFromTextBySa sufsort (w ++ [z]) = .ok b ∧
      b.map some = (sufsort (w ++ [z])).map (fun i => (rot i (w ++ [z])).getLast?) := by
  have hsa := hs (w ++ [z]) (by simp; omega)
  obtain ⟨b, h1, h2⟩ := bwtFromSa_ok (t := w ++ [z]) (by simp) hsa.1
  refine ⟨b, ?_, h2⟩
  simp only [bwtFromTextBySa]
  rw [usub_ok (by simp), ok_bind]
  have : ((w ++ [z]).take ((w ++ [z]).length - 1)).any (fun x => x == 0) = false := by
    simp [List.any_eq_false]
    intro x hx; exact hz x hx
  rw [this]
  exact h1

theorem bwtFromTextBySa_nil (sufsort : List UInt8 → List Nat) :
    bwtFromTextBySa sufsort [] = .error .arith := rfl

theorem bwtFromTextBySa_zero (sufsort : List UInt8 → List Nat) {t : List UInt8} {i : Nat}
    (hi : i + 1 < t.length) (h : t[i]? = some 0) :
    bwtFromTextBySa sufsort t = .error .assert := by
  simp only [bwtFromTextBySa]
  rw [usub_ok (by omega), ok_bind]
  have : (t.take (t.length - 1)).any (fun x => x == 0) = true := by
    rw [List.any_eq_true]
    refine ⟨0, ?_, by simp⟩
    apply List.mem_of_getElem? (i := i)
    rw [List.getElem?_take_of_lt (by omega), h]
  rw [this]
  rfl

/-- The fast matrix BWT. -/
theorem bwtByMatrix_ok {sufsort : List UInt8 → List Nat} (hs : SortsSuffixes sufsort)
    {t : List UInt8} (ht : t ≠ []) (hz : ∀ x ∈ t, x ≠ 0) (hlen : t.length < 2147483647) :
    ∃ b, bwtByMatrix sufsort t = .ok b ∧ b.map some = (matrix t).map List.getLast? := by
  have hn : 0 < t.length := List.length_pos_iff.2 ht
  obtain ⟨p, hp1, hp2, hp3⟩ := lyndonConjugate_ok ht
  simp only [bwtByMatrix]
  rw [show assertR (decide (t.length > 0)) = .ok () by simp [assertR, hn], ok_bind, hp1, ok_bind,
    if_pos hp2.le]
  rw [show t.drop p ++ t.take p = rot p t from rfl]
  -- `L` is the least rotation
  have hLn : IsNecklace (rot p t) := by
    intro i hi
    rw [rot_length] at hi
    rw [rot_rot hp2.le hi.le]
    exact hp3 _ (Nat.mod_lt _ hn)
  have hLz : ∀ x ∈ rot p t, x ≠ 0 := fun x hx => hz x ((rot_perm p t).mem_iff.1 hx)
  have hmat : matrix t = matrix (rot p t) := (matrix_of_conj ⟨p, hp2.le, rfl⟩).symm
  have hLl : (rot p t).length = t.length := rot_length
  rw [hmat]
  generalize rot p t = L at *
  have hL : L ≠ [] := by rintro rfl; simp at hLl; omega
  have hLpos : 0 < L.length := by omega
  obtain ⟨b, hb1, hb2⟩ := bwtFromTextBySa_ok hs (w := L) (z := 0) hLz (by omega)
  rw [hb1, ok_bind]
  have hsa := hs (L ++ [0]) (by simp; omega)
  generalize sufsort (L ++ [0]) = sa at *
  -- the first suffix is `[0]`
  obtain ⟨r, hr1, hr2⟩ := hsa.rank (x := L.length) (by simp)
  have hr0 : r = 0 := by
    by_contra hr
    have h0 : 0 < sa.length := by omega
    have hlt := (hsa.lt_iff h0 hr1).2 (by omega)
    have h1 := hsa.lt h0
    have hne : sa[0] ≠ L.length := by
      intro e
      have := hsa.perm.inj h0 hr1 (e.trans hr2.symm); omega
    rw [hr2] at hlt
    simp only [List.length_append, List.length_singleton] at h1
    rw [List.drop_append_of_le_length (by omega),
      List.drop_append_of_le_length (le_refl _), List.drop_length, List.nil_append] at hlt
    obtain ⟨c, s, hcs⟩ := List.exists_cons_of_ne_nil (show L.drop sa[0] ≠ [] by simp; omega)
    have hc : (0 : UInt8) < c := by
      apply byte_zero_lt
      apply hLz
      have : c ∈ L.drop sa[0] := by rw [hcs]; simp
      exact List.mem_of_mem_drop this
    rw [hcs, List.cons_append, cons_lt_cons] at hlt
    rcases hlt with h | ⟨h, -⟩
    · exact lt_asymm h hc
    · exact hc.ne' h
  subst hr0
  obtain ⟨x, sa', rfl⟩ := List.exists_cons_of_ne_nil (show sa ≠ [] by
    rintro rfl; simp at hr1)
  simp at hr2
  subst hr2
  have hp' : sa'.Perm (List.range L.length) := by
    have := hsa.1
    rw [List.length_append, List.length_singleton, List.range_succ] at this
    exact List.Perm.cons_inv (this.trans List.perm_append_comm)
  have hlt' : ∀ i ∈ sa', i < L.length := fun i hi => (perm_range_mem hp').1 hi
  have hmat2 : matrix L = sa'.map (fun i => rot i L) := by
    apply matrix_unique
    refine ⟨hp'.map _, ?_⟩
    rw [List.pairwise_map]
    refine (List.Pairwise.of_cons hsa.2).imp_of_mem ?_
    intro a c ha hc hac
    exact necklace_suffix_rot (fun x hx => byte_zero_lt (hLz x hx)) hLn (hlt' a ha) (hlt' c hc) hac
  -- split at the row of position 0
  obtain ⟨pre, post, hsplit⟩ := List.append_of_mem ((perm_range_mem hp').2 hLpos)
  have hnd := perm_range_nodup hp'
  have hpre0 : ∀ i ∈ pre, i ≠ 0 := by
    intro i hi e; subst e; subst hsplit
    rw [List.nodup_append] at hnd
    exact hnd.2.2 0 hi 0 (by simp) rfl
  have hpost0 : ∀ i ∈ post, i ≠ 0 := by
    intro i hi e; subst e; subst hsplit
    rw [List.nodup_append] at hnd
    exact (List.nodup_cons.1 hnd.2.1).1 hi
  -- rows before it are `L` itself
  have hpreL : ∀ i ∈ pre, rot i L = L := by
    intro i hi
    have hsorted : (sa'.map (fun i => rot i L)).Pairwise (· ≤ ·) := hmat2 ▸ (matrix_spec L).2
    rw [hsplit, List.map_append, List.pairwise_append] at hsorted
    have := hsorted.2.2 (rot i L) (List.mem_map.2 ⟨i, hi, rfl⟩) (rot 0 L)
      (List.mem_map.2 ⟨0, by simp, rfl⟩)
    rw [rot_zero] at this
    exact le_antisymm this (hLn i (hlt' i (by rw [hsplit]; simp [hi])))
  -- last letters
  let f : Nat → UInt8 := fun i => (L.getD ((i + L.length - 1) % L.length) 0)
  have hf : ∀ i, i < L.length → (rot i L).getLast? = some (f i) := by
    intro i hi
    rw [rot_getLast hi]
    have : (i + L.length - 1) % L.length < L.length := Nat.mod_lt _ hLpos
    simp [f, this]
  have hg : ∀ i, i < L.length → i ≠ 0 → (rot i (L ++ [0])).getLast? = some (f i) := by
    intro i hi hi0
    have e1 : (i + L.length - 1) % L.length = i - 1 := by
      rw [show i + L.length - 1 = i - 1 + L.length by omega, Nat.add_mod_right, Nat.mod_eq_of_lt]
      omega
    have e2 : (i + (L.length + 1) - 1) % (L.length + 1) = i - 1 := by
      rw [show i + (L.length + 1) - 1 = i - 1 + (L.length + 1) by omega, Nat.add_mod_right,
        Nat.mod_eq_of_lt]
      omega
    rw [rot_getLast (by simp; omega), List.length_append, List.length_singleton, e2]
    rw [List.getElem?_append_left (by omega)]
    simp [f, e1, show i - 1 < L.length by omega]
  have hg0 : (rot 0 (L ++ [0])).getLast? = some (0 : UInt8) := by
    rw [rot_zero]; simp
  have hgn : (rot L.length (L ++ [0])).getLast? = some (f 0) := by
    rw [rot_append, List.getLast?_append, ← hf 0 hLpos, rot_zero]
    obtain ⟨c, hc⟩ := List.getLast?_isSome.2 hL |> Option.isSome_iff_exists.1
    rw [hc]; rfl
  have hfpre : pre.map f = List.replicate pre.length (f 0) := by
    rw [List.eq_replicate_iff]
    refine ⟨by simp, ?_⟩
    intro c hc
    obtain ⟨i, hi, rfl⟩ := List.mem_map.1 hc
    have h1 := hf i (hlt' i (by rw [hsplit]; simp [hi]))
    have h2 := hf 0 hLpos
    rw [hpreL i hi] at h1
    rw [rot_zero, h1] at h2
    simpa using h2
  have hfnz : ∀ i, i < L.length → f i ≠ 0 := by
    intro i hi
    have := hf i hi
    rw [rot_getLast hi] at this
    exact hLz _ (List.mem_of_getElem? this)
  have hb3 : b = f 0 :: pre.map f ++ 0 :: post.map f := by
    apply map_some_inj
    rw [hb2, hsplit]
    simp only [List.map_cons, List.map_append, hgn, hg0, List.map_map, List.cons_append]
    congr 2
    · apply List.map_congr_left
      intro i hi
      exact hg i (hlt' i (by rw [hsplit]; simp [hi])) (hpre0 i hi)
    · congr 1
      apply List.map_congr_left
      intro i hi
      exact hg i (hlt' i (by rw [hsplit]; simp [hi])) (hpost0 i hi)
  have hfind : b.findIdx? (fun x => x == 0) = some (pre.length + 1) := by
    rw [List.findIdx?_eq_some_iff_getElem]
    refine ⟨by simp [hb3], ?_, ?_⟩
    · simp [hb3]
    · intro j hj
      have hj' : j < (f 0 :: pre.map f).length := by simp; omega
      have : b[j]'(by simp [hb3]; omega) = (f 0 :: pre.map f)[j] := by
        subst hb3
        rw [List.getElem_append_left hj']
      rw [this]
      have hm := List.getElem_mem hj'
      rw [List.mem_cons, List.mem_map] at hm
      simp only [beq_iff_eq]
      rcases hm with h | ⟨i, hi, h⟩
      · rw [h]; exact hfnz 0 hLpos
      · rw [← h]; exact hfnz i (hlt' i (by rw [hsplit]; simp [hi]))
  refine ⟨b.eraseIdx (pre.length + 1), by simp only [removeFirstZero, hfind], ?_⟩
  rw [hmat2, hsplit, hb3]
  have her : (f 0 :: pre.map f ++ 0 :: post.map f).eraseIdx (pre.length + 1) =
      f 0 :: pre.map f ++ post.map f := by
    rw [List.eraseIdx_append_of_length_le (by simp)]
    simp
  rw [her, hfpre]
  simp only [List.map_append, List.map_cons, List.map_map]
  have h1 : pre.map (List.getLast? ∘ fun i => rot i L) = List.replicate pre.length (some (f 0)) := by
    rw [← List.map_replicate, ← hfpre, List.map_map]
    apply List.map_congr_left
    intro i hi
    exact hf i (hlt' i (by rw [hsplit]; simp [hi]))
  have h2 : post.map (List.getLast? ∘ fun i => rot i L) = post.map (some ∘ f) := by
    apply List.map_congr_left
    intro i hi
    exact hf i (hlt' i (by rw [hsplit]; simp [hi]))
  rw [h1, h2, hf 0 hLpos, List.map_replicate]
  rw [show List.replicate pre.length (some (f 0)) ++ some (f 0) :: post.map (some ∘ f) =
    List.replicate pre.length (some (f 0)) ++ [some (f 0)] ++ post.map (some ∘ f) by simp]
  rw [← List.replicate_succ', List.replicate_succ]

end Verif
