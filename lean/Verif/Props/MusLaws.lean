import Verif.Lemmas.MusLaws
import Verif.Props.Mus
import Verif.Props.Attractor

/-! # C132: laws of the minimal unique substrings that `get_mus` returns -/

namespace Verif.Props

open Verif Spec Model

/-- `get_mus`, called on the arrays that the functions of the library compute for `T` and a sentinel, returns `r`. -/
def GetMusReturns (sufsort : List UInt8 → List Nat) (T : List UInt8) (r : List (Nat × Nat)) : Prop :=
  ∃ isa phi plcp lcp, inversePermutation 2147483647 (sufsort (T ++ [0])) = .ok isa ∧
    computePhi (sufsort (T ++ [0])) = .ok phi ∧ computePlcp (T ++ [0]) phi = .ok plcp ∧
    computeLcp plcp (sufsort (T ++ [0])) = .ok lcp ∧ getMus (sufsort (T ++ [0])) isa lcp = .ok r

variable (sufsort : List UInt8 → List Nat) (hs : SortsSuffixes sufsort)
include hs

theorem getMus_spec {T : List UInt8} (hT : ∀ x ∈ T, x ≠ 0) (hlen : T.length < 2147483647) {r : List (Nat × Nat)} :
    GetMusReturns sufsort T r ↔ r.Pairwise (fun a b => a.1 < b.1) ∧ ∀ i l, (i, l) ∈ r ↔ IsMus T i l := by
  obtain ⟨isa, phi, plcp, lcp, r', h1, h2, h3, h4, h5, h6, h7⟩ := C23_get_mus_exact sufsort hs T hT hlen
  constructor
  · rintro ⟨isa', phi', plcp', lcp', g1, g2, g3, g4, g5⟩
    rw [h1] at g1; injection g1 with g1; subst g1
    rw [h2] at g2; injection g2 with g2; subst g2
    rw [h3] at g3; injection g3 with g3; subst g3
    rw [h4] at g4; injection g4 with g4; subst g4
    rw [h5] at g5; injection g5 with g5; subst g5
    exact ⟨h6, h7⟩
  · rintro ⟨g1, g2⟩
    rw [pairs_ext g1 h6 fun i l => by rw [g2, h7]]
    exact ⟨isa, phi, plcp, lcp, h1, h2, h3, h4, h5⟩

omit hs in
theorem snoc_ne0 (T : List UInt8) {c : UInt8} (hT : ∀ x ∈ T, x ≠ 0) (hc : c ≠ 0) : ∀ x ∈ T ++ [c], x ≠ 0 := by
  intro x hx
  rcases List.mem_append.1 hx with hx | hx
  · exact hT x hx
  · rw [List.mem_singleton.1 hx]; exact hc

/-- C132: there is always exactly one result; it is empty only for the empty text, has at most one entry for each position, and both ends
of the substrings strictly increase. -/
theorem C132_shape (T : List UInt8) (hT : ∀ x ∈ T, x ≠ 0) (hlen : T.length < 2147483647) :
    ∃ r, GetMusReturns sufsort T r ∧ (∀ r', GetMusReturns sufsort T r' → r' = r) ∧ (r = [] ↔ T = []) ∧ r.length ≤ T.length ∧
      (∀ x ∈ r, 1 ≤ x.2 ∧ x.1 + x.2 ≤ T.length) ∧ r.Pairwise (fun a b => a.1 < b.1 ∧ a.1 + a.2 < b.1 + b.2) := by
  obtain ⟨isa, phi, plcp, lcp, r, h1, h2, h3, h4, h5, h6, h7⟩ := C23_get_mus_exact sufsort hs T hT hlen
  have hb : ∀ x ∈ r, 1 ≤ x.2 ∧ x.1 + x.2 ≤ T.length := by
    rintro ⟨i, l⟩ hx
    have := (h7 i l).1 hx
    exact ⟨this.1, this.2.1⟩
  refine ⟨r, ⟨isa, phi, plcp, lcp, h1, h2, h3, h4, h5⟩, ?_, ?_, ?_, hb, ?_⟩
  · intro r' hr
    obtain ⟨g1, g2⟩ := (getMus_spec sufsort hs hT hlen).1 hr
    exact pairs_ext g1 h6 fun i l => by rw [g2, h7]
  · constructor
    · rintro rfl
      by_contra h0
      obtain ⟨j, m, hm, -, -⟩ := exists_mus (uq_whole h0)
      exact absurd ((h7 j m).2 hm) (by simp)
    · rintro rfl
      refine List.eq_nil_iff_forall_not_mem.2 fun x hx => ?_
      have := hb x hx
      simp at this
      omega
  · have hnd : (r.map Prod.fst).Nodup := by
      rw [List.nodup_iff_pairwise_ne, List.pairwise_map]
      exact h6.imp fun h => h.ne
    have hsub : (r.map Prod.fst) ⊆ List.range T.length := by
      intro i hi
      obtain ⟨x, hx, rfl⟩ := List.mem_map.1 hi
      have := hb x hx
      exact List.mem_range.2 (by omega)
    have := (List.subperm_of_subset hnd hsub).length_le
    simpa using this
  · exact h6.imp_of_mem fun {a b} ha hb h => ⟨h, IsMus.ends_lt ((h7 a.1 a.2).1 ha) ((h7 b.1 b.2).1 hb) h⟩

example := C132_shape naiveSufsort naiveSufsort_sorts [97, 98, 97, 97, 98] (by decide) (by decide)

/-- C132: a substring occurs nowhere else exactly if it contains one of the reported substrings. -/
theorem C132_decides_uniqueness (T : List UInt8) (hT : ∀ x ∈ T, x ≠ 0) (hlen : T.length < 2147483647) (r : List (Nat × Nat))
    (hr : GetMusReturns sufsort T r) (i l : Nat) (hl : 1 ≤ l) (hi : i + l ≤ T.length) :
    (∀ j, OccursAt ((T.drop i).take l) T j → j = i) ↔ ∃ x ∈ r, i ≤ x.1 ∧ x.1 + x.2 ≤ i + l := by
  obtain ⟨-, h⟩ := (getMus_spec sufsort hs hT hlen).1 hr
  have h1 := uq_iff_mus (t := T) (i := i) (l := l) hi
  rw [uq_iff] at h1
  constructor
  · intro h2
    obtain ⟨j, m, h3, h4, h5⟩ := h1.1 ⟨hl, hi, h2⟩
    exact ⟨(j, m), (h j m).2 h3, h4, h5⟩
  · rintro ⟨⟨j, m⟩, h3, h4, h5⟩
    exact (h1.2 ⟨j, m, (h j m).1 h3, h4, h5⟩).2.2

example : GetMusReturns naiveSufsort [97, 98, 97, 97, 98, 97, 98, 97] [(2, 2), (4, 3)] :=
  ⟨_, _, _, _, rfl, rfl, rfl, rfl, by decide +kernel⟩

/-- C132: reversing the text mirrors the result. -/
theorem C132_reverse (T : List UInt8) (hT : ∀ x ∈ T, x ≠ 0) (hlen : T.length < 2147483647) (r : List (Nat × Nat))
    (hr : GetMusReturns sufsort T r) : GetMusReturns sufsort T.reverse (r.map fun x => (T.length - x.1 - x.2, x.2)).reverse := by
  obtain ⟨h0, h⟩ := (getMus_spec sufsort hs hT hlen).1 hr
  rw [getMus_spec sufsort hs (by simpa using hT) (by simpa using hlen), List.pairwise_reverse, List.pairwise_map]
  constructor
  · refine h0.imp_of_mem fun {a b} ha hb hlt => ?_
    have h1 := (h a.1 a.2).1 ha
    have h2 := (h b.1 b.2).1 hb
    have := IsMus.ends_lt h1 h2 hlt
    have := h2.2.1
    omega
  · intro i l
    simp only [List.mem_reverse, List.mem_map, Prod.mk.injEq, Prod.exists]
    constructor
    · rintro ⟨a, b, hab, rfl, rfl⟩
      exact isMus_reverse ((h a b).1 hab)
    · intro hm
      have := isMus_reverse hm
      simp only [List.reverse_reverse, List.length_reverse] at this
      have hb := hm.2.1
      rw [List.length_reverse] at hb
      exact ⟨_, _, (h _ _).2 this, by omega, rfl⟩

example := C132_reverse naiveSufsort naiveSufsort_sorts [97, 98, 97, 97, 98, 97, 98, 97] (by decide) (by decide) [(2, 2), (4, 3)]
  ⟨_, _, _, _, rfl, rfl, rfl, rfl, by decide +kernel⟩

/-- C132: the result does not depend on which letters are used. -/
theorem C132_rename (T : List UInt8) (hT : ∀ x ∈ T, x ≠ 0) (hlen : T.length < 2147483647) (g : UInt8 → UInt8)
    (hg : ∀ x y, g x = g y → x = y) (h0 : g 0 = 0) (r : List (Nat × Nat)) :
    GetMusReturns sufsort (T.map g) r ↔ GetMusReturns sufsort T r := by
  have hT' : ∀ x ∈ T.map g, x ≠ 0 := by
    intro x hx
    obtain ⟨y, hy, rfl⟩ := List.mem_map.1 hx
    exact fun e => hT y hy (hg _ _ (e.trans h0.symm))
  rw [getMus_spec sufsort hs hT hlen, getMus_spec sufsort hs hT' (by simpa using hlen)]
  simp only [isMus_map hg]

example := C132_rename naiveSufsort naiveSufsort_sorts [97, 98, 97] (by decide) (by decide) (fun x => if x = 97 then 98 else if x = 98 then 97 else x)
  (by intro x y h; split_ifs at h <;> simp_all) (by decide)

/-- C132: appending a letter that does not occur appends one entry; prepending it shifts all others. -/
theorem C132_fresh_letter (T : List UInt8) (hT : ∀ x ∈ T, x ≠ 0) (hlen : T.length + 1 < 2147483647) (c : UInt8) (hc : c ∉ T) (hc0 : c ≠ 0)
    (r : List (Nat × Nat)) (hr : GetMusReturns sufsort T r) :
    GetMusReturns sufsort (T ++ [c]) (r ++ [(T.length, 1)]) ∧
      GetMusReturns sufsort (c :: T) ((0, 1) :: r.map fun x => (x.1 + 1, x.2)) := by
  have app : ∀ (T : List UInt8), (∀ x ∈ T, x ≠ 0) → T.length + 1 < 2147483647 → c ∉ T → ∀ r, GetMusReturns sufsort T r →
      GetMusReturns sufsort (T ++ [c]) (r ++ [(T.length, 1)]) := by
    intro T hT hlen hc r hr
    obtain ⟨h0, h⟩ := (getMus_spec sufsort hs hT (by omega)).1 hr
    rw [getMus_spec sufsort hs (snoc_ne0 _ (by simpa using hT) hc0) (by simpa using hlen)]
    constructor
    · rw [List.pairwise_append]
      refine ⟨h0, by simp, fun a ha b hb => ?_⟩
      rw [List.mem_singleton.1 hb]
      have := (h a.1 a.2).1 ha
      have h1 := this.1
      have h2 := this.2.1
      omega
    · intro i l
      rw [isMus_snoc_fresh hc, List.mem_append, h, List.mem_singleton]
  refine ⟨app T hT hlen hc r hr, ?_⟩
  have h1 := C132_reverse sufsort hs T hT (by omega) r hr
  have h2 := app T.reverse (by simpa using hT) (by simpa using hlen) (by simpa using hc) _ h1
  have h3 := C132_reverse sufsort hs _ (snoc_ne0 _ (by simpa using hT) hc0) (by simpa using hlen) _ h2
  have hin : ∀ x ∈ r, x.1 + x.2 ≤ T.length := by
    intro x hx
    exact (((getMus_spec sufsort hs hT (by omega)).1 hr).2 x.1 x.2 |>.1 hx).2.1
  convert h3 using 1
  · simp
  · simp only [List.length_reverse, List.map_append, List.map_reverse, List.map_map, List.map_cons, List.map_nil, List.reverse_append,
      List.reverse_reverse, List.length_append, List.length_singleton, List.reverse_cons, List.reverse_nil, List.nil_append,
      List.singleton_append]
    congr 1
    · rw [Prod.mk.injEq]; exact ⟨by omega, rfl⟩
    · refine List.map_congr_left fun x hx => ?_
      have := hin x hx
      simp only [Function.comp, Prod.mk.injEq, and_true]
      omega

example := C132_fresh_letter naiveSufsort naiveSufsort_sorts [97, 98, 97, 97, 98, 97, 98, 97] (by decide) (by decide) 99 (by decide)
  (by decide) [(2, 2), (4, 3)] ⟨_, _, _, _, rfl, rfl, rfl, rfl, by decide +kernel⟩

/-- C132: the whole text is reported exactly if all its letters are equal, and then nothing else is. -/
theorem C132_whole (T : List UInt8) (hT : ∀ x ∈ T, x ≠ 0) (hlen : T.length < 2147483647) (h0 : T ≠ []) (r : List (Nat × Nat))
    (hr : GetMusReturns sufsort T r) :
    ((0, T.length) ∈ r ↔ ∃ a, T = List.replicate T.length a) ∧ ((0, T.length) ∈ r → r = [(0, T.length)]) := by
  obtain ⟨hp, h⟩ := (getMus_spec sufsort hs hT hlen).1 hr
  have key : ∀ a, T = List.replicate T.length a → r = [(0, T.length)] := by
    intro a e
    refine pairs_ext hp (by simp) fun i l => ?_
    rw [h, List.mem_singleton]
    conv_lhs => rw [e]
    exact mus_replicate (List.length_pos_iff.2 h0)
  have fwd : (0, T.length) ∈ r → ∃ a, T = List.replicate T.length a := fun hm => replicate_of_mus_whole ((h _ _).1 hm)
  refine ⟨⟨fwd, ?_⟩, fun hm => ?_⟩
  · rintro ⟨a, e⟩
    rw [key a e]
    simp
  · obtain ⟨a, e⟩ := fwd hm
    exact key a e

example : GetMusReturns naiveSufsort [97, 97, 97] [(0, 3)] := ⟨_, _, _, _, rfl, rfl, rfl, rfl, by decide +kernel⟩

/-- C132: a single letter is reported exactly if it occurs only there; all entries are single letters of all positions exactly if no
letter repeats. -/
theorem C132_letters (T : List UInt8) (hT : ∀ x ∈ T, x ≠ 0) (hlen : T.length < 2147483647) (r : List (Nat × Nat))
    (hr : GetMusReturns sufsort T r) :
    (∀ i, (i, 1) ∈ r ↔ ∃ c, T[i]? = some c ∧ T.count c = 1) ∧ (r = (List.range T.length).map (fun i => (i, 1)) ↔ T.Nodup) := by
  obtain ⟨hp, h⟩ := (getMus_spec sufsort hs hT hlen).1 hr
  have hone : ∀ i, (i, 1) ∈ r ↔ ∃ (hi : i < T.length), ∀ j (hj : j < T.length), T[j] = T[i] → j = i := by
    intro i
    have hu : IsMus T i 1 ↔ Uq T i 1 := by
      rw [isMus_iff_uq]
      refine ⟨fun x => x.1, fun x => ⟨x, fun j m a b hne hu => ?_⟩⟩
      have := hu.1
      exact hne (by rw [show j = i by omega, show m = 1 by omega])
    rw [h, hu]
    constructor
    · rintro ⟨-, hi, hj⟩
      refine ⟨by omega, fun j hjl e => hj j ⟨by omega, by omega, fun k hk => ?_⟩⟩
      obtain rfl : k = 0 := by omega
      rw [Nat.add_zero, Nat.add_zero, List.getElem?_eq_getElem hjl, List.getElem?_eq_getElem (by omega), e]
    · rintro ⟨hi, hj⟩
      refine ⟨by omega, by omega, fun j ho => hj j (by have := ho.1; omega) ?_⟩
      have := ho.2.2 0 (by omega)
      rw [Nat.add_zero, Nat.add_zero, List.getElem?_eq_getElem (by have := ho.1; omega), List.getElem?_eq_getElem hi] at this
      exact Option.some.inj this
  have hcount : ∀ i, (i, 1) ∈ r ↔ ∃ c, T[i]? = some c ∧ T.count c = 1 := by
    intro i
    rw [hone]
    constructor
    · rintro ⟨hi, hj⟩
      refine ⟨T[i], List.getElem?_eq_getElem hi, ?_⟩
      have hge : 1 ≤ T.count T[i] := List.count_pos_iff.2 (List.getElem_mem hi)
      by_contra hne
      have h2 : 2 ≤ T.count T[i] := by omega
      have hd := List.duplicate_iff_two_le_count.2 h2
      obtain ⟨n, m, hnm, e1, e2⟩ := List.duplicate_iff_exists_distinct_get.1 hd
      have f1 := hj n.1 n.2 (by simpa using e1.symm)
      have f2 := hj m.1 m.2 (by simpa using e2.symm)
      have : n.1 < m.1 := hnm
      omega
    · rintro ⟨c, hc, h1⟩
      obtain ⟨hi, rfl⟩ := List.getElem?_eq_some_iff.1 hc
      refine ⟨hi, fun j hj e => ?_⟩
      by_contra hne
      have hd : List.Duplicate T[i] T := by
        rw [List.duplicate_iff_exists_distinct_get]
        rcases Nat.lt_or_gt_of_ne hne with hlt | hlt
        · exact ⟨⟨j, hj⟩, ⟨i, hi⟩, hlt, by simpa using e.symm, by simp⟩
        · exact ⟨⟨i, hi⟩, ⟨j, hj⟩, hlt, by simp, by simpa using e.symm⟩
      have := List.duplicate_iff_two_le_count.1 hd
      omega
  refine ⟨hcount, ?_⟩
  constructor
  · intro e
    rw [List.nodup_iff_count_le_one]
    intro c
    by_cases hc : c ∈ T
    · obtain ⟨i, hi, rfl⟩ := List.mem_iff_getElem.1 hc
      have : (i, 1) ∈ r := by rw [e]; exact List.mem_map.2 ⟨i, List.mem_range.2 hi, rfl⟩
      obtain ⟨c, h1, h2⟩ := (hcount i).1 this
      rw [List.getElem?_eq_getElem hi] at h1
      rw [Option.some.inj h1, h2]
    · rw [List.count_eq_zero.2 hc]; omega
  · intro hn
    have h1 : ∀ i, i < T.length → (i, 1) ∈ r := by
      intro i hi
      rw [hcount]
      exact ⟨T[i], List.getElem?_eq_getElem hi, List.count_eq_one_of_mem hn (List.getElem_mem hi)⟩
    refine pairs_ext hp ?_ fun i l => ?_
    · rw [List.pairwise_map]
      exact List.pairwise_lt_range.imp fun h => h
    · simp only [List.mem_map, List.mem_range, Prod.mk.injEq]
      constructor
      · intro hm
        have hmu := (h i l).1 hm
        have hb := hmu.2.1
        have hl := hmu.1
        refine ⟨i, by omega, rfl, ?_⟩
        by_contra hne
        exact (isMus_iff_uq.1 hmu).2 i 1 le_rfl (by omega) (fun e => hne (by injection e)) (isMus_iff_uq.1 ((h i 1).1 (h1 i (by omega)))).1
      · rintro ⟨j, hj, rfl, rfl⟩
        exact h1 j hj

example : GetMusReturns naiveSufsort [98, 97, 99] [(0, 1), (1, 1), (2, 1)] := ⟨_, _, _, _, rfl, rfl, rfl, rfl, by decide +kernel⟩

/-- C132: every string attractor has a position in each of the reported substrings. -/
theorem C132_attractor (T : List UInt8) (h0 : T ≠ []) (hT : ∀ x ∈ T, x ≠ 0) (hlen : T.length < 2147483647) (r : List (Nat × Nat))
    (hr : GetMusReturns sufsort T r) (positions : List Nat) (hp : ∀ p ∈ positions, p < T.length + 1)
    (ha : isAttractor sufsort (T ++ [0]) positions = .ok true) : ∀ x ∈ r, ∃ p ∈ positions, x.1 ≤ p ∧ p < x.1 + x.2 := by
  obtain ⟨-, h⟩ := (getMus_spec sufsort hs hT hlen).1 hr
  have hatt := (C25_attractor_exact sufsort hs T h0 hT hlen positions hp).1.1 ha
  rintro ⟨i, l⟩ hx
  have hm := (h i l).1 hx
  obtain ⟨hu, -⟩ := isMus_iff_uq.1 hm
  obtain ⟨hl, hi, hocc⟩ := uq_iff.1 hu
  have hlen' : ((T.drop i).take l).length = l := by simp; omega
  obtain ⟨j, hj, p, hp1, hp2, hp3⟩ := hatt ((T.drop i).take l) (fun e => by rw [e] at hlen'; simp at hlen'; omega)
    ((List.take_prefix _ _).isInfix.trans (List.drop_suffix _ _).isInfix)
  rw [hocc j hj] at hp2 hp3
  rw [hlen'] at hp3
  exact ⟨p, hp1, hp2, hp3⟩

example : GetMusReturns naiveSufsort [97, 98] [(0, 1), (1, 1)] ∧ isAttractor naiveSufsort [97, 98, 0] [0, 1] = .ok true :=
  ⟨⟨_, _, _, _, rfl, rfl, rfl, rfl, by decide +kernel⟩, by decide +kernel⟩

end Verif.Props
