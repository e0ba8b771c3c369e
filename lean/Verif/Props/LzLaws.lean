import Verif.Lemmas.LzLaws
import Verif.Lemmas.LzWords
import Verif.Props.Lz
import Verif.Props.Streams

/-! # C118: laws of the number of factors `count_z` reports

`Factors sufsort t z` says that the chain of `count_z` finds `z` factors in the text `t`.  `IsRuns` is in
`Verif/Spec/Streams.lean`. -/

namespace Verif.Props

open Verif Spec Model

/-- `count_z` finds `z` factors in `t`. -/
def Factors (sufsort : List UInt8 → List Nat) (t : List UInt8) (z : Nat) : Prop :=
  ∃ fs, countZFactors sufsort t = .ok fs ∧ fs.length = z

theorem Factors.parse {sufsort : List UInt8 → List Nat} (hs : SortsSuffixes sufsort) {t : List UInt8} {z : Nat} (h0 : t ≠ [])
    (hlen : t.length < 2147483648) (h : Factors sufsort t z) :
    (∃ ls, IsParse t 0 ls ∧ ls.length = z) ∧ ∀ ls, IsParse t 0 ls → z ≤ ls.length := by
  obtain ⟨fs, h1, rfl⟩ := h
  obtain ⟨gs, g1, g2, g3⟩ := C21_lz77_minimal sufsort hs t h0 hlen
  rw [h1] at g1
  injection g1 with g1
  subst g1
  exact ⟨g2, g3⟩

/-- C118: every non-empty text of less than `2^31` bytes has a number of factors, and only one. -/
theorem C118_defined (sufsort : List UInt8 → List Nat) (hs : SortsSuffixes sufsort) (t : List UInt8) (h0 : t ≠ [])
    (hlen : t.length < 2147483648) : ∃! z, Factors sufsort t z := by
  obtain ⟨fs, h1, -⟩ := C21_lz77_minimal sufsort hs t h0 hlen
  refine ⟨fs.length, ⟨fs, h1, rfl⟩, ?_⟩
  rintro z ⟨gs, g1, rfl⟩
  rw [h1] at g1
  injection g1 with g1
  rw [g1]

example := C118_defined naiveSufsort naiveSufsort_sorts [97, 98, 97, 97] (by decide) (by decide)

/-- C118: the number does not decrease when the text goes on, and it grows by at most the number of the appended text. -/
theorem C118_append (sufsort : List UInt8 → List Nat) (hs : SortsSuffixes sufsort) (u v : List UInt8) (hu : u ≠ []) (hv : v ≠ [])
    (hlen : (u ++ v).length < 2147483648) (a b c : Nat) (ha : Factors sufsort u a) (hb : Factors sufsort v b)
    (hc : Factors sufsort (u ++ v) c) : a ≤ c ∧ c ≤ a + b := by
  have hl := List.length_append (as := u) (bs := v)
  obtain ⟨⟨la, a1, rfl⟩, a2⟩ := ha.parse hs hu (by omega)
  obtain ⟨⟨lb, b1, rfl⟩, -⟩ := hb.parse hs hv (by omega)
  obtain ⟨⟨lc, c1, rfl⟩, c2⟩ := hc.parse hs (by simp [hu]) hlen
  obtain ⟨ms, m1, m2⟩ := parse_prefix lc 0 (Nat.zero_le _) c1
  exact ⟨(a2 ms m1).trans m2, by simpa using c2 _ (parse_append a1 b1)⟩

example := C118_append naiveSufsort naiveSufsort_sorts [97, 98] [97, 97] (by decide) (by decide) (by decide) 2 2 4
  ⟨[⟨97, 0⟩, ⟨98, 0⟩], by decide, rfl⟩ ⟨[⟨97, 0⟩, ⟨1, 1⟩], by decide, rfl⟩ ⟨[⟨97, 0⟩, ⟨98, 0⟩, ⟨2, 1⟩, ⟨1, 1⟩], by decide, rfl⟩

/-- C118: repeating a text costs at most one factor, and from the second repetition on nothing at all. -/
theorem C118_power (sufsort : List UInt8 → List Nat) (hs : SortsSuffixes sufsort) (w : List UInt8) (hw : w ≠ []) (k : Nat) (hk : 2 ≤ k)
    (hlen : k * w.length < 2147483648) (a b c : Nat) (ha : Factors sufsort w a) (hb : Factors sufsort (w ++ w) b)
    (hc : Factors sufsort (List.replicate k w).flatten c) : c = b ∧ a ≤ c ∧ c ≤ a + 1 := by
  have hw' := List.length_pos_iff.2 hw
  obtain ⟨m, rfl⟩ := Nat.exists_eq_add_of_le' hk
  have e : (List.replicate (m + 2) w).flatten = (w ++ w) ++ (List.replicate m w).flatten := by
    simp [List.replicate_succ]
  have hl : (List.replicate (m + 2) w).flatten.length = (m + 2) * w.length := by simp
  have h2 : (m + 2) * w.length = m * w.length + 2 * w.length := Nat.add_mul _ _ _
  have hne : (List.replicate (m + 2) w).flatten ≠ [] := by rw [e]; simp [hw]
  have hper := power_period w (m + 2)
  obtain ⟨⟨la, a1, rfl⟩, a2⟩ := ha.parse hs hw (by omega)
  obtain ⟨⟨lb, b1, rfl⟩, b2⟩ := hb.parse hs (by simp [hw]) (by simp; omega)
  obtain ⟨⟨lc, c1, rfl⟩, c2⟩ := hc.parse hs hne (by omega)
  have c1' := c1
  rw [e] at c1'
  obtain ⟨ms, m1, m2⟩ := parse_prefix lc 0 (Nat.zero_le _) c1'
  obtain ⟨ns, n1, n2⟩ := parse_prefix (u := w) (v := w) ms 0 (Nat.zero_le _) m1
  obtain ⟨ps, p1, p2⟩ := parse_power (u := w ++ w) (v := (List.replicate m w).flatten) e hw' hper (by simp; omega) lb 0
    (by simp; omega) b1
  have h3 := a2 ns n1
  have h4 := b2 ms m1
  have h5 := c2 ps p1
  have h6 := c2 (la ++ [(m + 2) * w.length - w.length]) (by
    have hx := parse_periodic (t := (List.replicate (m + 2) w).flatten) hw' hper (i := w.length) (le_refl _) (by omega)
    rw [hl] at hx
    have e2 : (List.replicate (m + 2) w).flatten = w ++ (List.replicate (m + 1) w).flatten := by simp [List.replicate_succ]
    rw [e2] at hx ⊢
    exact parse_concat la _ 0 a1 hx)
  simp only [List.length_append, List.length_cons, List.length_nil] at h6
  omega

example := C118_power naiveSufsort naiveSufsort_sorts [97, 98] (by decide) 3 (by decide) (by decide) 2 3 3
  ⟨[⟨97, 0⟩, ⟨98, 0⟩], by decide, rfl⟩ ⟨[⟨97, 0⟩, ⟨98, 0⟩, ⟨2, 2⟩], by decide, rfl⟩ ⟨[⟨97, 0⟩, ⟨98, 0⟩, ⟨2, 4⟩], by decide, rfl⟩

/-- C118: a one-to-one renaming of the letters does not change the number. -/
theorem C118_rename (sufsort : List UInt8 → List Nat) (hs : SortsSuffixes sufsort) (t : List UInt8) (h0 : t ≠ [])
    (hlen : t.length < 2147483648) (f : UInt8 → UInt8) (hf : ∀ x ∈ t, ∀ y ∈ t, f x = f y → x = y) (z : Nat) :
    Factors sufsort (t.map f) z ↔ Factors sufsort t z := by
  obtain ⟨a, ha, ha'⟩ := C118_defined sufsort hs t h0 hlen
  obtain ⟨b, hb, hb'⟩ := C118_defined sufsort hs (t.map f) (by simpa using h0) (by simpa using hlen)
  obtain ⟨⟨la, a1, a0⟩, a2⟩ := Factors.parse hs h0 hlen ha
  obtain ⟨⟨lb, b1, b0⟩, b2⟩ := Factors.parse hs (by simpa using h0) (by simpa using hlen) hb
  have h1 := b2 la (parse_map la 0 a1)
  have h2 := a2 lb (parse_map_inj hf lb 0 b1)
  have h : a = b := by omega
  subst h
  exact ⟨fun h => by rw [hb' z h]; exact ha, fun h => by rw [ha' z h]; exact hb⟩

example := C118_rename naiveSufsort naiveSufsort_sorts [97, 98, 97] (by decide) (by decide) (fun c => 255 - c) (by decide) 3

/-- C118: inserting one byte at most doubles the number, plus two; deleting one at most triples it, plus one. -/
theorem C118_edit (sufsort : List UInt8 → List Nat) (hs : SortsSuffixes sufsort) (u v : List UInt8) (c : UInt8) (h0 : u ++ v ≠ [])
    (hlen : (u ++ c :: v).length < 2147483648) (z z' : Nat) (hz : Factors sufsort (u ++ v) z)
    (hz' : Factors sufsort (u ++ c :: v) z') : z' ≤ 2 * z + 2 ∧ z ≤ 3 * z' + 1 := by
  have hL := ins_len (u := u) (v := v) (c := c)
  obtain ⟨⟨la, a1, rfl⟩, a2⟩ := hz.parse hs h0 (by omega)
  obtain ⟨⟨lb, b1, rfl⟩, b2⟩ := hz'.parse hs (by simp) hlen
  obtain ⟨ms, m1, m2⟩ := ins_parse (c := c) la 0 (Nat.zero_le _) a1
  obtain ⟨ns, n1, n2⟩ := del_parse lb 0 (Nat.zero_le _) b1
  exact ⟨(b2 ms m1).trans m2, (a2 ns n1).trans n2⟩

example := C118_edit naiveSufsort naiveSufsort_sorts [97, 97] [97, 97] 98 (by decide) (by decide) 2 4
  ⟨[⟨97, 0⟩, ⟨1, 3⟩], by decide, rfl⟩ ⟨[⟨97, 0⟩, ⟨1, 1⟩, ⟨98, 0⟩, ⟨3, 2⟩], by decide, rfl⟩

/-- C118: there are at most as many factors as letters, and at most two for every run of equal letters. -/
theorem C118_runs (sufsort : List UInt8 → List Nat) (hs : SortsSuffixes sufsort) (t : List UInt8) (h0 : t ≠ [])
    (hlen : t.length < 2147483648) (z : Nat) (hz : Factors sufsort t z) (rs : List (UInt8 × Nat)) (hrs : IsRuns rs t) :
    z ≤ t.length ∧ z ≤ 2 * rs.length := by
  obtain ⟨-, a2⟩ := hz.parse hs h0 hlen
  refine ⟨by simpa using a2 _ (isParse_singles t 0 t.length (by omega)), ?_⟩
  have key : ∀ rs : List (UInt8 × Nat), (∀ p ∈ rs, 0 < p.2) →
      ∃ ls, IsParse (rs.flatMap fun p => List.replicate p.2 p.1) 0 ls ∧ ls.length ≤ 2 * rs.length := by
    intro rs
    induction rs with
    | nil => intro _; exact ⟨[], rfl, by simp⟩
    | cons p rs ih =>
      intro hp
      obtain ⟨ls, h1, h2⟩ := ih (fun q hq => hp q (by simp [hq]))
      have h3 : IsParse (List.replicate p.2 p.1) 0 [1, p.2 - 1] := by
        have := hp p (by simp)
        refine ⟨by simp; omega, .inl rfl, by simp; omega, Or.inr ⟨0, by omega, by simp, by simp; omega, fun k hk => ?_⟩, by
          show 0 + 1 + (p.2 - 1) = (List.replicate p.2 p.1).length; rw [List.length_replicate]; omega⟩
        rw [List.getElem?_replicate, List.getElem?_replicate, if_pos (by omega), if_pos (by omega)]
      exact ⟨[1, p.2 - 1] ++ ls, by rw [List.flatMap_cons]; exact parse_append h3 h1, by simp; omega⟩
  obtain ⟨h1, h2, -⟩ := hrs
  obtain ⟨ls, g1, g2⟩ := key rs h2
  refine (a2 ls ?_).trans g2
  rwa [h1] at g1

example := C118_runs naiveSufsort naiveSufsort_sorts [97, 97, 98, 97, 97] (by decide) (by decide) 4
  ⟨[⟨97, 0⟩, ⟨1, 1⟩, ⟨98, 0⟩, ⟨3, 2⟩], by decide, rfl⟩ [(97, 2), (98, 1), (97, 2)] (by unfold IsRuns; decide)

end Verif.Props
