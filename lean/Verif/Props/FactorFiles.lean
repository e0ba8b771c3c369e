import Verif.Props.Lz
import Verif.Props.LyndonTool
import Verif.Props.Mains

/-! # C73: the factor files of `count_z` and `count_lexparse` determine the text -/

namespace Verif.Props

open Verif Spec Model

theorem decimal_digits (n : Nat) : ∀ c ∈ decimal n, 48 ≤ c.toNat ∧ c.toNat ≤ 57 := by
  intro c hc
  unfold decimal at hc
  split at hc
  · rw [List.mem_singleton] at hc; subst hc; decide
  · rw [List.mem_map] at hc
    obtain ⟨d, hd, rfl⟩ := hc
    have hd10 : d < 10 := Nat.digits_lt_base (by omega) (List.mem_reverse.1 hd)
    rw [UInt8.toNat_ofNat', Nat.mod_eq_of_lt (by omega)]
    omega

theorem decimal_inj {m n : Nat} (h : decimal m = decimal n) : m = n := by
  rw [← decimal_value m, h, decimal_value]

/-- Words free of the separator are cut off uniquely. -/
theorem sep_inj {s : UInt8} {x y a b : List UInt8} (hx : s ∉ x) (hy : s ∉ y) (h : x ++ s :: a = y ++ s :: b) :
    x = y ∧ a = b := by
  induction x generalizing y with
  | nil =>
    cases y with
    | nil => simpa using h
    | cons c y => simp at h; exact absurd (by simp [h.1]) hy
  | cons c x ih =>
    cases y with
    | nil => simp at h; exact absurd (by simp [h.1]) hx
    | cons d y =>
      simp only [List.cons_append, List.cons.injEq] at h
      obtain ⟨h1, h2⟩ := h
      obtain ⟨h3, h4⟩ := ih (fun hh => hx (by simp [hh])) (fun hh => hy (by simp [hh])) h2
      exact ⟨by rw [h1, h3], h4⟩

theorem decimal_no_sep (n : Nat) : (44 : UInt8) ∉ decimal n ∧ (41 : UInt8) ∉ decimal n := by
  constructor
  · intro h; have := decimal_digits n _ h; revert this; decide
  · intro h; have := decimal_digits n _ h; revert this; decide

theorem factorBytes_inj {fs gs : List LZFactor} (h : factorBytes fs = factorBytes gs) : fs = gs := by
  induction fs generalizing gs with
  | nil =>
    cases gs with
    | nil => rfl
    | cons g gs => simp [factorBytes] at h
  | cons f fs ih =>
    cases gs with
    | nil => simp [factorBytes] at h
    | cons g gs =>
      have e : ∀ (f : LZFactor) fs, factorBytes (f :: fs) =
          40 :: (decimal f.pos ++ 44 :: (decimal f.len ++ 41 :: factorBytes fs)) := by
        intro f fs; simp [factorBytes]
      rw [e, e] at h
      simp only [List.cons.injEq, true_and] at h
      obtain ⟨h1, h2⟩ := sep_inj (decimal_no_sep _).1 (decimal_no_sep _).1 h
      obtain ⟨h3, h4⟩ := sep_inj (decimal_no_sep _).2 (decimal_no_sep _).2 h2
      have a1 := decimal_inj h1
      have a2 := decimal_inj h3
      have a3 := ih h4
      cases f; cases g
      simp only at a1 a2
      rw [a1, a2, a3]

theorem factorMain_ok {creatable : String → Bool} {factorize : List UInt8 → Res (List LZFactor)} {i o : String}
    {stdin : List UInt8} {w : World} {t : List UInt8} {fs : List LZFactor} (hi : w.files i = some t)
    (hsize : t.length < 18446744073709551616) (hc : creatable o = true) (hf : factorize t = .ok fs) :
    ∃ w', factorMain creatable factorize (some i) (some o) 0 stdin w = (w', .ok (t.length, fs.length)) ∧
      Wrote w o (factorBytes fs) w' := by
  refine ⟨_, ?_, writeOut_some⟩
  simp only [factorMain, readVector_file hi 0 stdin hsize, if_true, hf, openOut, hc]

/-- C73: `count_z` on a non-empty file writes the file `(pos,len)(pos,len)...` of the factors of a greedy LZ77 parse of
the content and reports their number; nothing else changes. -/
theorem C73_count_z_file (creatable : String → Bool) (sufsort : List UInt8 → List Nat) (hs : SortsSuffixes sufsort)
    (i o : String) (stdin : List UInt8) (w : World) (t : List UInt8) (hi : w.files i = some t) (h0 : t ≠ [])
    (hlen : t.length < 2147483648) (hc : creatable o = true) :
    ∃ w' fs, countZMain creatable sufsort (some i) (some o) 0 stdin w = (w', .ok (t.length, fs.length)) ∧
      Wrote w o (fs.flatMap fun f => ascii "(" ++ decimal f.pos ++ ascii "," ++ decimal f.len ++ ascii ")") w' ∧
      GreedyLz t 0 fs := by
  obtain ⟨fs, h1, h2⟩ := C20_lz77_greedy sufsort hs t h0 hlen
  obtain ⟨w', g1, g2⟩ := factorMain_ok (stdin := stdin) hi (by omega) hc h1
  exact ⟨w', fs, g1, g2, h2⟩

example := C73_count_z_file (fun _ => true) naiveSufsort naiveSufsort_sorts "f" "g" [] ⟨fun n => if n = "f" then some [97, 98, 97] else none, []⟩
  [97, 98, 97] rfl (by decide) (by decide) rfl

/-- C73: from the file written by `count_z` the text can be recovered. -/
theorem C73_count_z_decodable (creatable : String → Bool) (sufsort : List UInt8 → List Nat)
    (hs : SortsSuffixes sufsort) :
    ∃ decode : List UInt8 → List UInt8, ∀ (i o : String) (stdin : List UInt8) (w : World) (t : List UInt8),
      w.files i = some t → t ≠ [] → t.length < 2147483648 → creatable o = true →
      ∃ w' z c, countZMain creatable sufsort (some i) (some o) 0 stdin w = (w', .ok (t.length, z)) ∧
        w'.files o = some c ∧ decode c = t := by
  classical
  refine ⟨fun c => if h : ∃ t fs, factorBytes fs = c ∧ decodeLz77 fs = .ok t then h.choose else [], ?_⟩
  intro i o stdin w t hi h0 hlen hc
  obtain ⟨fs, h1, h2⟩ := C19_lz77_decodes sufsort hs t h0 hlen
  obtain ⟨w', g1, g2⟩ := factorMain_ok (stdin := stdin) hi (by omega) hc h1
  refine ⟨w', fs.length, factorBytes fs, g1, g2.2.1, ?_⟩
  have hex : ∃ s gs, factorBytes gs = factorBytes fs ∧ decodeLz77 gs = .ok s := ⟨t, fs, rfl, h2⟩
  beta_reduce
  rw [dif_pos hex]
  obtain ⟨gs, e, h3⟩ := hex.choose_spec
  rw [factorBytes_inj e, h2] at h3
  injection h3 with h3
  exact h3.symm

example := C73_count_z_decodable (fun _ => true) naiveSufsort naiveSufsort_sorts

/-- C73 for `count_lexparse`: texts with two different letters that give the same file are equal (for one-letter texts
see C22). -/
theorem C73_count_lexparse_file (creatable : String → Bool) (sufsort : List UInt8 → List Nat)
    (hs : SortsSuffixes sufsort) (i o j q : String) (stdin : List UInt8) (w v : World) (s t : List UInt8)
    (hi : w.files i = some s) (hj : v.files j = some t) (hs1 : s ≠ []) (hs2 : s.length < 2147483648)
    (ht : ∃ x ∈ t, ∃ y ∈ t, x ≠ y) (ht2 : t.length < 2147483648) (hco : creatable o = true) (hcq : creatable q = true)
    (hsame : (countLexparseMain creatable sufsort (some i) (some o) 0 stdin w).1.files o =
      (countLexparseMain creatable sufsort (some j) (some q) 0 stdin v).1.files q) :
    (countLexparseMain creatable sufsort (some i) (some o) 0 stdin w).2.isOk ∧ s = t := by
  have ht1 : t ≠ [] := by rintro rfl; obtain ⟨x, hx, -⟩ := ht; cases hx
  obtain ⟨fs, h1, -, h3, -⟩ := C22_lexparse_partial sufsort hs s hs1 hs2
  obtain ⟨gs, g1, -, -, g4⟩ := C22_lexparse_partial sufsort hs t ht1 ht2
  obtain ⟨w', a1, a2⟩ := factorMain_ok (stdin := stdin) hi (by omega) hco h1
  obtain ⟨v', b1, b2⟩ := factorMain_ok (stdin := stdin) hj (by omega) hcq g1
  unfold countLexparseMain at hsame ⊢
  rw [a1, b1] at hsame
  simp only [a2.2.1, b2.2.1, Option.some.injEq] at hsame
  have e := factorBytes_inj hsame
  subst e
  exact ⟨by rw [a1]; rfl, g4 ht s h3⟩

example (v : World) (t : List UInt8) (hv : v.files "f" = some t) (ht : ∃ x ∈ t, ∃ y ∈ t, x ≠ y) (hl : t.length < 2147483648) :=
  C73_count_lexparse_file (fun _ => true) naiveSufsort naiveSufsort_sorts "f" "g" "f" "g" []
    ⟨fun n => if n = "f" then some [97, 98, 97] else none, []⟩ v [97, 98, 97] t rfl hv (by decide) (by decide) ht hl rfl rfl

/-- C73: without an output file both tools leave the file system and the standard output stream of bytes as they were,
and report the same numbers as with one. -/
theorem C73_without_file (creatable : String → Bool) (sufsort : List UInt8 → List Nat) (o : String)
    (hc : creatable o = true) (inn : Option String) (prefixLength : Nat) (stdin : List UInt8) (w : World) :
    countZMain creatable sufsort inn none prefixLength stdin w =
      (w, (countZMain creatable sufsort inn (some o) prefixLength stdin w).2) ∧
    countLexparseMain creatable sufsort inn none prefixLength stdin w =
      (w, (countLexparseMain creatable sufsort inn (some o) prefixLength stdin w).2) := by
  have key : ∀ f, factorMain creatable f inn none prefixLength stdin w =
      (w, (factorMain creatable f inn (some o) prefixLength stdin w).2) := by
    intro f
    unfold factorMain
    cases readVector inn prefixLength stdin w with
    | error e => rfl
    | ok text => dsimp only; cases f text with
      | error e => rfl
      | ok fs => simp [openOut, hc]
  exact ⟨key _, key _⟩

example (w : World) := C73_without_file (fun _ => true) naiveSufsort "g" rfl (some "f") 0 [] w

/-- Concrete case: `aab` gives `(97,0)(1,1)(98,0)`. -/
example : ((countZMain (fun _ => true) naiveSufsort (some "f") (some "g") 0 [] exampleWorld).1.files "g") =
      some (ascii "(97,0)(1,1)(98,0)") ∧
    (countZMain (fun _ => true) naiveSufsort (some "f") (some "g") 0 [] exampleWorld).2 = .ok (3, 3) := by
  decide +kernel

example : (countZMain (fun _ => true) naiveSufsort (some "f") none 0 [] exampleWorld).2 = .ok (3, 3) := by
  decide +kernel

end Verif.Props
