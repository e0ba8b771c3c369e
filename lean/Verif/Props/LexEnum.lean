import Mathlib.Data.List.Permutation
import Verif.Model.LexEnum
import Verif.Props.Lz
import Verif.Props.Generators

/-! # C76: what `enumerate_lexparse` prints -/

namespace Verif.Spec

/-- The first `σ` small letters. -/
def IsLetter (σ : Nat) (c : UInt8) : Prop := 97 ≤ c.toNat ∧ c.toNat < 97 + σ

/-- `f` renames the first `σ` letters: it maps letters to letters, different ones to different ones. -/
def Renames (σ : Nat) (f : UInt8 → UInt8) : Prop :=
  (∀ c, IsLetter σ c → IsLetter σ (f c)) ∧ ∀ c d, IsLetter σ c → IsLetter σ d → f c = f d → c = d

/-- The printed line for a distance `d` and two texts, each shown with its sentinel. -/
def distanceLine (l : Nat × List UInt8 × List UInt8) : List UInt8 :=
  decimal l.1 ++ ascii ": \"" ++ l.2.1 ++ ascii "\\0\" <-> \"" ++ l.2.2 ++ ascii "\\0\"\n"

end Verif.Spec

namespace Verif.Props

open Verif Spec Model

/-- the renaming given by a permutation -/
def permFun (p : List UInt8) (c : UInt8) : UInt8 := (p[c.toNat - 97]?).getD 0

theorem mem_lexItems {σ : Nat} (hσ : σ ≤ 26) {c : UInt8} : c ∈ lexItems σ ↔ IsLetter σ c := by
  rw [lexItems, List.mem_map, IsLetter]
  constructor
  · rintro ⟨i, hi, rfl⟩
    rw [List.mem_range] at hi
    rw [UInt8.toNat_ofNat', Nat.mod_eq_of_lt (by omega)]
    omega
  · rintro ⟨h1, h2⟩
    refine ⟨c.toNat - 97, List.mem_range.2 (by omega), ?_⟩
    rw [← UInt8.toNat_inj, UInt8.toNat_ofNat', Nat.mod_eq_of_lt (by omega)]
    omega

theorem lexItems_nodup {σ : Nat} (hσ : σ ≤ 26) : (lexItems σ).Nodup := by
  rw [lexItems]
  refine List.Nodup.map_on ?_ List.nodup_range
  intro i hi j hj h
  rw [List.mem_range] at hi hj
  rw [← UInt8.toNat_inj, UInt8.toNat_ofNat', UInt8.toNat_ofNat', Nat.mod_eq_of_lt (by omega),
    Nat.mod_eq_of_lt (by omega)] at h
  omega

theorem permFun_renames {σ : Nat} (hσ : σ ≤ 26) {p : List UInt8} (hp : p.Perm (lexItems σ)) :
    Renames σ (permFun p) := by
  have hl : p.length = σ := by rw [hp.length_eq, lexItems]; simp
  have hnd : p.Nodup := hp.nodup_iff.2 (lexItems_nodup hσ)
  have hget : ∀ c, IsLetter σ c → ∃ h : c.toNat - 97 < p.length, permFun p c = p[c.toNat - 97] := by
    intro c hc
    have h : c.toNat - 97 < p.length := by have := hc.1; have := hc.2; omega
    exact ⟨h, by rw [permFun, List.getElem?_eq_getElem h]; rfl⟩
  refine ⟨fun c hc => ?_, fun c d hc hd h => ?_⟩
  · obtain ⟨h, e⟩ := hget c hc
    rw [e, ← mem_lexItems hσ, ← hp.mem_iff]
    exact List.getElem_mem h
  · obtain ⟨h1, e1⟩ := hget c hc
    obtain ⟨h2, e2⟩ := hget d hd
    rw [e1, e2] at h
    have := (List.Nodup.getElem_inj_iff hnd).1 h
    rw [← UInt8.toNat_inj]
    have := hc.1; have := hd.1
    omega

theorem renames_perm {σ : Nat} (hσ : σ ≤ 26) {f : UInt8 → UInt8} (hf : Renames σ f) :
    ((lexItems σ).map f).Perm (lexItems σ) ∧ ∀ c, IsLetter σ c → permFun ((lexItems σ).map f) c = f c := by
  constructor
  · apply List.Subperm.perm_of_length_le
    · refine List.subperm_of_subset ?_ ?_
      · refine List.Nodup.map_on ?_ (lexItems_nodup hσ)
        intro c hc d hd h
        exact hf.2 c d ((mem_lexItems hσ).1 hc) ((mem_lexItems hσ).1 hd) h
      · intro x hx
        obtain ⟨c, hc, rfl⟩ := List.mem_map.1 hx
        exact (mem_lexItems hσ).2 (hf.1 c ((mem_lexItems hσ).1 hc))
    · simp
  · intro c hc
    have h1 := hc.1
    have h2 := hc.2
    rw [permFun, lexItems, List.map_map, List.getElem?_map, List.getElem?_range (by omega)]
    show f (UInt8.ofNat (97 + (c.toNat - 97))) = f c
    congr 1
    rw [← UInt8.toNat_inj, UInt8.toNat_ofNat', Nat.mod_eq_of_lt (by omega)]
    omega

theorem lexRename_ok {σ : Nat} {p : List UInt8} (hp : p.Perm (lexItems σ)) {u : List UInt8}
    (hu : ∀ c ∈ u, IsLetter σ c) : lexRename p (u ++ [0]) = .ok (u.map (permFun p) ++ [0]) := by
  have hl : p.length = σ := by rw [hp.length_eq, lexItems]; simp
  unfold lexRename
  rw [usub_ok (by simp), ok_bind]
  obtain ⟨s, h1, h2⟩ := forRange_inv
    (fun i text => text = (u.take i).map (permFun p) ++ u.drop i ++ [0])
    (lo := 0) (hi := (u ++ [0]).length - 1) (s := u ++ [0])
    (body := fun i text => do
      let c ← rd (u ++ [0]) i
      let x ← charMap p c
      wr text i x) (by omega) (by simp) (by
      intro i s _ hi hs
      simp only [List.length_append, List.length_singleton, Nat.add_sub_cancel] at hi
      have hc := hu _ (List.getElem_mem hi)
      have e : charMap p u[i] = .ok (permFun p u[i]) := by
        have h1 := hc.1
        have h2 := hc.2
        rw [charMap, if_pos h1, permFun, List.getElem?_eq_getElem (by omega)]
        rfl
      refine ⟨_, ?_, rfl⟩
      rw [rd_some (x := u[i]) (by rw [List.getElem?_append_left hi, List.getElem?_eq_getElem hi]), ok_bind, e,
        ok_bind, wr_ok (by rw [hs]; simp; omega), hs]
      congr 1
      rw [List.append_assoc, List.set_append_right _ _ (by simp)]
      have : i - ((u.take i).map (permFun p)).length = 0 := by simp; omega
      have e2 : u.take (i + 1) = u.take i ++ [u[i]] := by
        rw [List.take_add_one, List.getElem?_eq_getElem hi]; rfl
      rw [this, e2, List.drop_eq_getElem_cons hi]
      simp only [List.cons_append, List.set_cons_zero, List.map_append, List.map_cons, List.map_nil,
        List.append_assoc, List.nil_append])
  rw [h1, h2]
  simp

/-- the number of factors -/
def lexN (sufsort : List UInt8 → List Nat) (t : List UInt8) : Nat :=
  match countLexparseFactors sufsort t with
  | .ok fs => fs.length
  | .error _ => 0

theorem lexN_ok {sufsort : List UInt8 → List Nat} (hs : SortsSuffixes sufsort) {t : List UInt8} (h0 : t ≠ [])
    (hlen : t.length < 2147483648) : ∃ fs, countLexparseFactors sufsort t = .ok fs ∧ fs.length = lexN sufsort t := by
  obtain ⟨fs, h, -⟩ := C22_lexparse_partial sufsort hs t h0 hlen
  exact ⟨fs, h, by rw [lexN, h]⟩

theorem lexDebug_ok {σ : Nat} (hσ : σ ≤ 26) {u : List UInt8} (hu : ∀ c ∈ u, IsLetter σ c) :
    lexDebug (u ++ [0]) = .ok ([34] ++ u ++ ascii "\\0" ++ [34]) := by
  unfold lexDebug
  have key : ∀ u : List UInt8, (∀ c ∈ u, IsLetter σ c) → (u ++ [0]).mapM (fun c : UInt8 =>
      if c = 0 then (.ok (ascii "\\0") : Res (List UInt8))
      else if 97 ≤ c.toNat ∧ c.toNat ≤ 122 then .ok [c] else .error .explicit) =
      .ok (u.map (fun c => [c]) ++ [ascii "\\0"]) := by
    intro u
    induction u with
    | nil => intro _; simp [List.mapM_cons, pure_ok, ok_bind]
    | cons c u ih =>
      intro h
      have hc := h c (by simp)
      have h1 := hc.1
      have h2 := hc.2
      have hc0 : c ≠ 0 := by rintro rfl; simp at h1
      rw [List.cons_append, List.mapM_cons, if_neg hc0, if_pos ⟨h1, by omega⟩, ok_bind,
        ih (fun d hd => h d (by simp [hd])), ok_bind, pure_ok]
      simp
  rw [key u hu, ok_bind, pure_ok]
  have : ∀ u : List UInt8, (u.map fun c => [c]).flatten = u := by
    intro u; induction u <;> simp_all
  simp [this]

theorem lexPerms_ok {sufsort : List UInt8 → List Nat} (hs : SortsSuffixes sufsort) {σ : Nat}
    {u : List UInt8} (hu : ∀ c ∈ u, IsLetter σ c) (hlen : u.length < 2147483647) (ps : List (List UInt8))
    (hps : ∀ p ∈ ps, p.Perm (lexItems σ)) (acc : List (Nat × List UInt8)) :
    forEach ps acc (lexPermRound sufsort (u ++ [0])) = .ok (acc ++ ps.map fun p =>
      (lexN sufsort (u.map (permFun p) ++ [0]), u.map (permFun p) ++ [0])) := by
  induction ps generalizing acc with
  | nil => simp [forEach_nil]
  | cons p ps ih =>
    obtain ⟨fs, h1, h2⟩ := lexN_ok hs (t := u.map (permFun p) ++ [0]) (by simp) (by simp; omega)
    rw [forEach_cons, lexPermRound, lexRename_ok (hps p (by simp)) hu, ok_bind, h1, ok_bind, pure_ok, ok_bind,
      ih (fun q hq => hps q (by simp [hq])), h2]
    simp

/-- What a text contributes. -/
theorem lexText_ok {sufsort : List UInt8 → List Nat} (hs : SortsSuffixes sufsort) {σ : Nat} (hσ : σ ≤ 26)
    {u : List UInt8} (hu : ∀ c ∈ u, IsLetter σ c) (hlen : u.length < 2147483647) {ps : List (List UInt8)}
    (hps : ∀ p, p ∈ ps ↔ p.Perm (lexItems σ)) :
    ∃ d f g, Renames σ f ∧ Renames σ g ∧
      lexN sufsort (u.map g ++ [0]) = lexN sufsort (u.map f ++ [0]) + d ∧
      (∀ f' g', Renames σ f' → Renames σ g' →
        lexN sufsort (u.map g' ++ [0]) ≤ lexN sufsort (u.map f' ++ [0]) + d) ∧
      ∀ s, lexTextRound sufsort ps u s = .ok (if d ≥ s.2 then
        (s.1 ++ distanceLine (d, u.map f, u.map g), d) else s) := by
  set L := ps.map fun p => (lexN sufsort (u.map (permFun p) ++ [0]), u.map (permFun p) ++ [0]) with hL
  set M := stableSort (fun a b => decide (a.1 ≤ b.1)) L with hM
  have hperm : M.Perm L := stableSort_perm _ _
  have hsort : M.Pairwise (fun a b => a.1 ≤ b.1) := by
    exact stableSort_sorted (key := fun a : Nat × List UInt8 => a.1) (fun _ _ _ _ => rfl)
  have hid : lexItems σ ∈ ps := (hps _).2 (List.Perm.refl _)
  have hMne : M ≠ [] := by
    intro h
    have := hperm.length_eq
    rw [h, hL, List.length_map, List.length_nil] at this
    have := List.length_pos_of_mem hid
    omega
  have hmem : ∀ x ∈ M, ∃ p ∈ ps, x = (lexN sufsort (u.map (permFun p) ++ [0]), u.map (permFun p) ++ [0]) := by
    intro x hx
    rw [hperm.mem_iff, hL, List.mem_map] at hx
    obtain ⟨p, h1, h2⟩ := hx
    exact ⟨p, h1, h2.symm⟩
  obtain ⟨a, M', hcons⟩ := List.exists_cons_of_ne_nil hMne
  have hlast := List.getLast?_eq_some_getLast hMne
  set b := M.getLast hMne with hb
  have hmin : ∀ x ∈ M, a.1 ≤ x.1 := by
    intro x hx
    rw [hcons] at hx hsort
    rcases List.mem_cons.1 hx with rfl | hx
    · exact le_refl _
    · exact (List.pairwise_cons.1 hsort).1 x hx
  have hmax : ∀ x ∈ M, x.1 ≤ b.1 := by
    intro x hx
    have hdl := List.dropLast_append_getLast hMne
    rw [← hdl] at hx hsort
    rcases List.mem_append.1 hx with hx | hx
    · exact (List.pairwise_append.1 hsort).2.2 x hx b (by simp [hb])
    · rw [List.mem_singleton] at hx; rw [hx]
  have haM : a ∈ M := by rw [hcons]; simp
  have hbM : b ∈ M := List.getLast_mem hMne
  obtain ⟨p, hp, hap⟩ := hmem a haM
  obtain ⟨q, hq, hbq⟩ := hmem b hbM
  have hab : a.1 ≤ b.1 := hmin b hbM
  have hfp := permFun_renames hσ ((hps p).1 hp)
  have hfq := permFun_renames hσ ((hps q).1 hq)
  refine ⟨b.1 - a.1, permFun p, permFun q, hfp, hfq, ?_, ?_, ?_⟩
  · have e1 : a.1 = lexN sufsort (u.map (permFun p) ++ [0]) := by rw [hap]
    have e2 : b.1 = lexN sufsort (u.map (permFun q) ++ [0]) := by rw [hbq]
    omega
  · intro f' g' hf' hg'
    have hin : ∀ h, Renames σ h → (lexN sufsort (u.map h ++ [0]), u.map h ++ [0]) ∈ M := by
      intro h hh
      rw [hperm.mem_iff, hL, List.mem_map]
      obtain ⟨k1, k2⟩ := renames_perm hσ hh
      refine ⟨(lexItems σ).map h, (hps _).2 k1, ?_⟩
      have : u.map (permFun ((lexItems σ).map h)) = u.map h :=
        List.map_congr_left fun c hc => k2 c (hu c hc)
      rw [this]
    have := hmin _ (hin f' hf')
    have := hmax _ (hin g' hg')
    simp only at *
    omega
  · intro s
    rw [lexTextRound, lexPerms_ok hs hu hlen ps (fun p hp => (hps p).1 hp), ok_bind, List.nil_append, ← hL]
    simp only [← hM]
    rw [hlast]
    simp only
    rw [rd_some (x := a) (by rw [hcons]; rfl), ok_bind, usub_ok hab, ok_bind]
    have hmp : ∀ h, Renames σ h → ∀ c ∈ u.map h, IsLetter σ c := by
      intro h hh c hc
      obtain ⟨e, he, rfl⟩ := List.mem_map.1 hc
      exact hh.1 e (hu e he)
    by_cases hd : b.1 - a.1 ≥ s.2
    · rw [if_pos hd, if_pos hd]
      have ea : a.2 = u.map (permFun p) ++ [0] := by rw [hap]
      have eb : b.2 = u.map (permFun q) ++ [0] := by rw [hbq]
      rw [ea, eb, lexDebug_ok hσ (hmp _ hfp), ok_bind, lexDebug_ok hσ (hmp _ hfq), ok_bind, pure_ok]
      have t1 : ascii ": \"" = ascii ": " ++ [34] := by decide
      have t2 : ascii "\\0\" <-> \"" = ascii "\\0" ++ [34] ++ ascii " <-> " ++ [34] := by decide
      have t3 : ascii "\\0\"\n" = ascii "\\0" ++ [34] ++ [10] := by decide
      simp only [distanceLine, t1, t2, t3, List.append_assoc]
    · rw [if_neg hd, if_neg hd, pure_ok]

/-- C76: `enumerate_lexparse` for texts of length `n` over the first `σ` letters (the program uses `n = 32`, `σ = 2`)
does not panic and prints lines with non-decreasing distances; each line shows two renamings of one text whose lexparse
factorizations differ in size by exactly the distance; and the distance on the last line is the largest difference that
two renamings of any text of that length can have.  `perms` are the permutations of the letters, in any order. -/
theorem C76_enumerate_lexparse (sufsort : List UInt8 → List Nat) (hs : SortsSuffixes sufsort) (σ n : Nat)
    (hσ1 : 1 ≤ σ) (hσ : σ ≤ 26) (hn : n < 2147483647) (hpow : σ ^ n < 18446744073709551616)
    (perms : List (List UInt8)) (hps : ∀ p, p ∈ perms ↔ p.Perm (lexItems σ)) :
    ∃ lines : List (Nat × List UInt8 × List UInt8),
      enumerateLexparseMain sufsort σ n perms = .ok (lines.flatMap distanceLine) ∧
      lines.Pairwise (fun k l => k.1 ≤ l.1) ∧
      (∀ d x y, (d, x, y) ∈ lines → ∃ (u : List UInt8) (f g : UInt8 → UInt8) (fs gs : List LZFactor), u.length = n ∧ (∀ c ∈ u, IsLetter σ c) ∧
        Renames σ f ∧ Renames σ g ∧ x = u.map f ∧ y = u.map g ∧
        countLexparseFactors sufsort (x ++ [0]) = .ok fs ∧ countLexparseFactors sufsort (y ++ [0]) = .ok gs ∧
        gs.length = fs.length + d) ∧
      ∃ d x y, lines.getLast? = some (d, x, y) ∧
        ∀ (u : List UInt8) (f g : UInt8 → UInt8) (fs gs : List LZFactor), u.length = n → (∀ c ∈ u, IsLetter σ c) → Renames σ f → Renames σ g →
          countLexparseFactors sufsort (u.map f ++ [0]) = .ok fs →
          countLexparseFactors sufsort (u.map g ++ [0]) = .ok gs → gs.length ≤ fs.length + d := by
  obtain ⟨ws, hw1, -, hw2, -⟩ := C41_kmer_generator σ n hσ1 (by omega) hpow
  have hwu : ∀ w ∈ ws, w.length = n ∧ ∀ c ∈ w, IsLetter σ c := fun w hw => (hw2 w).1 hw
  obtain ⟨s, hs1, lines, hs2, hs3, hs4, hs5, hs6, hs7⟩ := forEach_inv
    (fun (pre : List (List UInt8)) (s : List UInt8 × Nat) => ∃ lines : List (Nat × List UInt8 × List UInt8),
      s.1 = lines.flatMap distanceLine ∧ lines.Pairwise (fun k l => k.1 ≤ l.1) ∧
      (∀ d x y, (d, x, y) ∈ lines → ∃ (u : List UInt8) (f g : UInt8 → UInt8), u.length = n ∧ (∀ c ∈ u, IsLetter σ c) ∧
        Renames σ f ∧ Renames σ g ∧ x = u.map f ∧ y = u.map g ∧
        lexN sufsort (y ++ [0]) = lexN sufsort (x ++ [0]) + d) ∧
      (∀ l ∈ lines, l.1 ≤ s.2) ∧
      (pre = [] → s.2 = 0) ∧
      (pre ≠ [] → ∃ x y, lines.getLast? = some (s.2, x, y) ∧
        ∀ u ∈ pre, ∀ f g, Renames σ f → Renames σ g →
          lexN sufsort (u.map g ++ [0]) ≤ lexN sufsort (u.map f ++ [0]) + s.2))
    (l := ws) (s := (([] : List UInt8), 0)) (body := lexTextRound sufsort perms)
    ⟨[], rfl, List.Pairwise.nil, by simp, by simp, fun _ => rfl, fun h => absurd rfl h⟩ (by
      rintro pre u post s hl ⟨lines, h1, h2, h3, h4, h5, h6⟩
      obtain ⟨hul, huL⟩ := hwu u (by rw [hl]; simp)
      obtain ⟨d, f, g, k1, k2, k3, k4, k5⟩ := lexText_ok hs hσ huL (by omega) hps
      refine ⟨_, k5 s, ?_⟩
      by_cases hd : d ≥ s.2
      · rw [if_pos hd]
        refine ⟨lines ++ [(d, u.map f, u.map g)], ?_, ?_, ?_, ?_, ?_, ?_⟩
        · simp [h1]
        · rw [List.pairwise_append]
          refine ⟨h2, by simp, ?_⟩
          intro a ha b hb
          rw [List.mem_singleton] at hb
          subst hb
          have := h4 a ha
          show a.1 ≤ d
          omega
        · intro d' x y hm
          rcases List.mem_append.1 hm with hm | hm
          · exact h3 d' x y hm
          · simp only [List.mem_singleton, Prod.mk.injEq] at hm
            obtain ⟨rfl, rfl, rfl⟩ := hm
            exact ⟨u, f, g, hul, huL, k1, k2, rfl, rfl, k3⟩
        · intro l hl
          rcases List.mem_append.1 hl with hl | hl
          · have := h4 l hl
            show l.1 ≤ d
            omega
          · rw [List.mem_singleton] at hl; subst hl; exact le_refl _
        · simp
        · intro _
          refine ⟨u.map f, u.map g, by simp, ?_⟩
          intro v hv f' g' hf' hg'
          rcases List.mem_append.1 hv with hv | hv
          · obtain ⟨x, y, -, h7⟩ := h6 (by rintro rfl; simp at hv)
            have := h7 v hv f' g' hf' hg'
            show _ ≤ _ + d
            omega
          · rw [List.mem_singleton] at hv; subst hv
            exact k4 f' g' hf' hg'
      · rw [if_neg hd]
        have hpre : pre ≠ [] := by
          intro h; have := h5 h; omega
        refine ⟨lines, h1, h2, h3, h4, by simp, fun _ => ?_⟩
        obtain ⟨x, y, h7, h8⟩ := h6 hpre
        refine ⟨x, y, h7, fun v hv f' g' hf' hg' => ?_⟩
        rcases List.mem_append.1 hv with hv | hv
        · exact h8 v hv f' g' hf' hg'
        · rw [List.mem_singleton] at hv; subst hv
          have := k4 f' g' hf' hg'
          omega)
  have hne : ws ≠ [] := by
    have : List.replicate n (97 : UInt8) ∈ ws := by
      rw [hw2]
      refine ⟨by simp, fun c hc => ?_⟩
      rw [List.eq_of_mem_replicate hc]
      have : (97 : UInt8).toNat = 97 := rfl
      omega
    intro h
    rw [h] at this
    cases this
  obtain ⟨x, y, e1, e2⟩ := hs7 hne
  refine ⟨lines, ?_, hs3, ?_, s.2, x, y, e1, ?_⟩
  · rw [enumerateLexparseMain, hw1, ok_bind, hs1, ok_bind, pure_ok, hs2]
  · intro d x y hm
    obtain ⟨u, f, g, a1, a2, a3, a4, a5, a6, a7⟩ := hs4 d x y hm
    obtain ⟨fs, b1, b2⟩ := lexN_ok hs (t := x ++ [0]) (by simp) (by simp [a5]; omega)
    obtain ⟨gs, c1, c2⟩ := lexN_ok hs (t := y ++ [0]) (by simp) (by simp [a6]; omega)
    exact ⟨u, f, g, fs, gs, a1, a2, a3, a4, a5, a6, b1, c1, by omega⟩
  · intro u f g fs gs hu1 hu2 hf hg hfs hgs
    have := e2 u ((hw2 u).2 ⟨hu1, hu2⟩) f g hf hg
    rw [lexN, lexN, hfs, hgs] at this
    exact this

example := C76_enumerate_lexparse naiveSufsort naiveSufsort_sorts 2 5 (by decide) (by decide) (by decide) (by decide) (lexItems 2).permutations
  (fun p => List.mem_permutations)

/-- Concrete case: the permutations of two letters; the output for texts of length 2; and a text of length 7 with distance
one. -/
example : (∀ p : List UInt8, p ∈ [[97, 98], [98, 97]] ↔ p.Perm (lexItems 2)) ∧
    enumerateLexparseMain naiveSufsort 2 2 [[97, 98], [98, 97]] =
      .ok ([(0, [97, 97], [98, 98]), (0, [98, 97], [97, 98]), (0, [97, 98], [98, 97]), (0, [98, 98], [97, 97])].flatMap
        distanceLine) ∧
    lexTextRound naiveSufsort [[97, 98], [98, 97]] [98, 97, 98, 97, 97, 97, 97] ([], 0) =
      .ok (distanceLine (1, [98, 97, 98, 97, 97, 97, 97], [97, 98, 97, 98, 98, 98, 98]), 1) := by
  refine ⟨fun p => ?_, by decide +kernel, by decide +kernel⟩
  constructor
  · simp only [List.mem_cons, List.not_mem_nil, or_false]
    rintro (rfl | rfl) <;> decide +kernel
  · intro h
    match p, h.length_eq, h with
    | [x, y], _, h =>
      have hx : x ∈ lexItems 2 := h.mem_iff.1 (by simp)
      have hy : y ∈ lexItems 2 := h.mem_iff.1 (by simp)
      have hne : x ≠ y := by
        have := h.nodup_iff.2 (lexItems_nodup (by omega))
        simpa using this
      have e : lexItems 2 = [97, 98] := rfl
      rw [e] at hx hy
      simp only [List.mem_cons, List.not_mem_nil, or_false] at hx hy
      rcases hx with rfl | rfl <;> rcases hy with rfl | rfl <;> simp_all

end Verif.Props
