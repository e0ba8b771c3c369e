import Mathlib.Data.Finset.Card
import Verif.Lemmas.Streams

/-! # Move-to-front, alphabet size, escaping -/

namespace Verif

open Spec Model

/-! ## mtf -/

theorem mtfPosition_ok {v : List UInt8} {c : UInt8} (h : c ∈ v) :
    ∃ pos, mtfPosition v c = .ok pos ∧ pos < v.length ∧ v[pos]? = some c ∧ c ∉ v.take pos := by
  simp only [mtfPosition]
  obtain ⟨i, hi⟩ : ∃ i, v.findIdx? (fun x => decide (x = c)) = some i := by
    rw [← Option.isSome_iff_exists, List.findIdx?_isSome, List.any_eq_true]
    exact ⟨c, h, by simp⟩
  rw [hi]
  refine ⟨i, rfl, ?_⟩
  rw [List.findIdx?_eq_some_iff_getElem] at hi
  obtain ⟨h1, h2, h3⟩ := hi
  refine ⟨h1, by simpa [h1] using h2, ?_⟩
  intro hm
  rw [List.mem_iff_getElem] at hm
  obtain ⟨j, hj, he⟩ := hm
  rw [List.length_take] at hj
  rw [List.getElem_take] at he
  have := h3 j (by omega)
  simp [he] at this

theorem mtfPosition_err {v : List UInt8} {c : UInt8} (h : c ∉ v) : mtfPosition v c = .error .unwrap := by
  simp only [mtfPosition]
  have : v.findIdx? (fun x => decide (x = c)) = none := by
    rw [List.findIdx?_eq_none_iff]
    intro x hx
    simp only [decide_eq_false_iff_not]
    rintro rfl; exact h hx
  rw [this]

theorem mtfUpdate_ok {v : List UInt8} {pos : Nat} {c : UInt8} (h : pos < v.length) :
    mtfUpdate v pos c = .ok (c :: (v.take pos ++ v.drop (pos + 1))) := by
  simp only [mtfUpdate]
  obtain ⟨w, h1, h2, h3⟩ := forRange_inv
    (fun j (w : List UInt8) => w.length = v.length ∧ ∀ i, w[i]? =
      if pos - j < i ∧ i ≤ pos then v[i - 1]? else v[i]?)
    (lo := 0) (hi := pos) (s := v)
    (body := fun j v => do
      let a ← usub pos j
      let b ← usub a 1
      let x ← rd v b
      wr v a x) (Nat.zero_le _)
    ⟨rfl, fun i => by rw [if_neg (by omega)]⟩ (by
      rintro j w - hj ⟨hl, hw⟩
      rw [usub_ok (by omega), ok_bind, usub_ok (by omega), ok_bind, rd_ok (by omega), ok_bind,
        wr_ok (by omega)]
      refine ⟨_, rfl, by simpa using hl, fun i => ?_⟩
      have hx := hw (pos - j - 1)
      rw [if_neg (by omega)] at hx
      rw [List.getElem?_set]
      by_cases hi : pos - j = i
      · subst hi
        rw [if_pos rfl, if_pos (by omega), if_pos (by omega), ← hx, List.getElem?_eq_getElem (by omega)]
      · rw [if_neg hi, hw i]
        by_cases h2 : pos - j < i ∧ i ≤ pos
        · rw [if_pos h2, if_pos (by omega)]
        · rw [if_neg h2, if_neg (by omega)])
  rw [h1, ok_bind, wr_ok (by omega)]
  congr 1
  apply List.ext_getElem?
  intro i
  rw [List.getElem?_set]
  cases i with
  | zero => rw [if_pos rfl, if_pos (by omega)]; rfl
  | succ i =>
    rw [if_neg (by omega), h3, List.getElem?_cons_succ]
    by_cases hi : i < pos
    · rw [if_pos (by omega), List.getElem?_append_left (by rw [List.length_take]; omega),
        List.getElem?_take, if_pos hi, Nat.add_sub_cancel]
    · rw [if_neg (by omega), List.getElem?_append_right (by rw [List.length_take]; omega),
        List.length_take, List.getElem?_drop]
      congr 1; omega

theorem erase_at {v : List UInt8} {pos : Nat} {c : UInt8} (h : v[pos]? = some c) (hn : c ∉ v.take pos) :
    v.erase c = v.take pos ++ v.drop (pos + 1) := by
  have hlt : pos < v.length := (List.getElem?_eq_some_iff.1 h).1
  have hc : v[pos] = c := (List.getElem?_eq_some_iff.1 h).2
  have e : v = v.take pos ++ c :: v.drop (pos + 1) := by
    rw [← hc, List.getElem_cons_drop, List.take_append_drop]
  conv_lhs => rw [e, List.erase_append_right _ hn, List.erase_cons_head]

theorem mtfLoop_ok (r : Reader) {v : List UInt8} (hv : v.length ≤ 256) (hmem : ∀ c, c ∈ v ↔ c ≠ 255) :
    ((∀ c ∈ delivered r, c ≠ 255) → (mtfLoop r v).2 = .ok () ∧
      (mtfLoop r v).1.length = (delivered r).length ∧
      mtfDecode (v ++ [255]) (mtfLoop r v).1 = delivered r) ∧
    (∀ x y, delivered r = x ++ 255 :: y → (∀ c ∈ x, c ≠ 255) →
      (mtfLoop r v).2 = .error .unwrap ∧ (mtfLoop r v).1.length = x.length ∧
      mtfDecode (v ++ [255]) (mtfLoop r v).1 = x) := by
  induction r generalizing v with
  | nil => simp [mtfLoop, delivered, done, mtfDecode]
  | cons e r ih =>
    cases e with
    | eof => simp [mtfLoop, delivered, done, mtfDecode]
    | err => simp [mtfLoop, delivered, done, mtfDecode]
    | byte c =>
      simp only [mtfLoop, delivered]
      by_cases hc : c = 255
      · subst hc
        have hnm : (255 : UInt8) ∉ v := by rw [hmem]; simp
        rw [mtfPosition_err hnm]
        simp only [andThen]
        refine ⟨fun h => absurd rfl (h 255 (by simp)), ?_⟩
        intro x y hxy hx
        cases x with
        | nil => simp [mtfDecode]
        | cons a x =>
          rw [List.cons_append, List.cons.injEq] at hxy
          exact absurd hxy.1.symm (hx a (by simp))
      · have hm : c ∈ v := (hmem c).2 hc
        obtain ⟨pos, h1, h2, h3, h4⟩ := mtfPosition_ok hm
        rw [h1]
        simp only [andThen]
        rw [mtfUpdate_ok h2]
        simp only [emit]
        have herase : v.erase c = v.take pos ++ v.drop (pos + 1) := erase_at h3 h4
        have hv' : (c :: v.erase c).length ≤ 256 := by
          rw [List.length_cons, List.length_erase_of_mem hm]; omega
        have hmem' : ∀ d, d ∈ c :: v.erase c ↔ d ≠ 255 := by
          intro d
          rw [← hmem d, List.mem_cons]
          by_cases hd : d = c
          · subst hd; simp [hm]
          · simp [hd, List.mem_erase_of_ne hd]
        rw [← herase]
        obtain ⟨ih1, ih2⟩ := ih hv' hmem'
        have hpos : (UInt8.ofNat pos).toNat = pos := by
          rw [UInt8.toNat_ofNat', Nat.mod_eq_of_lt (by omega)]
        have hget : (v ++ [255]).getD pos 0 = c := by
          rw [List.getD_eq_getElem?_getD, List.getElem?_append_left h2, h3]; rfl
        have hdec : ∀ codes, mtfDecode (v ++ [255]) (UInt8.ofNat pos :: codes) =
            c :: mtfDecode (c :: v.erase c ++ [255]) codes := by
          intro codes
          simp only [mtfDecode]
          rw [hpos, hget, List.erase_append_left _ hm]
          rfl
        constructor
        · intro h
          obtain ⟨g1, g2, g3⟩ := ih1 (fun d hd => h d (by simp [hd]))
          exact ⟨g1, by simp [g2], by rw [List.singleton_append, hdec, g3]⟩
        · intro x y hxy hx
          cases x with
          | nil =>
            rw [List.nil_append, List.cons.injEq] at hxy
            exact absurd hxy.1 hc
          | cons a x =>
            rw [List.cons_append, List.cons.injEq] at hxy
            obtain ⟨g1, g2, g3⟩ := ih2 x y hxy.2 (fun d hd => hx d (by simp [hd]))
            exact ⟨g1, by simp [g2], by rw [List.singleton_append, hdec, g3, hxy.1]⟩

/-! ## count_sigma -/

/-- the loop body of `count_sigma` -/
def sigmaStep (m : Build) (c : UInt8) (s : UInt8 × List UInt8) : Res (UInt8 × List UInt8) := do
  let v ← rd s.2 c.toNat
  if v = 0 then do
    let inc ← incU8 m s.1
    let tbl ← wr s.2 c.toNat inc
    pure (inc, tbl)
  else pure s

theorem sigmaLoop_ok (m : Build) (text : List UInt8) (h : text.toFinset.card < 256) :
    ∃ s, forEach text ((0 : UInt8), List.replicate 256 (0 : UInt8)) (sigmaStep m) = .ok s ∧
      s.1.toNat = text.toFinset.card ∧ s.2.length = 256 ∧
      ∀ c : UInt8, ∃ v, s.2[c.toNat]? = some v ∧ (v = 0 ↔ c ∉ text) := by
  exact forEach_inv
    (fun pre (s : UInt8 × List UInt8) => s.1.toNat = pre.toFinset.card ∧ s.2.length = 256 ∧
      ∀ c : UInt8, ∃ v, s.2[c.toNat]? = some v ∧ (v = 0 ↔ c ∉ pre))
    (l := text) (s := ((0 : UInt8), List.replicate 256 (0 : UInt8)))
    (body := sigmaStep m)
    ⟨rfl, List.length_replicate, fun c => ⟨0, by
      dsimp only; rw [List.getElem?_replicate, if_pos c.toNat_lt], by simp⟩⟩ (by
      rintro pre c post ⟨inc, tbl⟩ e ⟨g1, g2, g3⟩
      dsimp only at g1 g2 g3
      simp only [sigmaStep]
      obtain ⟨v, hv, hv0⟩ := g3 c
      rw [rd_some hv, ok_bind]
      have hfin : (pre ++ [c]).toFinset = insert c pre.toFinset := by ext; simp
      by_cases hv' : v = 0
      · rw [if_pos hv']
        have hc : c ∉ pre := hv0.1 hv'
        have hcard : (pre ++ [c]).toFinset.card = pre.toFinset.card + 1 := by
          rw [hfin, Finset.card_insert_of_notMem (by simpa using hc)]
        have hle : (pre ++ [c]).toFinset.card ≤ text.toFinset.card := by
          apply Finset.card_le_card
          rw [e]
          intro x hx
          simp only [List.mem_toFinset, List.mem_append, List.mem_cons] at hx ⊢
          tauto
        have hlt : inc.toNat + 1 < 256 := by omega
        have hcl : c.toNat < tbl.length := by rw [g2]; exact c.toNat_lt
        rw [incU8_ok hlt, ok_bind, wr_ok hcl, ok_bind]
        refine ⟨_, rfl, ?_⟩
        refine ⟨by dsimp only; rw [toNat_succ hlt, hcard, g1], by simpa using g2, fun d => ?_⟩
        dsimp only
        by_cases hd : d = c
        · subst hd
          refine ⟨inc + 1, by rw [List.getElem?_set, if_pos rfl, if_pos hcl], ?_⟩
          simp only [List.mem_append, List.mem_singleton, or_true, not_true_eq_false, iff_false]
          intro h0
          have := congrArg UInt8.toNat h0
          rw [toNat_succ hlt] at this
          simp at this
        · obtain ⟨w, hw, hw0⟩ := g3 d
          refine ⟨w, ?_, ?_⟩
          · rw [List.getElem?_set_ne, hw]
            intro h; exact hd (UInt8.toNat.inj h.symm)
          · rw [hw0]; simp [hd]
      · rw [if_neg hv']
        have hc : c ∈ pre := by
          by_contra h; exact hv' (hv0.2 h)
        refine ⟨_, rfl, ?_⟩
        refine ⟨by dsimp only; rw [g1, hfin, Finset.insert_eq_of_mem (by simpa using hc)], g2, fun d => ?_⟩
        obtain ⟨w, hw, hw0⟩ := g3 d
        refine ⟨w, hw, ?_⟩
        rw [hw0]
        by_cases hd : d = c
        · subst hd; simp [hc]
        · simp [hd])

theorem countSigma_ok (m : Build) (text : List UInt8) (h : text.toFinset.card < 256) :
    countSigma m text = .ok (UInt8.ofNat text.toFinset.card) := by
  obtain ⟨s, h1, h2, -⟩ := sigmaLoop_ok m text h
  have e : countSigma m text =
    (forEach text ((0 : UInt8), List.replicate 256 (0 : UInt8)) (sigmaStep m) >>= fun s => pure s.1) := rfl
  rw [e, h1, ok_bind, pure_ok]
  congr 1
  apply UInt8.toNat.inj
  rw [h2, UInt8.toNat_ofNat', Nat.mod_eq_of_lt h]

theorem last_new (n : Nat) (text : List UInt8) (h : text.toFinset.card = n + 1) :
    ∃ pre c post, text = pre ++ c :: post ∧ pre.toFinset.card = n ∧ c ∉ pre := by
  induction text using List.reverseRecOn with
  | nil => simp at h
  | append_singleton ts c ih =>
    by_cases hc : c ∈ ts
    · have : (ts ++ [c]).toFinset = ts.toFinset := by
        ext x; simp only [List.mem_toFinset, List.mem_append, List.mem_singleton]
        constructor
        · rintro (h | rfl)
          · exact h
          · exact hc
        · exact Or.inl
      rw [this] at h
      obtain ⟨pre, d, post, h1, h2, h3⟩ := ih h
      exact ⟨pre, d, post ++ [c], by rw [h1]; simp, h2, h3⟩
    · refine ⟨ts, c, [], rfl, ?_, hc⟩
      have : (ts ++ [c]).toFinset = insert c ts.toFinset := by ext; simp
      rw [this, Finset.card_insert_of_notMem (by simpa using hc)] at h
      omega

theorem forEach_append {α σ : Type} (a b : List α) (s : σ) (body : α → σ → Res σ) :
    forEach (a ++ b) s body = (forEach a s body >>= fun s => forEach b s body) := by
  induction a generalizing s with
  | nil => rfl
  | cons x a ih =>
    rw [List.cons_append, forEach_cons, forEach_cons, bind_assoc]
    congr 1
    funext s
    exact ih s

theorem countSigma_full (text : List UInt8) (h : text.toFinset.card = 256) :
    countSigma .checked text = .error .arith := by
  obtain ⟨pre, c, post, rfl, h1, h2⟩ := last_new 255 text h
  obtain ⟨⟨inc, tbl⟩, g1, g2, g3, g4⟩ := sigmaLoop_ok .checked pre (by omega)
  have e : countSigma .checked (pre ++ c :: post) =
    (forEach (pre ++ c :: post) ((0 : UInt8), List.replicate 256 (0 : UInt8)) (sigmaStep .checked) >>=
      fun s => pure s.1) := rfl
  obtain ⟨v, hv, hv0⟩ := g4 c
  rw [e, forEach_append, g1, ok_bind, forEach_cons]
  simp only [sigmaStep]
  dsimp only at hv g2
  rw [rd_some hv, ok_bind, if_pos (hv0.2 h2), incU8_err (by omega)]
  rfl

/-! ## escape -/

theorem lookupLast_mem {ks vs : List UInt8} {c d : UInt8} (h : lookupLast ks vs c = some d) :
    (c, d) ∈ ks.zip vs := by
  simp only [lookupLast, Option.map_eq_some_iff] at h
  obtain ⟨⟨a, b⟩, h1, rfl⟩ := h
  have h2 := List.mem_of_find?_eq_some h1
  have h3 := List.find?_some h1
  simp only [decide_eq_true_eq] at h3
  subst h3
  exact List.mem_reverse.1 h2

theorem lookupLast_none {ks vs : List UInt8} {c : UInt8} (hl : ks.length = vs.length) :
    lookupLast ks vs c = none ↔ c ∉ ks := by
  simp only [lookupLast, Option.map_eq_none_iff, List.find?_eq_none, List.mem_reverse, decide_eq_true_eq]
  constructor
  · intro h hc
    obtain ⟨i, hi, he⟩ := List.mem_iff_getElem.1 hc
    exact h (ks[i], vs[i]'(by omega)) (List.mem_iff_getElem.2 ⟨i, by rw [List.length_zip]; omega, by
      rw [List.getElem_zip]⟩) he
  · rintro h ⟨a, b⟩ hp rfl
    exact h (List.of_mem_zip hp).1

theorem lookupLast_unique {ks vs : List UInt8} {c d : UInt8} (hn : ks.Nodup)
    (h : (c, d) ∈ ks.zip vs) : lookupLast ks vs c = some d := by
  cases hl : lookupLast ks vs c with
  | none =>
    simp only [lookupLast, Option.map_eq_none_iff, List.find?_eq_none, List.mem_reverse,
      decide_eq_true_eq] at hl
    exact absurd rfl (hl _ h)
  | some e =>
    have h2 := lookupLast_mem hl
    obtain ⟨i, hi, he⟩ := List.mem_iff_getElem.1 h
    obtain ⟨j, hj, hf⟩ := List.mem_iff_getElem.1 h2
    rw [List.getElem_zip] at he hf
    rw [List.length_zip] at hi hj
    simp only [Prod.mk.injEq] at he hf
    have : i = j := (List.getElem_inj hn).1 (he.1.trans hf.1.symm)
    subst this
    rw [← he.2, ← hf.2]

theorem zip_swap_mem {ks vs : List UInt8} {c d : UInt8} (h : (c, d) ∈ ks.zip vs) : (d, c) ∈ vs.zip ks := by
  obtain ⟨i, hi, he⟩ := List.mem_iff_getElem.1 h
  rw [List.getElem_zip] at he
  rw [List.length_zip] at hi
  simp only [Prod.mk.injEq] at he
  exact List.mem_iff_getElem.2 ⟨i, by rw [List.length_zip]; omega, by rw [List.getElem_zip]; simp [he]⟩

theorem escapeLoop_ok (a : EscapeArgs) (n : Nat) (r : Reader) :
    escapeLoop a n r = (((delivered r).take n).flatMap
      (escapeLetter a.escapeSymbol (lookupLast a.fromSymbols a.toSymbols)), .ok ()) := by
  induction n generalizing r with
  | zero => simp [escapeLoop, done]
  | succ n ih =>
    cases r with
    | nil => simp [escapeLoop, delivered, done]
    | cons e r =>
      cases e with
      | eof => simp [escapeLoop, delivered, done]
      | err => simp [escapeLoop, delivered, done]
      | byte c =>
        simp only [escapeLoop, delivered, List.take_succ_cons, List.flatMap_cons, escapeLetter]
        rw [ih r]
        split
        · rfl
        · cases lookupLast a.fromSymbols a.toSymbols c <;> rfl

/-- the checks of the tool -/
structure EscapeOK (a : EscapeArgs) : Prop where
  len : a.fromSymbols.length = a.toSymbols.length
  fe : a.escapeSymbol ∉ a.fromSymbols
  te : a.escapeSymbol ∉ a.toSymbols
  disj : ∀ x ∈ a.fromSymbols, x ∉ a.toSymbols

theorem escapeMain_ok {a : EscapeArgs} (h : EscapeOK a) (r : Reader) :
    escapeMain a r = if a.isReversion then unescapeLoop a a.prefixlength r
      else escapeLoop a a.prefixlength r := by
  simp only [escapeMain]
  rw [if_neg (by simpa using h.len), if_neg h.fe, if_neg h.te, if_neg]
  rw [List.any_eq_true]
  rintro ⟨x, hx, hx'⟩
  exact h.disj x hx (by simpa using hx')

theorem unescapeLoop_ok {a : EscapeArgs} (h : EscapeOK a) (hn : a.toSymbols.Nodup) (t : List UInt8) (n : Nat)
    (hlen : t.length ≤ n) :
    unescapeLoop a n (sliceReader (t.flatMap
      (escapeLetter a.escapeSymbol (lookupLast a.fromSymbols a.toSymbols)))) = (t, .ok ()) := by
  induction t generalizing n with
  | nil => cases n <;> rfl
  | cons c t ih =>
    rw [List.length_cons] at hlen
    obtain ⟨n, rfl⟩ : ∃ k, n = k + 1 := ⟨n - 1, by omega⟩
    have ih' := ih n (by omega)
    simp only [List.flatMap_cons, sliceReader, List.map_append] at ih' ⊢
    by_cases hc : c = a.escapeSymbol
    · subst hc
      simp only [escapeLetter, if_true, List.map_cons, List.map_nil, List.cons_append, List.nil_append,
        unescapeLoop]
      rw [ih']; rfl
    · cases hd : lookupLast a.fromSymbols a.toSymbols c with
      | none =>
        simp only [escapeLetter, hc, if_false, hd, List.map_cons, List.map_nil, List.cons_append,
          List.nil_append, unescapeLoop]
        rw [ih']; rfl
      | some d =>
        have hm := lookupLast_mem hd
        have hde : d ≠ a.escapeSymbol := by
          rintro rfl; exact h.te (List.of_mem_zip hm).2
        have hback := lookupLast_unique hn (zip_swap_mem hm)
        simp only [escapeLetter, hc, if_false, hd, List.map_cons, List.map_nil, List.cons_append,
          List.nil_append, unescapeLoop, if_true, hde, hback]
        rw [ih']; rfl

theorem escapeLetter_clean {a : EscapeArgs} (h : EscapeOK a) (c : UInt8) :
    ∀ x ∈ escapeLetter a.escapeSymbol (lookupLast a.fromSymbols a.toSymbols) c, x ∉ a.fromSymbols := by
  intro x hx hmem
  unfold escapeLetter at hx
  split at hx
  · simp only [List.mem_cons, List.not_mem_nil, or_false, or_self] at hx
    subst hx; exact h.fe hmem
  · cases hd : lookupLast a.fromSymbols a.toSymbols c with
    | none =>
      rw [hd] at hx
      simp only [List.mem_singleton] at hx
      subst hx
      exact (lookupLast_none h.len).1 hd hmem
    | some d =>
      rw [hd] at hx
      simp only [List.mem_cons, List.not_mem_nil, or_false] at hx
      rcases hx with rfl | rfl
      · exact h.fe hmem
      · exact h.disj _ hmem (List.of_mem_zip (lookupLast_mem hd)).2

end Verif
