import Verif.Model.LyndonTool
import Verif.Lemmas.Duval

/-! # Lemmas on the model of the `lyndonfactorization` tool -/

namespace Verif

open Spec Model

theorem listed_cons {f g : List UInt8} {fs : List (List UInt8)} :
    listed (f :: g :: fs) = f :: listed (g :: fs) := by
  simp only [listed, List.getLast?_cons_cons]
  cases h : (g :: fs).getLast? with
  | none => simp at h
  | some l => by_cases hl : l.getLast? = some 0 <;> simp [hl]

theorem tool_ends_get {fs : List (List UInt8)} {pre rest : List (List UInt8)} {f : List UInt8}
    (h : fs = pre ++ f :: rest) :
    (ends 0 fs)[pre.length]? = some (pre.flatten.length + f.length - 1) := by
  subst h
  rw [ends_append, List.getElem?_append_right (by rw [ends_length]), ends_length]
  simp [ends]

theorem lyndonFileStop_ok {text : List UInt8} {fs pre rest : List (List UInt8)} {f : List UInt8}
    (h : fs = pre ++ f :: rest) (ht : fs.flatten = text) (hne : ∀ g ∈ fs, g ≠ []) :
    lyndonFileStop text (ends 0 fs) pre.length =
      .ok (decide (rest = [] ∧ f.getLast? = some 0)) := by
  have hf : f ≠ [] := hne f (by simp [h])
  have hfl := List.length_pos_iff.2 hf
  have hlen : (ends 0 fs).length = pre.length + (rest.length + 1) := by rw [ends_length, h]; simp
  unfold lyndonFileStop
  rw [usub_ok (by omega), ok_bind]
  by_cases hr : rest = []
  · subst hr
    have htl : text.length = pre.flatten.length + f.length := by rw [← ht, h]; simp
    rw [if_pos (by rw [hlen]; simp), rd_some (tool_ends_get h), ok_bind, if_pos (by omega),
      usub_ok (by omega), ok_bind]
    have hlast : text[text.length - 1]? = f.getLast? := by
      rw [← List.getLast?_eq_getElem?, ← ht, h]
      simp [List.getLast?_append_of_ne_nil _ hf]
    obtain ⟨c, hc⟩ : ∃ c, f.getLast? = some c := ⟨_, List.getLast?_eq_getLast_of_ne_nil hf⟩
    rw [rd_some (hlast.trans hc), ok_bind, hc]
    simp [pure_ok]
  · have := List.length_pos_iff.2 hr
    rw [if_neg (by omega)]
    simp [hr, pure_ok]

theorem lyndonFileRecord_ok {text : List UInt8} {fs pre rest : List (List UInt8)} {f : List UInt8}
    (h : fs = pre ++ f :: rest) (ht : fs.flatten = text) (hne : ∀ g ∈ fs, g ≠ []) (hp : pre ≠ []) :
    lyndonFileRecord text (ends 0 fs) pre.length =
      .ok (ascii "\n>Factor " ++ decimal (pre.length + 1) ++ ascii " : " ++
        decimal pre.flatten.length ++ ascii " -> " ++ decimal (pre.flatten.length + f.length) ++
        ascii "\n" ++ f) := by
  have hf : f ≠ [] := hne f (by simp [h])
  have hfl := List.length_pos_iff.2 hf
  have hpl := List.length_pos_iff.2 hp
  obtain ⟨pre', g, rfl⟩ : ∃ pre' g, pre = pre' ++ [g] :=
    ⟨pre.dropLast, pre.getLast hp, (List.dropLast_append_getLast hp).symm⟩
  have hg : g ≠ [] := hne g (by simp [h])
  have hgl := List.length_pos_iff.2 hg
  have h' : fs = pre' ++ g :: (f :: rest) := by rw [h]; simp
  unfold lyndonFileRecord
  have e1 : (pre' ++ [g]).length - 1 = pre'.length := by simp
  have e2 : (pre' ++ [g]).flatten.length = pre'.flatten.length + g.length := by simp
  rw [usub_ok hpl, ok_bind, e1, rd_some (tool_ends_get h'), ok_bind, rd_some (tool_ends_get h), ok_bind, e2]
  have htl : text = (pre' ++ [g]).flatten ++ (f ++ rest.flatten) := by rw [← ht, h]; simp
  have hs : slice text (pre'.flatten.length + g.length - 1 + 1)
      (pre'.flatten.length + g.length + f.length - 1 + 1) = .ok f := by
    have e3 : pre'.flatten.length + g.length - 1 + 1 = (pre' ++ [g]).flatten.length := by
      rw [e2]; omega
    have e4 : pre'.flatten.length + g.length + f.length - 1 + 1
        = (pre' ++ [g]).flatten.length + f.length := by rw [e2]; omega
    rw [e3, e4, slice, if_pos (by rw [htl]; simp; omega), htl, List.drop_left,
      Nat.add_sub_cancel_left, List.take_left]
  rw [hs, ok_bind, pure_ok]
  have e5 : pre'.flatten.length + g.length - 1 + 1 = pre'.flatten.length + g.length := by omega
  have e6 : pre'.flatten.length + g.length + f.length - 1 + 1
      = pre'.flatten.length + g.length + f.length := by omega
  rw [e5, e6]

theorem lyndonFileLoop_ok {text : List UInt8} {fs : List (List UInt8)} (ht : fs.flatten = text)
    (hne : ∀ g ∈ fs, g ≠ []) (rest : List (List UInt8)) :
    ∀ (pre : List (List UInt8)) (out : List UInt8), fs = pre ++ rest → pre ≠ [] →
    lyndonFileLoop text (ends 0 fs) rest.length pre.length out =
      .ok (out ++ records (pre.length + 1) pre.flatten.length (listed rest)) := by
  induction rest with
  | nil => intro pre out _ _; simp [lyndonFileLoop, listed, records]
  | cons f rest ih =>
    intro pre out h hp
    rw [List.length_cons, lyndonFileLoop, lyndonFileStop_ok h ht hne, ok_bind]
    by_cases hs : rest = [] ∧ f.getLast? = some 0
    · rw [if_pos (by simpa using hs)]
      simp [hs.1, listed, hs.2, records, pure_ok]
    · rw [if_neg (by simpa using hs), lyndonFileRecord_ok h ht hne hp, ok_bind]
      have hih := ih (pre ++ [f]) (out ++ (ascii "\n>Factor " ++ decimal (pre.length + 1) ++ ascii " : " ++
        decimal pre.flatten.length ++ ascii " -> " ++ decimal (pre.flatten.length + f.length) ++
        ascii "\n" ++ f)) (by rw [h]; simp) (by simp)
      have e1 : (pre ++ [f]).length = pre.length + 1 := by simp
      have e2 : (pre ++ [f]).flatten.length = pre.flatten.length + f.length := by simp
      rw [e1, e2] at hih
      rw [hih]
      have hl : listed (f :: rest) = f :: listed rest := by
        cases rest with
        | nil =>
          have hs' : f.getLast? ≠ some 0 := fun h => hs ⟨rfl, h⟩
          simp [listed, hs']
        | cons g r => exact listed_cons
      rw [hl, records]
      simp only [List.append_assoc]

theorem lyndonfactorizationMain_ok {text f : List UInt8} {fs : List (List UInt8)}
    (h : IsLyndonFactorization (f :: fs) text) :
    lyndonfactorizationMain text = .ok (fs.length + 1, report f fs) := by
  have hne : ∀ g ∈ f :: fs, g ≠ [] := fun g hg => (h.2.1 g hg).1
  have hfl := List.length_pos_iff.2 (hne f (by simp))
  unfold lyndonfactorizationMain
  rw [duval_of_factorization h, ok_bind]
  obtain ⟨pre, l, hl⟩ : ∃ pre l, f :: fs = pre ++ [l] :=
    ⟨(f :: fs).dropLast, (f :: fs).getLast (by simp), (List.dropLast_append_getLast (by simp)).symm⟩
  have hll := List.length_pos_iff.2 (hne l (by rw [hl]; simp))
  have htl : text.length = pre.flatten.length + l.length := by rw [← h.1, hl]; simp
  have hlast : (ends 0 (f :: fs)).getLast? = some (pre.flatten.length + l.length - 1) := by
    rw [List.getLast?_eq_getElem?, ends_length]
    have : (f :: fs).length - 1 = pre.length := by rw [hl]; simp
    rw [this]
    exact tool_ends_get (rest := []) hl
  rw [hlast]
  simp only
  have ha : assertR (decide (pre.flatten.length + l.length - 1 + 1 = text.length)) = .ok () := by
    rw [assertR, if_pos (decide_eq_true (by omega))]
  rw [ha, ok_bind]
  have h0 : (ends 0 (f :: fs))[0]? = some (f.length - 1) := by simp [ends]
  rw [rd_some h0, ok_bind]
  have hft : text = f ++ fs.flatten := by rw [← h.1]; simp
  have hs : slice text 0 (f.length - 1 + 1) = .ok f := by
    rw [slice, if_pos (by rw [hft]; simp; omega), hft]
    have : f.length - 1 + 1 - 0 = f.length := by omega
    rw [this, List.drop_zero, List.take_left]
  rw [hs, ok_bind, ends_length]
  have := lyndonFileLoop_ok h.1 hne fs [f] (ascii ">Factor 1\n" ++ f) (by simp) (by simp)
  simp only [List.length_singleton] at this
  rw [show (f :: fs).length - 1 = fs.length by simp, this, ok_bind, pure_ok]
  simp [report]

theorem lyndon_ends_zero {w : List UInt8} (h : IsLyndon w) (hz : w.getLast? = some 0) : w = [0] := by
  have hne := h.1
  obtain ⟨u, hu⟩ : ∃ u, w = u ++ [0] := by
    refine ⟨w.dropLast, ?_⟩
    have h1 := List.getLast?_eq_getLast_of_ne_nil hne
    rw [hz] at h1
    have h2 := List.dropLast_append_getLast hne
    rw [← Option.some.inj h1] at h2
    exact h2.symm
  by_cases hn : u = []
  · simpa [hn] using hu
  · exfalso
    have hlt := h.2 u [0] hn (by simp) hu
    cases w with
    | nil => exact hne rfl
    | cons a w' =>
      have := List.cons_lt_cons_iff.1 hlt
      rcases this with h1 | ⟨_, h1⟩
      · exact absurd h1 (by simp)
      · exact absurd h1 (by simp)

end Verif
