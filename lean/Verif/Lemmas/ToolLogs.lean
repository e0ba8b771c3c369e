import Verif.Model.ToolLogs
import Verif.Lemmas.Fib

/-! # Lemmas about programs that log -/

namespace Verif

open Model Spec

variable {β γ σ : Type}

theorem LogR.pure_snd (a : β) : (pure a : LogR β).2 = .ok a := rfl
theorem LogR.pure_fst (a : β) : (pure a : LogR β).1 = [] := rfl
theorem quiet_snd (r : Res β) : (quiet r).2 = r := rfl
theorem quiet_fst (r : Res β) : (quiet r).1 = [] := rfl
theorem logR_snd (level : Nat) (l : Level) (m : List UInt8) : (logR level l m).2 = .ok () := rfl
theorem logR_fst (level : Nat) (l : Level) (m : List UInt8) : (logR level l m).1 = logMsg level l m := rfl

theorem LogR.bind_snd (x : LogR β) (f : β → LogR γ) : (x >>= f).2 = x.2 >>= fun a => (f a).2 := by
  show (match x.2 with
    | .error e => (x.1, .error e)
    | .ok a => (x.1 ++ (f a).1, (f a).2) : List Message × Res γ).2 = _
  cases x.2 <;> rfl

theorem LogR.bind_fst_ok {x : LogR β} {f : β → LogR γ} {a : β} (h : x.2 = .ok a) : (x >>= f).1 = x.1 ++ (f a).1 := by
  show (match x.2 with
    | .error e => (x.1, .error e)
    | .ok a => (x.1 ++ (f a).1, (f a).2) : List Message × Res γ).1 = _
  rw [h]

theorem LogR.bind_fst_error {x : LogR β} {f : β → LogR γ} {e : Panic} (h : x.2 = .error e) : (x >>= f).1 = x.1 := by
  show (match x.2 with
    | .error e => (x.1, .error e)
    | .ok a => (x.1 ++ (f a).1, (f a).2) : List Message × Res γ).1 = _
  rw [h]

theorem logR_bind_fst (level : Nat) (l : Level) (m : List UInt8) (f : Unit → LogR γ) :
    (logR level l m >>= f).1 = logMsg level l m ++ (f ()).1 := LogR.bind_fst_ok rfl

theorem quiet_bind_fst {r : Res β} {a : β} (h : r = .ok a) (f : β → LogR γ) : (quiet r >>= f).1 = (f a).1 := by
  rw [LogR.bind_fst_ok (show (quiet r).2 = .ok a from h)]
  rfl

theorem LogR.ite_snd {p : Prop} [Decidable p] (x y : LogR β) : (if p then x else y).2 = if p then x.2 else y.2 := by
  split <;> rfl

theorem repeatL_snd {n : Nat} {body : σ → LogR σ} {body' : σ → Res σ} (h : ∀ s, (body s).2 = body' s) (s : σ) :
    (repeatL n body s).2 = forRange 0 n s (fun _ s => body' s) := by
  have gen : ∀ n lo s, (repeatL n body s).2 = (List.range' lo n).foldlM (fun s _ => body' s) s := by
    intro n
    induction n with
    | zero => intro lo s; rfl
    | succ n ih =>
      intro lo s
      rw [repeatL, LogR.bind_snd, h, List.range'_succ, List.foldlM_cons]
      congr 1
      funext s'
      exact ih _ _
  exact gen n 0 s

/-! ### Fibonacci words -/

theorem res_bind_ok {x : Res β} {f : β → Res γ} {b : γ} (h : (x >>= f) = .ok b) : ∃ a, x = .ok a ∧ f a = .ok b := by
  cases x with
  | error e => cases h
  | ok a => exact ⟨a, rfl, h⟩

theorem wr_inv {l r : List β} {i : Nat} {x : β} (h : wr l i x = .ok r) : i < l.length ∧ r = l.set i x := by
  by_cases hi : i < l.length
  · rw [wr_ok hi] at h
    injection h with h
    exact ⟨hi, h.symm⟩
  · unfold wr at h
    rw [if_neg hi] at h
    cases h

/-- The pair of letters that `fibonacci_word` writes at once. -/
theorem fibStep_pair {s s' : FibState} (h : fibStep s = .ok s') (h2 : s'.target = s.target + 2) : s'.text[s.target]? = some 98 := by
  obtain ⟨text, prev, cur, src, tgt⟩ := s
  simp only [fibStep] at h h2 ⊢
  obtain ⟨c, -, h⟩ := res_bind_ok h
  split at h
  · obtain ⟨t1, h3, h⟩ := res_bind_ok h
    obtain ⟨t2, h4, h⟩ := res_bind_ok h
    injection h with h
    subst h
    simp only
    obtain ⟨g1, rfl⟩ := wr_inv h3
    obtain ⟨g2, rfl⟩ := wr_inv h4
    rw [List.getElem?_set_ne (by omega), List.getElem?_set_self g1]
  · obtain ⟨t1, h3, h⟩ := res_bind_ok h
    injection h with h
    subst h
    simp at h2

theorem fibWhile_exact {L new : Nat} {s : FibState} (h : FibInv L s) (hs : s.target ≤ new) (hL : new < L) (h0 : 0 < new) :
    ∃ s', whileLoop (new + 1) (fun s => pure (decide (s.target < new))) fibStep s = .ok s' ∧ FibInv L s' ∧
      s'.previous = s.previous ∧ s'.current = s.current ∧
      (s'.target = new ∨ s'.target = new + 1 ∧ s'.text[new - 1]? = some 98) := by
  obtain ⟨s', h1, ⟨j1, j2, j3, j4⟩, hc⟩ := whileLoop_inv
    (cond := fun (s : FibState) => (pure (decide (s.target < new)) : Res Bool)) (body := fibStep)
    (fun t : FibState => FibInv L t ∧ (t.target ≤ new ∨ t.target = new + 1 ∧ t.text[new - 1]? = some 98) ∧
      t.previous = s.previous ∧ t.current = s.current)
    (fun t => new - t.target) (fuel := new + 1) (s := s) ⟨h, .inl hs, rfl, rfl⟩ (by omega)
    (by
      rintro t ⟨i1, i2, i3, i4⟩
      by_cases hlt : t.target < new
      · right
        obtain ⟨t', g1, g2, g3, g4, g5, g6⟩ := fibStep_ok i1 (by omega)
        refine ⟨by simp [hlt, pure_ok], t', g1, ⟨g2, ?_, by rw [g5, i3], by rw [g6, i4]⟩, by omega⟩
        by_cases hle : t'.target ≤ new
        · exact .inl hle
        · right
          have e : t.target = new - 1 := by omega
          have := fibStep_pair g1 (by omega)
          rw [e] at this
          exact ⟨by omega, this⟩
      · left; simp [hlt, pure_ok])
  simp [pure_ok] at hc
  refine ⟨s', h1, j1, j3, j4, ?_⟩
  rcases j2 with j2 | j2
  · left; omega
  · right; exact j2

theorem FibInv.word {L i : Nat} {s : FibState} (h : FibInv L s) (ht : Nat.fib (i + 2) ≤ s.target) :
    s.text.take (Nat.fib (i + 2)) = fibWord i := by
  obtain ⟨m, hm⟩ := h.pre
  have a1 : s.text.take (Nat.fib (i + 2)) <+: iter fibMor (max m i) [97] := by
    refine List.IsPrefix.trans ?_ (hm.trans (fibMor_prolongable.prefix_le (le_max_left m i)))
    rw [List.prefix_take_iff]
    exact ⟨List.take_prefix _ _, le_trans (List.length_take_le _ _) ht⟩
  have a2 : iter fibMor i [97] <+: iter fibMor (max m i) [97] := fibMor_prolongable.prefix_le (le_max_right m i)
  have a3 : (iter fibMor i [97]).length = Nat.fib (i + 2) := by rw [← fibWord_eq, fibWord_length]
  have a4 : (s.text.take (Nat.fib (i + 2))).length = Nat.fib (i + 2) := by
    rw [List.length_take, h.len]; have := h.tgt; omega
  rw [List.prefix_iff_eq_take] at a1 a2
  rw [fibWord_eq, a1, a2, a3, a4]

theorem fibWord_last : ∀ i, (fibWord i).getLast? = some (if i % 2 = 0 then 97 else 98)
  | 0 => rfl
  | 1 => rfl
  | i + 2 => by
    rw [fibWord, List.getLast?_append, fibWord_last i, Nat.add_mod_right]
    rfl

/-- How far `fibonacci_word` has written after `i` rounds. -/
def fibTarget (i : Nat) : Nat := Nat.fib (i + 1) + if i % 2 = 0 ∧ 0 < i then 1 else 0

theorem fibRound_exact {L i : Nat} {s : FibState} (h : FibInv L s) (h1 : s.current = Nat.fib (i + 1)) (h2 : s.previous = Nat.fib i)
    (h3 : s.target = fibTarget i) (hL : Nat.fib (i + 2) < L) (hL2 : L < 9223372036854775808) :
    ∃ s', fibRound s = .ok s' ∧ FibInv L s' ∧ s'.current = Nat.fib (i + 2) ∧ s'.previous = Nat.fib (i + 1) ∧
      s'.target = fibTarget (i + 1) := by
  have he : Nat.fib (i + 1) + Nat.fib i = Nat.fib (i + 2) := by rw [Nat.fib_add_two, Nat.add_comm]
  have hpos : 0 < Nat.fib (i + 2) := Nat.fib_pos.2 (by omega)
  have hle : s.target ≤ Nat.fib (i + 2) := by
    rw [h3, fibTarget]
    split
    · rename_i hi
      have : 0 < Nat.fib i := Nat.fib_pos.2 (by omega)
      omega
    · omega
  unfold fibRound
  rw [h1, h2, uadd, he, if_pos (by omega), ok_bind]
  obtain ⟨s', g1, g2, g3, g4, g5⟩ := fibWhile_exact h hle hL hpos
  rw [g1, ok_bind]
  refine ⟨_, rfl, ⟨g2.len, g2.src, g2.tgt, g2.img, g2.pre⟩, rfl, by simp only [g4, h1], ?_⟩
  simp only
  have hw := g2.word (i := i) (by rcases g5 with g | g <;> omega)
  have hlast := fibWord_last i
  rw [← hw, List.getLast?_eq_getElem?, List.length_take, g2.len, Nat.min_eq_left (by omega),
    List.getElem?_take_of_lt (by omega)] at hlast
  have hne : (97 : UInt8) ≠ 98 := by decide
  rw [fibTarget, show i + 1 + 1 = i + 2 from rfl]
  rcases g5 with g | ⟨g, g'⟩
  · have himg := congrArg List.getLast? g2.img
    rw [g, List.getLast?_concat, List.getLast?_eq_getElem?, List.length_take, g2.len, Nat.min_eq_left (by omega),
      List.getElem?_take_of_lt (by omega), hlast] at himg
    injection himg with himg
    have : i % 2 = 0 := by
      by_contra hc
      rw [if_neg hc] at himg
      exact hne himg.symm
    rw [g, if_neg (by omega)]
    rfl
  · rw [g'] at hlast
    injection hlast with hlast
    have : ¬ i % 2 = 0 := by
      intro hc
      rw [if_pos hc] at hlast
      exact hne hlast.symm
    rw [g, if_pos (by omega)]

theorem fibLoop_logged (level : Nat) {L : Nat} (hL2 : L < 9223372036854775808) : ∀ (n i : Nat) (s : FibState), FibInv L s →
    s.current = Nat.fib (i + 1) → s.previous = Nat.fib i → s.target = fibTarget i → (∀ j, j < n → Nat.fib (i + j + 2) < L) →
    ∃ s', repeatL n (fibRoundL level) s =
        ((List.range n).flatMap (fun j => logMsg level .info (decimal (Nat.fib (i + j + 2)))), .ok s') ∧
      FibInv L s' ∧ s'.current = Nat.fib (i + n + 1) ∧ s'.target = fibTarget (i + n)
  | 0, i, s, h, h1, h2, h3, _ => ⟨s, rfl, h, h1, h3⟩
  | n + 1, i, s, h, h1, h2, h3, hb => by
    obtain ⟨s1, g1, g2, g3, g4, g5⟩ := fibRound_exact h h1 h2 h3 (hb 0 (by omega)) hL2
    obtain ⟨s', f1, f2, f3, f4⟩ := fibLoop_logged level hL2 n (i + 1) s1 g2 g3 g4 g5 (fun j hj => by
      have := hb (j + 1) (by omega)
      rwa [show i + 1 + j + 2 = i + (j + 1) + 2 by omega])
    refine ⟨s', ?_, f2, by rw [f3]; congr 1; omega, by rw [f4]; congr 1; omega⟩
    rw [repeatL]
    have e1 : (fibRoundL level s).2 = .ok s1 := by
      rw [fibRoundL, LogR.bind_snd, quiet_snd, g1, ok_bind]; rfl
    have e2 : (fibRoundL level s).1 = logMsg level .info (decimal (Nat.fib (i + 2))) := by
      rw [fibRoundL, quiet_bind_fst g1, logR_bind_fst, LogR.pure_fst, g3, List.append_nil]
    refine Prod.ext ?_ ?_
    · rw [LogR.bind_fst_ok e1, e2, f1, List.range_succ_eq_map, List.flatMap_cons, List.flatMap_map]
      simp only [Nat.add_zero]
      congr 1
      apply List.flatMap_congr
      intro j _
      rw [show i + 1 + j + 2 = i + (j.succ) + 2 by omega]
    · rw [LogR.bind_snd, e1, ok_bind, f1]

end Verif
