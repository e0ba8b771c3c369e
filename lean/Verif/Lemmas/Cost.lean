import Verif.Model.Cost
import Verif.Lemmas.SmallerValues

/-! # Counting programs: erasure and cost rules -/

namespace Verif

open Model

variable {α β γ σ : Type}

/-- Forgetting the counter of `x` gives `y`. -/
def Erases (x : RC β) (y : Res β) : Prop := ∀ c, (x c).map Prod.fst = y

theorem RC.bind_apply (x : RC β) (f : β → RC γ) (c : Nat) :
    (x >>= f) c = (x c >>= fun p => f p.1 p.2) := rfl

theorem RC.pure_apply (a : β) (c : Nat) : (pure a : RC β) c = .ok (a, c) := rfl

theorem RC.lift_apply (r : Res β) (c : Nat) :
    (liftM r : RC β) c = (r >>= fun a => .ok (a, c)) := rfl

theorem RC.bind_ok {x : RC β} {f : β → RC γ} {c : Nat} {r : γ × Nat} :
    (x >>= f) c = .ok r ↔ ∃ a c', x c = .ok (a, c') ∧ f a c' = .ok r := by
  rw [RC.bind_apply]
  constructor
  · intro h
    rcases hx : x c with e | ⟨a, c'⟩
    · rw [hx] at h; cases h
    · rw [hx] at h; exact ⟨a, c', rfl, h⟩
  · rintro ⟨a, c', hx, h⟩
    rw [hx]; exact h

theorem RC.lift_ok {r : Res β} {c : Nat} {p : β × Nat} :
    (liftM r : RC β) c = .ok p ↔ r = .ok p.1 ∧ p.2 = c := by
  rw [RC.lift_apply]
  rcases r with e | a
  · constructor
    · intro h; cases h
    · rintro ⟨h, -⟩; cases h
  · rw [ok_bind]
    constructor
    · intro h; injection h with h; subst h; exact ⟨rfl, rfl⟩
    · rintro ⟨h, h2⟩; injection h with h; subst h; subst h2; rfl

theorem RC.pure_eq_ok {a : β} {c : Nat} {p : β × Nat} : (pure a : RC β) c = .ok p ↔ p = (a, c) := by
  rw [RC.pure_apply]
  constructor
  · intro h; injection h with h; exact h.symm
  · rintro rfl; rfl

theorem tick_ok {c : Nat} {p : Unit × Nat} : tick c = .ok p ↔ p = ((), c + 1) := by
  unfold tick
  constructor
  · intro h; injection h with h; exact h.symm
  · rintro rfl; rfl

theorem erases_pure (a : β) : Erases (pure a) (pure a) := fun _ => rfl

theorem erases_lift (r : Res β) : Erases (liftM r) r := by
  intro c
  rw [RC.lift_apply]
  rcases r with e | a <;> rfl

theorem erases_bind {x : RC β} {y : Res β} {f : β → RC γ} {g : β → Res γ} (h : Erases x y)
    (hf : ∀ a, Erases (f a) (g a)) : Erases (x >>= f) (y >>= g) := by
  intro c
  rw [RC.bind_apply]
  have := h c
  rcases hx : x c with e | ⟨a, c'⟩
  · rw [hx] at this
    rw [← this]; rfl
  · rw [hx] at this
    rw [← this]
    exact hf a c'

theorem erases_tick {f : Unit → RC γ} {g : Res γ} (hf : Erases (f ()) g) : Erases (tick >>= f) g := by
  intro c
  exact hf (c + 1)

theorem erases_ite {p : Prop} [Decidable p] {x x' : RC β} {y y' : Res β} (h : Erases x y) (h' : Erases x' y') :
    Erases (if p then x else x') (if p then y else y') := by
  split
  · exact h
  · exact h'

theorem erases_whileC {fuel : Nat} {cond : σ → RC Bool} {cond' : σ → Res Bool} {body : σ → RC σ}
    {body' : σ → Res σ} (hc : ∀ s, Erases (cond s) (cond' s)) (hb : ∀ s, Erases (body s) (body' s)) (s : σ) :
    Erases (whileC fuel cond body s) (whileLoop fuel cond' body' s) := by
  induction fuel generalizing s with
  | zero => intro c; rfl
  | succ fuel ih =>
    unfold whileC whileLoop
    exact erases_bind (hc s) (fun b => erases_ite (erases_bind (hb s) (fun s' => ih s')) (erases_pure _))

theorem erases_forRangeC {lo hi : Nat} {s : σ} {body : Nat → σ → RC σ} {body' : Nat → σ → Res σ}
    (hb : ∀ i s, Erases (body i s) (body' i s)) : Erases (forRangeC lo hi s body) (forRange lo hi s body') := by
  unfold forRangeC forRange
  generalize List.range' lo (hi - lo) = l
  induction l generalizing s with
  | nil => exact erases_pure _
  | cons a l ih =>
    rw [List.foldlM_cons, List.foldlM_cons]
    exact erases_bind (hb a s) (fun s' => ih)

theorem Erases.ok {x : RC β} {y : Res β} (h : Erases x y) {a : β} (hy : y = .ok a) (c : Nat) :
    ∃ c', x c = .ok (a, c') := by
  have := h c
  rcases hx : x c with e | ⟨b, c'⟩
  · rw [hx, hy] at this; cases this
  · rw [hx, hy] at this
    injection this with this
    simp only at this
    exact ⟨c', by rw [this]⟩

theorem Erases.value {x : RC β} {y : Res β} (h : Erases x y) {a : β} {c c' : Nat} (hx : x c = .ok (a, c')) :
    y = .ok a := by
  rw [← h c, hx]; rfl

/-! ### The counting programs erase to the model -/

theorem duvalC_erase [LinearOrder α] (text : List α) : Erases (duvalC text) (duval text) := by
  unfold duvalC duval
  refine erases_bind (erases_whileC (fun s => erases_pure _) (fun s => ?_) _) (fun _ => erases_pure _)
  unfold duvalOuterC duvalOuter
  refine erases_bind (erases_whileC (fun s => ?_) (fun s => ?_) _) (fun _ => erases_lift _)
  · unfold duvalCondC duvalCond
    exact erases_ite (erases_bind (erases_lift _) (fun _ => erases_bind (erases_lift _)
      (fun _ => erases_tick (erases_pure _)))) (erases_pure _)
  · unfold duvalBodyC duvalBody
    exact erases_bind (erases_lift _) (fun _ => erases_bind (erases_lift _) (fun _ => erases_tick
      (erases_bind (erases_lift _) (fun _ => erases_bind (erases_lift _) (fun _ => erases_tick
        (erases_pure _))))))

theorem borderArrayC_erase [DecidableEq α] (text : List α) : Erases (borderArrayC text) (borderArray text) := by
  unfold borderArrayC borderArray
  refine erases_bind (erases_forRangeC (fun i s => ?_)) (fun b => ?_)
  · unfold borderStepC borderStep
    refine erases_bind (erases_lift _) (fun _ => erases_bind (erases_whileC (fun s => ?_) (fun s => ?_) _)
      (fun _ => erases_pure _))
    · unfold borderCondC borderCond
      exact erases_ite (erases_bind (erases_lift _) (fun _ => erases_bind (erases_lift _)
        (fun _ => erases_tick (erases_pure _)))) (erases_pure _)
    · exact erases_bind (erases_lift _) (fun _ => erases_lift _)
  · cases b with
    | nil => exact erases_pure _
    | cons a l => exact erases_bind (erases_lift _) (fun _ => erases_pure _)

theorem computePlcpC_erase [DecidableEq α] (text : List α) (phi : List Nat) :
    Erases (computePlcpC text phi) (computePlcp text phi) := by
  unfold computePlcpC computePlcp
  refine erases_bind (erases_lift _) (fun _ => erases_bind (erases_forRangeC (fun i s => ?_))
    (fun _ => erases_pure _))
  refine erases_bind (erases_lift _) (fun _ => erases_bind (erases_whileC (fun s => ?_)
    (fun s => erases_pure _) _) (fun _ => erases_bind (erases_lift _) (fun _ => erases_pure _)))
  unfold plcpCondC plcpCond
  exact erases_ite (erases_bind (erases_lift _) (fun _ => erases_bind (erases_lift _)
    (fun _ => erases_tick (erases_pure _)))) (erases_pure _)

theorem jumpC_erase [LinearOrder α] (arr : List α) (sv : List Nat) (i fuel p : Nat) :
    Erases (jumpC arr sv i fuel p) (jump arr sv i fuel p) := by
  induction fuel generalizing p with
  | zero => intro c; rfl
  | succ fuel ih =>
    unfold jumpC jump
    exact erases_ite (erases_bind (erases_lift _) (fun _ => erases_bind (erases_lift _)
      (fun _ => erases_tick (erases_ite (erases_pure _) (erases_bind (erases_lift _) (fun _ => ih _))))))
      (erases_pure _)

theorem computePsvC_erase [LinearOrder α] (arr : List α) : Erases (computePsvC arr) (computePsv arr) := by
  unfold computePsvC computePsv
  refine erases_bind (erases_lift _) (fun _ => erases_forRangeC (fun i s => ?_))
  exact erases_bind (erases_lift _) (fun _ => erases_bind (erases_lift _) (fun _ =>
    erases_bind (jumpC_erase _ _ _ _ _) (fun _ => erases_lift _)))

theorem computeNsvC_erase [LinearOrder α] (arr : List α) : Erases (computeNsvC arr) (computeNsv arr) := by
  unfold computeNsvC computeNsv
  refine erases_bind (erases_lift _) (fun _ => erases_bind (erases_lift _) (fun _ =>
    erases_forRangeC (fun i s => ?_)))
  exact erases_bind (erases_lift _) (fun _ =>
    erases_bind (jumpC_erase _ _ _ _ _) (fun _ => erases_lift _))

theorem lyndonConjugateC_erase [LinearOrder α] (text : List α) : Erases (lyndonConjugateC text) (lyndonConjugate text) := by
  unfold lyndonConjugateC lyndonConjugate
  refine erases_bind (duvalC_erase _) fun factors => erases_bind (erases_lift _) fun f0 => erases_ite (erases_pure _) ?_
  refine erases_bind (erases_lift _) fun hi => erases_bind (erases_lift _) fun r => ?_
  cases r with
  | some p => exact erases_pure _
  | none => exact erases_lift _

theorem isPrimitiveC_erase [DecidableEq α] (text : List α) : Erases (isPrimitiveC text) (isPrimitive text) := by
  unfold isPrimitiveC isPrimitive
  refine erases_bind (borderArrayC_erase _) fun border => erases_bind (erases_lift _) fun p => erases_ite (erases_pure _) ?_
  exact erases_bind (erases_lift _) fun p => erases_ite (erases_lift _) (erases_pure _)

/-! ### Rules for the cost of loops that returned -/

theorem whileC_returned (I Q : σ → Nat → Prop) {fuel : Nat} {cond : σ → RC Bool} {body : σ → RC σ} {s r : σ}
    {c c' : Nat} (h0 : I s c)
    (hfalse : ∀ s c c', I s c → cond s c = .ok (false, c') → Q s c')
    (htrue : ∀ s c c' s' c'', I s c → cond s c = .ok (true, c') → body s c' = .ok (s', c'') → I s' c'')
    (h : whileC fuel cond body s c = .ok (r, c')) : Q r c' := by
  induction fuel generalizing s c with
  | zero => cases h
  | succ fuel ih =>
    unfold whileC at h
    obtain ⟨b, c1, hb, h⟩ := RC.bind_ok.1 h
    cases b with
    | false =>
      rw [if_neg (by simp)] at h
      have := RC.pure_eq_ok.1 h
      injection this with e1 e2
      subst e1 e2
      exact hfalse _ _ _ h0 hb
    | true =>
      rw [if_pos rfl] at h
      obtain ⟨s', c2, hs, h⟩ := RC.bind_ok.1 h
      exact ih (htrue _ _ _ _ _ h0 hb hs) h

theorem forRangeC_returned (I : Nat → σ → Nat → Prop) {lo hi : Nat} {s r : σ} {body : Nat → σ → RC σ}
    {c c' : Nat} (hle : lo ≤ hi) (h0 : I lo s c)
    (hstep : ∀ i s c s' c', lo ≤ i → i < hi → I i s c → body i s c = .ok (s', c') → I (i + 1) s' c')
    (h : forRangeC lo hi s body c = .ok (r, c')) : I hi r c' := by
  obtain ⟨d, rfl⟩ : ∃ d, hi = lo + d := ⟨hi - lo, by omega⟩
  clear hle
  unfold forRangeC at h
  rw [show lo + d - lo = d by omega] at h
  induction d generalizing lo s c with
  | zero =>
    have := RC.pure_eq_ok.1 h
    injection this with e1 e2
    subst e1 e2
    exact h0
  | succ d ih =>
    rw [List.range'_succ, List.foldlM_cons] at h
    obtain ⟨s', c2, hs, h⟩ := RC.bind_ok.1 h
    have := ih (lo := lo + 1) (hstep lo s c s' c2 (by omega) (by omega) h0 hs)
      (fun i s c s' c' h1 h2 => hstep i s c s' c' (by omega) (by omega)) h
    rwa [show lo + (d + 1) = lo + 1 + d by omega]

end Verif
