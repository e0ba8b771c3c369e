import Verif.Model.Release
import Verif.Lemmas.Fib

/-! # The two builds of the generators -/

namespace Verif

open Verif Model

/-! ## Whatever is returned by `x` is returned by `y` -/

/-- If `x` returns a value, `y` returns the same value. -/
def Res.Le {α : Type} (x y : Res α) : Prop := ∀ v, x = .ok v → y = .ok v

namespace Res.Le

variable {α β σ : Type}

theorem refl (x : Res α) : Res.Le x x := fun _ h => h

theorem error {e : Panic} {y : Res α} : Res.Le (.error e) y := fun _ h => by cases h

theorem bind {x x' : Res α} {f f' : α → Res β} (h : Res.Le x x') (hf : ∀ a, Res.Le (f a) (f' a)) :
    Res.Le (x >>= f) (x' >>= f') := by
  intro v hv
  cases x with
  | error e => cases hv
  | ok a =>
    rw [h a rfl]
    exact hf a v hv

theorem foldlM {l : List α} {f f' : σ → α → Res σ} (h : ∀ s a, Res.Le (f s a) (f' s a)) (s : σ) :
    Res.Le (l.foldlM f s) (l.foldlM f' s) := by
  induction l generalizing s with
  | nil => exact refl _
  | cons a l ih => exact bind (h s a) ih

theorem forRange {lo hi : Nat} {s : σ} {f f' : Nat → σ → Res σ} (h : ∀ i s, Res.Le (f i s) (f' i s)) :
    Res.Le (Verif.forRange lo hi s f) (Verif.forRange lo hi s f') := foldlM (fun s i => h i s) s

theorem whileLoop {fuel : Nat} {c c' : σ → Res Bool} {f f' : σ → Res σ} (hc : ∀ s, Res.Le (c s) (c' s))
    (hf : ∀ s, Res.Le (f s) (f' s)) (s : σ) : Res.Le (Verif.whileLoop fuel c f s) (Verif.whileLoop fuel c' f' s) := by
  induction fuel generalizing s with
  | zero => exact error
  | succ fuel ih =>
    refine bind (hc s) fun b => ?_
    cases b
    · exact refl _
    · exact bind (hf s) ih

theorem loopR {fuel : Nat} {f f' : σ → Res (Bool × σ)} (hf : ∀ s, Res.Le (f s) (f' s)) (s : σ) :
    Res.Le (Verif.loopR fuel f s) (Verif.loopR fuel f' s) := by
  induction fuel generalizing s with
  | zero => exact error
  | succ fuel ih =>
    refine bind (hf s) fun b => ?_
    obtain ⟨b, t⟩ := b
    cases b
    · exact ih t
    · exact refl _

theorem mapM {l : List α} {f f' : α → Res β} (h : ∀ a, Res.Le (f a) (f' a)) : Res.Le (l.mapM f) (l.mapM f') := by
  induction l with
  | nil => exact refl _
  | cons a l ih =>
    rw [List.mapM_cons, List.mapM_cons]
    exact bind (h a) fun b => bind ih fun bs => refl _

theorem ite {c : Prop} [Decidable c] {x x' y y' : Res α} (h : Res.Le x x') (h' : Res.Le y y') :
    Res.Le (if c then x else y) (if c then x' else y') := by
  split
  · exact h
  · exact h'

theorem uaddB (a b : Nat) : Res.Le (Model.uaddB .checked a b) (Model.uaddB .wrapping a b) := ite (refl _) error
theorem usubB (a b : Nat) : Res.Le (Model.usubB .checked a b) (Model.usubB .wrapping a b) := ite (refl _) error
theorem u8addB (a b : Nat) : Res.Le (Model.u8addB .checked a b) (Model.u8addB .wrapping a b) := ite (refl _) error
theorem shl1B (a : Nat) : Res.Le (Model.shl1B .checked a) (Model.shl1B .wrapping a) := ite (refl _) error

theorem i32SizeHintB (k : Nat) : Res.Le (Model.i32SizeHintB .checked k) (Model.i32SizeHintB .wrapping k) :=
  ite (ite (ite (refl _) error) (refl _)) error

theorem initialCapacityB (r h : Nat) : Res.Le (Model.initialCapacityB .checked r h) (Model.initialCapacityB .wrapping r h) :=
  bind (ite (refl _) (shl1B r)) fun _ => refl _

theorem fibonacciWordBufB (L k : Nat) :
    Res.Le (Model.fibonacciWordBufB .checked L k) (Model.fibonacciWordBufB .wrapping L k) :=
  bind (refl _) fun _ => bind (refl _) fun _ => bind (u8addB _ _) fun _ =>
    bind (forRange fun _ _ => bind (uaddB _ _) fun _ => refl _) fun _ => refl _

theorem fibonacciWordB (est : Nat → ℝ) (k : Nat) :
    Res.Le (Model.fibonacciWordB .checked est k) (Model.fibonacciWordB .wrapping est k) :=
  bind (u8addB _ _) fun _ => bind (uaddB _ _) fun _ => fibonacciWordBufB _ _

theorem thuemorseWordB (k : Nat) : Res.Le (Model.thuemorseWordB .checked k) (Model.thuemorseWordB .wrapping k) :=
  bind (shl1B _) fun _ => bind (refl _) fun _ => bind (refl _) fun _ => forRange fun _ _ => bind (shl1B _) fun _ => refl _

theorem kolStepB (s : KolState) : Res.Le (Model.kolStepB .checked s) (Model.kolStepB .wrapping s) :=
  bind (usubB _ _) fun _ => bind (refl _) fun _ => bind (refl _) fun _ => bind (refl _) fun _ => bind (refl _) fun _ =>
    bind (refl _) fun _ => ite (bind (uaddB _ _) fun _ => bind (usubB _ _) fun _ => refl _) (refl _)

theorem kolakoskiWordB (k : Nat) : Res.Le (Model.kolakoskiWordB .checked k) (Model.kolakoskiWordB .wrapping k) :=
  bind (u8addB _ _) fun _ => bind (uaddB _ _) fun _ => bind (refl _) fun _ => bind (refl _) fun _ => bind (refl _) fun _ =>
    bind (forRange fun _ s => loopR kolStepB s) fun _ => refl _

theorem iterate2morphismB (k : Nat) (f : UInt8 → List UInt8) :
    Res.Le (Model.iterate2morphismB .checked k f) (Model.iterate2morphismB .wrapping k f) :=
  ite (refl _) (bind (shl1B _) fun _ => refl _)

theorem withStartB (k : Nat) (f : UInt8 → List UInt8) (h : Nat) (s : List UInt8) :
    Res.Le (iterateGeneralMorphismWithStartsymbolB .checked k f h s) (iterateGeneralMorphismWithStartsymbolB .wrapping k f h s) :=
  bind (initialCapacityB _ _) fun _ => refl _

theorem morStepB (f : UInt8 → List UInt8) (s : MorState) :
    Res.Le (Model.morStepB .checked f s) (Model.morStepB .wrapping f s) :=
  bind (refl _) fun _ => ite (bind (usubB _ _) fun _ => refl _) (refl _)

theorem generalB (fuel k : Nat) (f : UInt8 → List UInt8) (h : Nat) :
    Res.Le (iterateGeneralMorphismB .checked fuel k f h) (iterateGeneralMorphismB .wrapping fuel k f h) :=
  ite (refl _) (bind (initialCapacityB _ _) fun _ => bind (usubB _ _) fun _ =>
    bind (whileLoop (fun _ => refl _) (morStepB f) _) fun _ => refl _)

theorem tribonacciNumberB (k : Nat) : Res.Le (Model.tribonacciNumberB .checked k) (Model.tribonacciNumberB .wrapping k) :=
  ite (refl _) (bind (forRange fun _ _ => bind (uaddB _ _) fun _ => bind (uaddB _ _) fun _ => refl _) fun _ => refl _)

theorem tribonacciWordB (fuel k : Nat) :
    Res.Le (Model.tribonacciWordB .checked fuel k) (Model.tribonacciWordB .wrapping fuel k) :=
  bind (tribonacciNumberB k) fun _ => generalB _ _ _ _

theorem vtmWordB (fuel k : Nat) : Res.Le (Model.vtmWordB .checked fuel k) (Model.vtmWordB .wrapping fuel k) :=
  bind (i32SizeHintB k) fun _ => generalB _ _ _ _

theorem fibonacciLyndonfactorB (k : Nat) :
    Res.Le (Model.fibonacciLyndonfactorB .checked k) (Model.fibonacciLyndonfactorB .wrapping k) :=
  bind (i32SizeHintB k) fun _ => withStartB _ _ _ _

theorem quaternaryB (k : Nat) :
    Res.Le (quaternaryPaperfoldingWordB .checked k) (quaternaryPaperfoldingWordB .wrapping k) :=
  bind (shl1B _) fun _ => refl _

theorem paperfoldingWordB (k : Nat) : Res.Le (Model.paperfoldingWordB .checked k) (Model.paperfoldingWordB .wrapping k) :=
  bind (quaternaryB k) fun _ => refl _

theorem power2MsbB (j b : Nat) : Res.Le (Model.power2MsbB .checked j b) (Model.power2MsbB .wrapping j b) :=
  whileLoop (fun _ => bind (shl1B _) fun _ => refl _) (fun _ => refl _) _

theorem power2SequenceB (k : Nat) : Res.Le (Model.power2SequenceB .checked k) (Model.power2SequenceB .wrapping k) :=
  bind (shl1B _) fun _ => bind (refl _) fun _ => bind (forRange fun _ _ => bind (power2MsbB _ _) fun _ =>
    bind (shl1B _) fun _ => bind (usubB _ _) fun _ => bind (usubB _ _) fun _ => refl _) fun _ => refl _

theorem wordOfB (est : Nat → ℝ) (fuel : Nat) (name : WordName) (k : Nat) :
    Res.Le (Model.wordOfB .checked est fuel name k) (Model.wordOfB .wrapping est fuel name k) := by
  cases name
  · exact fibonacciWordB _ _
  · exact fibonacciLyndonfactorB _
  · exact tribonacciWordB _ _
  · exact kolakoskiWordB _
  · exact thuemorseWordB _
  · exact iterate2morphismB _ _
  · exact paperfoldingWordB _
  · exact quaternaryB _
  · exact refl _
  · exact power2SequenceB _
  · exact vtmWordB _ _

theorem lwgPopB (s : Nat) (st : List Nat) : Res.Le (Model.lwgPopB .checked s st) (Model.lwgPopB .wrapping s st) :=
  whileLoop (fun st => by
    cases st.getLast? with
    | none => exact refl _
    | some c => exact bind (usubB _ _) fun _ => refl _) (fun _ => refl _) _

theorem lwgNextB (g : LyndonWordGenerator) : Res.Le (g.nextB .checked) (g.nextB .wrapping) :=
  ite (refl _) (ite (refl _) (bind (refl _) fun _ => bind (lwgPopB _ _) fun st => by
    cases st.getLast? with
    | none => exact refl _
    | some c => exact bind (u8addB _ _) fun _ => refl _))

theorem bsgNextB (g : BinaryStringGenerator) : Res.Le (g.nextB .checked) (g.nextB .wrapping) :=
  ite (refl _) (bind (forRange fun _ _ => bind (shl1B _) fun _ => refl _) fun _ => refl _)

end Res.Le

/-! ## The build with overflow checks is the model of the other files -/

theorem uaddB_checked : uaddB .checked = uadd := rfl
theorem usubB_checked : usubB .checked = usub := rfl
theorem u8addB_checked : u8addB .checked = u8add := rfl
theorem shl1B_checked : shl1B .checked = shl1 := rfl

theorem wordOfB_checked (est : Nat → ℝ) (fuel : Nat) (name : WordName) (k : Nat) :
    wordOfB .checked est fuel name k = wordOf (est (k + 2)) fuel name k := by
  cases name <;> try rfl
  show fibonacciWordB .checked est k = fibonacciWord (est (k + 2)) k
  unfold fibonacciWordB fibonacciWord
  rw [u8addB_checked, u8add]
  split <;> rfl

theorem lwgNextB_checked (g : LyndonWordGenerator) : g.nextB .checked = g.next := by
  unfold LyndonWordGenerator.nextB LyndonWordGenerator.next
  congr 1
  split
  · rfl
  · congr 1
    funext st
    show lwgPop g.sigma st >>= _ = _
    congr 1
    funext st
    cases st.getLast? with
    | none => rfl
    | some c =>
      simp only [u8addB_checked, u8add]
      split <;> rfl

theorem bsgNextB_checked (g : BinaryStringGenerator) : g.nextB .checked = g.next := by
  unfold BinaryStringGenerator.nextB BinaryStringGenerator.next
  have : (fun i (text : List UInt8) => do
      let b ← shl1B .checked i
      let bit := g.rank &&& b
      pure (text ++ [if bit = 0 then (48 : UInt8) else 49])) = fun i text =>
      if i < 64 then
        let bit := g.rank &&& (1 <<< i)
        pure (text ++ [if bit = 0 then (48 : UInt8) else 49])
      else (.error .arith : Res (List UInt8)) := by
    funext i text
    rw [shl1B_checked, shl1]
    split
    · rw [ok_bind, Nat.one_shiftLeft]
    · rfl
  rw [this]

theorem lyndonLineB_checked (w : List Nat) : lyndonLineB .checked w = lyndonLine w := by
  unfold lyndonLineB lyndonLine
  congr 1
  funext x
  rw [u8addB_checked, u8add]
  split <;> rfl

theorem lyndonwordsLoopB_checked (fuel : Nat) (g : LyndonWordGenerator) :
    lyndonwordsLoopB .checked fuel g = lyndonwordsLoop fuel g := by
  induction fuel generalizing g with
  | zero => rfl
  | succ fuel ih =>
    unfold lyndonwordsLoopB lyndonwordsLoop
    rw [lwgNextB_checked]
    cases g.next with
    | error e => rfl
    | ok p =>
      obtain ⟨o, g'⟩ := p
      cases o with
      | none => rfl
      | some w =>
        simp only [lyndonLineB_checked, ih]
        cases lyndonLine w <;> rfl

theorem Res.Le.build {α : Type} {f : Build → Res α} (h : Res.Le (f .checked) (f .wrapping)) (m : Build) : Res.Le (f .checked) (f m) := by
  cases m
  · exact Res.Le.refl _
  · exact h

/-- A run of `word` that succeeds with overflow checks is the same in both builds. -/
theorem wordMainB_ok {m : Build} {creatable : String → Bool} {est : Nat → ℝ} {fuel : Nat} {name : WordName} {k : Nat}
    {out : Option String} {w w' : World} (h : wordMain creatable (est (k + 2)) fuel name k out w = (w', .ok ())) :
    wordMainB m creatable est fuel name k out w = (w', .ok ()) := by
  unfold wordMain at h
  unfold wordMainB
  cases ho : openOut creatable out w with
  | error e => rw [ho] at h; cases h
  | ok w1 =>
    rw [ho] at h
    simp only at h ⊢
    cases hw : wordOf (est (k + 2)) fuel name k with
    | error e => rw [hw] at h; cases h
    | ok t =>
      rw [hw] at h
      rw [Res.Le.build (f := fun m => wordOfB m est fuel name k) (Res.Le.wordOfB est fuel name k) m t
        (by rw [← hw]; exact wordOfB_checked est fuel name k)]
      exact h

theorem lyndonwordsLoopB_ok {m : Build} {fuel : Nat} {g : LyndonWordGenerator} {out : List UInt8}
    (h : lyndonwordsLoop fuel g = (out, .ok ())) : lyndonwordsLoopB m fuel g = (out, .ok ()) := by
  cases m with
  | checked => rw [lyndonwordsLoopB_checked]; exact h
  | wrapping =>
    induction fuel generalizing g out with
    | zero => cases h
    | succ fuel ih =>
      unfold lyndonwordsLoop at h
      unfold lyndonwordsLoopB
      have hle := Res.Le.lwgNextB g
      rw [lwgNextB_checked] at hle
      cases hn : g.next with
      | error e => rw [hn] at h; cases h
      | ok p =>
        obtain ⟨o, g'⟩ := p
        rw [hle _ hn]
        rw [hn] at h
        cases o with
        | none => exact h
        | some v =>
          simp only at h ⊢
          have hl : Res.Le (lyndonLineB .checked v) (lyndonLineB .wrapping v) :=
            Res.Le.mapM fun x => Res.Le.bind (Res.Le.u8addB x 97) fun _ => Res.Le.refl _
          rw [lyndonLineB_checked] at hl
          cases hv : lyndonLine v with
          | error e => rw [hv] at h; cases h
          | ok l =>
            rw [hl _ hv]
            rw [hv] at h
            simp only at h ⊢
            unfold emit at h ⊢
            cases hr : lyndonwordsLoop fuel g' with
            | mk a b =>
              rw [hr] at h
              simp only [Prod.mk.injEq] at h
              obtain ⟨h1, rfl⟩ := h
              rw [ih hr, ← h1]

/-! ## What a loop returns, without termination -/

section returned
variable {σ : Type}

theorem forRange_ret (P : Nat → σ → Prop) {lo hi : Nat} {s r : σ} {body : Nat → σ → Res σ} (hle : lo ≤ hi) (h0 : P lo s)
    (hstep : ∀ i s s', lo ≤ i → i < hi → P i s → body i s = .ok s' → P (i + 1) s')
    (h : forRange lo hi s body = .ok r) : P hi r := by
  obtain ⟨d, rfl⟩ : ∃ d, hi = lo + d := ⟨hi - lo, by omega⟩
  clear hle
  induction d generalizing lo s with
  | zero => rw [forRange_done (by omega)] at h; cases h; exact h0
  | succ d ih =>
    rw [forRange_step (by omega)] at h
    cases hb : body lo s with
    | error e => rw [hb] at h; cases h
    | ok s' =>
      rw [hb, ok_bind] at h
      have := ih (lo := lo + 1) (hstep lo s s' (by omega) (by omega) h0 hb)
        (fun i s s' h1 h2 => hstep i s s' (by omega) (by omega)) (by rw [← h]; congr 1; omega)
      rw [show lo + 1 + d = lo + (d + 1) by omega] at this
      exact this

theorem whileLoop_ret (I : σ → Prop) {fuel : Nat} {cond : σ → Res Bool} {body : σ → Res σ} {s r : σ} (h0 : I s)
    (hstep : ∀ s s', I s → cond s = .ok true → body s = .ok s' → I s')
    (h : whileLoop fuel cond body s = .ok r) : I r ∧ cond r = .ok false := by
  induction fuel generalizing s with
  | zero => cases h
  | succ fuel ih =>
    unfold whileLoop at h
    cases hc : cond s with
    | error e => rw [hc] at h; cases h
    | ok b =>
      rw [hc, ok_bind] at h
      cases b with
      | false => cases h; exact ⟨h0, hc⟩
      | true =>
        cases hb : body s with
        | error e => rw [hb] at h; cases h
        | ok s' => rw [hb] at h; exact ih (hstep s s' h0 hc hb) h

theorem loopR_ret (I Q : σ → Prop) {fuel : Nat} {body : σ → Res (Bool × σ)} {s r : σ} (h0 : I s)
    (hstep : ∀ s s' b, I s → body s = .ok (b, s') → if b = true then Q s' else I s')
    (h : loopR fuel body s = .ok r) : Q r := by
  induction fuel generalizing s with
  | zero => cases h
  | succ fuel ih =>
    unfold loopR at h
    cases hb : body s with
    | error e => rw [hb] at h; cases h
    | ok p =>
      obtain ⟨b, s'⟩ := p
      rw [hb, ok_bind] at h
      have := hstep s s' b h0 hb
      cases b with
      | true => cases h; exact this
      | false => exact ih this h

end returned

end Verif
