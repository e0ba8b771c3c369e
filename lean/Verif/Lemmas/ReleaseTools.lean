import Verif.Model.ReleaseTools
import Verif.Lemmas.Release

/-! # The two builds of the library functions and of the analysis tools -/

namespace Verif

open Verif Model

/-- `y` does the same as `x`, unless `x` panics for a reason in `E`. -/
def Res.Sim {α : Type} (E : Panic → Prop) (x y : Res α) : Prop := x = y ∨ ∃ e, E e ∧ x = .error e

/-- an underflow -/
abbrev EArith : Panic → Prop := fun e => e = .arith
/-- an underflow or a failed assertion -/
abbrev EAssert : Panic → Prop := fun e => e = .arith ∨ e = .assert

namespace Res.Sim

variable {α β σ : Type} {E : Panic → Prop}

theorem refl (x : Res α) : Res.Sim E x x := Or.inl rfl

theorem error {e : Panic} {y : Res α} (h : E e) : Res.Sim E (.error e) y := Or.inr ⟨e, h, rfl⟩

theorem le {x y : Res α} (h : Res.Sim E x y) : Res.Le x y := by
  rcases h with rfl | ⟨e, -, rfl⟩
  · exact Res.Le.refl _
  · exact Res.Le.error

theorem mono {E' : Panic → Prop} (hE : ∀ e, E e → E' e) {x y : Res α} (h : Res.Sim E x y) : Res.Sim E' x y := by
  rcases h with h | ⟨e, he, h⟩
  · exact Or.inl h
  · exact Or.inr ⟨e, hE e he, h⟩

theorem arith {x y : Res α} (h : Res.Sim EArith x y) : Res.Sim EAssert x y := h.mono fun _ => Or.inl

theorem bind {x x' : Res α} {f f' : α → Res β} (h : Res.Sim E x x') (hf : ∀ a, Res.Sim E (f a) (f' a)) :
    Res.Sim E (x >>= f) (x' >>= f') := by
  rcases h with rfl | ⟨e, he, rfl⟩
  · cases x with
    | error e => exact refl _
    | ok a => exact hf a
  · exact error he

theorem foldlM {l : List α} {f f' : σ → α → Res σ} (h : ∀ s a, Res.Sim E (f s a) (f' s a)) (s : σ) :
    Res.Sim E (l.foldlM f s) (l.foldlM f' s) := by
  induction l generalizing s with
  | nil => exact refl _
  | cons a l ih => exact bind (h s a) ih

theorem forRange {lo hi : Nat} {s : σ} {f f' : Nat → σ → Res σ} (h : ∀ i s, Res.Sim E (f i s) (f' i s)) :
    Res.Sim E (Verif.forRange lo hi s f) (Verif.forRange lo hi s f') := foldlM (fun s i => h i s) s

theorem forEach {l : List α} {s : σ} {f f' : α → σ → Res σ} (h : ∀ i s, Res.Sim E (f i s) (f' i s)) :
    Res.Sim E (Verif.forEach l s f) (Verif.forEach l s f') := foldlM (fun s i => h i s) s

theorem whileLoop {fuel : Nat} {c c' : σ → Res Bool} {f f' : σ → Res σ} (hc : ∀ s, Res.Sim E (c s) (c' s))
    (hf : ∀ s, Res.Sim E (f s) (f' s)) (s : σ) : Res.Sim E (Verif.whileLoop fuel c f s) (Verif.whileLoop fuel c' f' s) := by
  induction fuel generalizing s with
  | zero => exact refl _
  | succ fuel ih =>
    refine bind (hc s) fun b => ?_
    cases b
    · exact refl _
    · exact bind (hf s) ih

theorem loopR {fuel : Nat} {f f' : σ → Res (Bool × σ)} (hf : ∀ s, Res.Sim E (f s) (f' s)) (s : σ) :
    Res.Sim E (Verif.loopR fuel f s) (Verif.loopR fuel f' s) := by
  induction fuel generalizing s with
  | zero => exact refl _
  | succ fuel ih =>
    refine bind (hf s) fun b => ?_
    obtain ⟨b, t⟩ := b
    cases b
    · exact ih t
    · exact refl _

theorem mapM {l : List α} {f f' : α → Res β} (h : ∀ a, Res.Sim E (f a) (f' a)) : Res.Sim E (l.mapM f) (l.mapM f') := by
  induction l with
  | nil => exact refl _
  | cons a l ih =>
    rw [List.mapM_cons, List.mapM_cons]
    exact bind (h a) fun b => bind ih fun bs => refl _

theorem ite {c : Prop} [Decidable c] {x x' y y' : Res α} (h : Res.Sim E x x') (h' : Res.Sim E y y') :
    Res.Sim E (if c then x else y) (if c then x' else y') := by
  split
  · exact h
  · exact h'

theorem usubB (a b : Nat) : Res.Sim EArith (Model.usubB .checked a b) (Model.usubB .wrapping a b) :=
  ite (refl _) (error rfl)
theorem u32subB (a b : Nat) : Res.Sim EArith (Model.u32subB .checked a b) (Model.u32subB .wrapping a b) :=
  ite (refl _) (error rfl)
theorem dassertB (b : Bool) : Res.Sim EAssert (Model.dassertB .checked b) (Model.dassertB .wrapping b) := by
  cases b
  · exact error (Or.inr rfl)
  · exact refl _

/-! ## src/core.rs -/

section
variable [LinearOrder α]

theorem duvalOuterB (t : List α) (s : Nat × List Nat) :
    Res.Sim EArith (Model.duvalOuterB .checked t s) (Model.duvalOuterB .wrapping t s) :=
  bind (refl _) fun _ => loopR (fun _ => bind (refl _) fun _ => bind (usubB _ _) fun _ => bind (usubB _ _) fun _ => refl _) _

theorem duvalB (t : List α) : Res.Sim EArith (Model.duvalB .checked t) (Model.duvalB .wrapping t) :=
  bind (whileLoop (fun _ => refl _) (duvalOuterB t) _) fun _ => refl _

theorem lyndonConjugateB (t : List α) : Res.Sim EArith (Model.lyndonConjugateB .checked t) (Model.lyndonConjugateB .wrapping t) :=
  bind (duvalB _) fun _ => bind (refl _) fun _ => ite (refl _) (bind (usubB _ _) fun _ => bind (refl _) fun _ => refl _)

theorem borderArrayB (t : List α) : Res.Sim EArith (Model.borderArrayB .checked t) (Model.borderArrayB .wrapping t) :=
  bind (forRange fun _ _ => bind (refl _) fun _ => bind (whileLoop (fun _ => refl _) (fun _ => bind (usubB _ _) fun _ => refl _) _)
    fun _ => refl _) fun b => by
    cases b with
    | nil => exact refl _
    | cons b0 rest => exact bind (mapM fun _ => usubB _ _) fun _ => refl _

theorem smallestPeriodB (b : List Nat) : Res.Sim EArith (Model.smallestPeriodB .checked b) (Model.smallestPeriodB .wrapping b) :=
  bind (usubB _ _) fun _ => bind (refl _) fun _ => usubB _ _

theorem isPrimitiveB (t : List α) : Res.Sim EArith (Model.isPrimitiveB .checked t) (Model.isPrimitiveB .wrapping t) :=
  bind (borderArrayB _) fun _ => bind (smallestPeriodB _) fun _ => ite (refl _) (bind (smallestPeriodB _) fun _ => refl _)

theorem bwtByMatrixNaiveB (t : List α) :
    Res.Sim EArith (Model.bwtByMatrixNaiveB .checked t) (Model.bwtByMatrixNaiveB .wrapping t) :=
  bind (refl _) fun _ => bind (refl _) fun _ => forRange fun _ _ => bind (refl _) fun _ => bind (usubB _ _) fun _ => refl _

theorem computePsvB (a : List α) : Res.Sim EArith (Model.computePsvB .checked a) (Model.computePsvB .wrapping a) :=
  bind (refl _) fun _ => forRange fun _ _ => bind (usubB _ _) fun _ => refl _

theorem computeNsvB (a : List α) : Res.Sim EArith (Model.computeNsvB .checked a) (Model.computeNsvB .wrapping a) :=
  bind (usubB _ _) fun _ => refl _

end

theorem isaLyndonFactorizationB (l : List Nat) :
    Res.Sim EArith (Model.isaLyndonFactorizationB .checked l) (Model.isaLyndonFactorizationB .wrapping l) :=
  bind (refl _) fun _ => bind (whileLoop (fun _ => refl _) (fun _ => bind (refl _) fun _ =>
    ite (bind (usubB _ _) fun _ => refl _) (refl _)) _) fun _ => bind (usubB _ _) fun _ => refl _

theorem bwtFromSaB (t : List α) (sa : List Nat) : Res.Sim EArith (Model.bwtFromSaB .checked t sa) (Model.bwtFromSaB .wrapping t sa) :=
  bind (refl _) fun _ => forRange fun _ _ => bind (refl _) fun _ => bind (usubB _ _) fun _ => refl _

theorem bwtFromTextBySaB (f : List UInt8 → List Nat) (t : List UInt8) :
    Res.Sim EArith (Model.bwtFromTextBySaB .checked f t) (Model.bwtFromTextBySaB .wrapping f t) :=
  bind (usubB _ _) fun _ => bind (refl _) fun _ => bind (refl _) fun _ => bwtFromSaB _ _

theorem bwtByMatrixB (f : List UInt8 → List Nat) (t : List UInt8) :
    Res.Sim EArith (Model.bwtByMatrixB .checked f t) (Model.bwtByMatrixB .wrapping f t) :=
  bind (refl _) fun _ => bind (lyndonConjugateB _) fun _ => ite (bind (bwtFromTextBySaB _ _) fun _ => refl _) (refl _)

theorem computePhiB (sa : List Nat) : Res.Sim EArith (Model.computePhiB .checked sa) (Model.computePhiB .wrapping sa) :=
  bind (refl _) fun _ => bind (forRange fun _ _ => bind (refl _) fun _ => bind (usubB _ _) fun _ => refl _) fun _ =>
    bind (refl _) fun _ => bind (usubB _ _) fun _ => refl _

theorem computePlcpB [DecidableEq α] (t : List α) (phi : List Nat) :
    Res.Sim EAssert (Model.computePlcpB .checked t phi) (Model.computePlcpB .wrapping t phi) :=
  bind (dassertB _) fun _ => refl _

theorem computeLcpB (p sa : List Nat) : Res.Sim EAssert (Model.computeLcpB .checked p sa) (Model.computeLcpB .wrapping p sa) :=
  bind (dassertB _) fun _ => refl _

theorem conjugatesB (l : List Nat) : Res.Sim EArith (Model.conjugatesB .checked l) (Model.conjugatesB .wrapping l) :=
  bind (refl _) fun _ => bind (refl _) fun _ => bind (usubB _ _) fun _ => forRange fun _ _ => bind (refl _) fun _ =>
    bind (refl _) fun _ => forRange fun _ _ => bind (usubB _ _) fun _ => bind (usubB _ _) fun _ => refl _

theorem conjCmpB [LinearOrder α] (t : List α) (a b : Conjugate) :
    Res.Sim EArith (Model.conjCmpB .checked t a b) (Model.conjCmpB .wrapping t a b) :=
  bind (usubB _ _) fun _ => bind (usubB _ _) fun _ => refl _

theorem conjPositionB (c : Conjugate) : Res.Sim EArith (Model.conjPositionB .checked c) (Model.conjPositionB .wrapping c) :=
  ite (refl _) (usubB _ _)

/-! ## Tools -/

theorem decodeLz77B (fs : List LZFactor) : Res.Sim EArith (Model.decodeLz77B .checked fs) (Model.decodeLz77B .wrapping fs) :=
  forEach fun _ _ => ite (refl _) (bind (usubB _ _) fun _ => refl _)

theorem getMusB (sa isa lcp : List Nat) : Res.Sim EArith (Model.getMusB .checked sa isa lcp) (Model.getMusB .wrapping sa isa lcp) :=
  bind (usubB _ _) fun _ => refl _

theorem countLexparseFactorsB (f : List UInt8 → List Nat) (t : List UInt8) :
    Res.Sim EAssert (Model.countLexparseFactorsB .checked f t) (Model.countLexparseFactorsB .wrapping f t) :=
  bind (computePhiB _).arith fun _ => bind (computePlcpB _ _) fun _ => refl _

theorem bwtToolTransformB (f : List UInt8 → List Nat) (u : Bool) (t : List UInt8) :
    Res.Sim EArith (Model.bwtToolTransformB .checked f u t) (Model.bwtToolTransformB .wrapping f u t) :=
  ite (ite (bwtByMatrixNaiveB _) (bwtByMatrixB _ _)) (bwtFromTextBySaB _ _)

theorem countRB (f : List UInt8 → List Nat) (u d : Bool) (t : List UInt8) :
    Res.Sim EArith (Model.countRB .checked f u d t) (Model.countRB .wrapping f u d t) :=
  bind (bwtToolTransformB _ _ _) fun _ => refl _

theorem lcpIterB (t : List UInt8) (sa lcp : List Nat) (i : Nat) (s : LcpState) :
    Res.Sim EArith (Model.lcpIterB .checked t sa lcp i s) (Model.lcpIterB .wrapping t sa lcp i s) := by
  unfold Model.lcpIterB
  refine bind (refl _) fun c => bind (refl _) fun s => bind (refl _) fun d => ?_
  dsimp only
  repeat' first
    | exact refl _
    | refine bind (u32subB _ _) fun _ => ?_
    | refine bind (refl _) fun _ => ?_
    | split

theorem attractorDistancesB (n : Nat) (sa : List Nat) (b : List Bool) :
    Res.Sim EArith (Model.attractorDistancesB .checked n sa b) (Model.attractorDistancesB .wrapping n sa b) :=
  forRange fun _ _ => bind (refl _) fun p => bind (refl _) fun _ => ite (refl _) (by
    cases select1 b (rank1 b p) with
    | none => exact refl _
    | some pos => exact bind (refl _) fun _ => bind (refl _) fun _ => bind (usubB _ _) fun _ => refl _)

theorem lyndonFileStopB (t : List UInt8) (fs : List Nat) (i : Nat) :
    Res.Sim EArith (Model.lyndonFileStopB .checked t fs i) (Model.lyndonFileStopB .wrapping t fs i) :=
  bind (usubB _ _) fun _ => ite (bind (refl _) fun _ => ite (bind (usubB _ _) fun _ => refl _) (refl _)) (refl _)

theorem lyndonFileRecordB (t : List UInt8) (fs : List Nat) (i : Nat) :
    Res.Sim EArith (Model.lyndonFileRecordB .checked t fs i) (Model.lyndonFileRecordB .wrapping t fs i) :=
  bind (usubB _ _) fun _ => refl _

theorem lyndonFileLoopB (t : List UInt8) (fs : List Nat) (d i : Nat) (o : List UInt8) :
    Res.Sim EArith (Model.lyndonFileLoopB .checked t fs d i o) (Model.lyndonFileLoopB .wrapping t fs d i o) := by
  induction d generalizing i o with
  | zero => exact refl _
  | succ d ih =>
    exact bind (lyndonFileStopB _ _ _) fun b => ite (refl _) (bind (lyndonFileRecordB _ _ _) fun _ => ih _ _)

theorem lyndonfactorizationMainB (t : List UInt8) :
    Res.Sim EArith (Model.lyndonfactorizationMainB .checked t) (Model.lyndonfactorizationMainB .wrapping t) := by
  unfold Model.lyndonfactorizationMainB
  refine bind (duvalB _) fun fs => ?_
  cases fs.getLast? with
  | none => exact refl _
  | some e =>
    refine bind (refl _) fun _ => bind (refl _) fun _ => bind (refl _) fun _ => ?_
    exact bind (lyndonFileLoopB _ _ _ _ _) fun _ => refl _

end Res.Sim

namespace Res.Le

variable {α : Type}

theorem sortByR {cmp cmp' : α → α → Res Ordering} (h : ∀ a b, Res.Le (cmp a b) (cmp' a b)) (l : List α) :
    Res.Le (Verif.sortByR cmp l) (Verif.sortByR cmp' l) := by
  intro v hv
  unfold Verif.sortByR at hv ⊢
  split at hv
  · next hall =>
    injection hv with hv
    have key : ∀ a ∈ l, ∀ b ∈ l, cmp a b = cmp' a b := by
      intro a ha b hb
      have := List.all_eq_true.1 (List.all_eq_true.1 hall a ha) b hb
      cases hc : cmp a b with
      | error e => rw [hc] at this; cases this
      | ok o => exact (h a b o hc).symm
    have hins : ∀ (m : List α) a, a ∈ l → (∀ x ∈ m, x ∈ l) →
        stableInsert (fun a b => notGt (cmp a b)) a m = stableInsert (fun a b => notGt (cmp' a b)) a m := by
      intro m
      induction m with
      | nil => intros; rfl
      | cons b m ih =>
        intro a ha hm
        simp only [stableInsert]
        simp only [key a ha b (hm b (by simp)), ih a ha (fun x hx => hm x (by simp [hx]))]
    have hmem : ∀ (m : List α) a x, x ∈ stableInsert (fun a b => notGt (cmp' a b)) a m → x = a ∨ x ∈ m := by
      intro m
      induction m with
      | nil => intro a x hx; simpa [stableInsert] using hx
      | cons b m ih =>
        intro a x hx
        simp only [stableInsert] at hx
        split at hx
        · simpa using hx
        · rcases List.mem_cons.1 hx with hx | hx
          · exact Or.inr (by simp [hx])
          · rcases ih a x hx with hx | hx
            · exact Or.inl hx
            · exact Or.inr (by simp [hx])
    have hsort : ∀ m : List α, (∀ x ∈ m, x ∈ l) →
        stableSort (fun a b => notGt (cmp a b)) m = stableSort (fun a b => notGt (cmp' a b)) m ∧
        ∀ x ∈ stableSort (fun a b => notGt (cmp' a b)) m, x ∈ m := by
      intro m
      induction m with
      | nil => intro _; exact ⟨rfl, fun _ h => h⟩
      | cons b m ih =>
        intro hm
        obtain ⟨e1, e2⟩ := ih (fun x hx => hm x (by simp [hx]))
        simp only [stableSort, List.foldr_cons] at e1 e2 ⊢
        constructor
        · rw [e1]
          exact hins _ b (hm b (by simp)) (fun x hx => hm x (by simp [e2 x hx]))
        · intro x hx
          rcases hmem _ _ _ hx with hx | hx
          · simp [hx]
          · simp [e2 x hx]
    rw [if_pos, ← hv, (hsort l fun _ h => h).1]
    rw [List.all_eq_true] at hall ⊢
    intro a ha
    rw [List.all_eq_true]
    intro b hb
    rw [← key a ha b hb]
    exact List.all_eq_true.1 (hall a ha) b hb
  · cases hv

theorem forEach {σ : Type} {l : List α} {s : σ} {f f' : α → σ → Res σ} (h : ∀ i s, Res.Le (f i s) (f' i s)) :
    Res.Le (Verif.forEach l s f) (Verif.forEach l s f') := foldlM (fun s i => h i s) s

theorem bbwtNaiveB [LinearOrder α] (t : List α) : Res.Le (Model.bbwtNaiveB .checked t) (Model.bbwtNaiveB .wrapping t) :=
  bind (Res.Sim.duvalB t).le fun _ => bind (Res.Sim.conjugatesB _).le fun _ => bind (refl _) fun _ =>
    bind (sortByR (fun a b => (Res.Sim.conjCmpB t a b).le) _) fun _ => bind (refl _) fun _ => forRange fun _ _ =>
      bind (refl _) fun _ => bind (Res.Sim.conjPositionB _).le fun _ => refl _

theorem dropped {x : Res Unit} {y : Res α} {f : Unit → Res α} (h : Res.Le (f ()) y) : Res.Le (x >>= f) y := by
  intro v hv
  cases x with
  | error e => cases hv
  | ok u => exact h v hv

theorem prevLcpB (lcp psv : List Nat) (p : Nat) : Res.Le (Model.prevLcpB .checked lcp psv p) (Model.prevLcpB .wrapping lcp psv p) :=
  bind (refl _) fun _ => ite (refl _) (bind (Res.Sim.dassertB _).le fun _ => bind (refl _) fun _ => dropped (refl _))

theorem nextLcpB (lcp nsv : List Nat) (p : Nat) : Res.Le (Model.nextLcpB .checked lcp nsv p) (Model.nextLcpB .wrapping lcp nsv p) :=
  bind (refl _) fun _ => ite (refl _) (bind (Res.Sim.dassertB _).le fun _ => bind (refl _) fun _ => dropped (refl _))

theorem lz77StepB (t : List UInt8) (sa isa lcp nsv psv : List Nat) (s : Nat × List LZFactor) :
    Res.Le (Model.lz77StepB .checked t sa isa lcp nsv psv s) (Model.lz77StepB .wrapping t sa isa lcp nsv psv s) := by
  unfold Model.lz77StepB
  refine bind (refl _) fun _ => bind (prevLcpB _ _ _) fun _ => bind (nextLcpB _ _ _) fun _ => ?_
  dsimp only
  repeat' first
    | exact refl _
    | refine bind (Res.Sim.u32subB _ _).le fun _ => ?_
    | refine bind (Res.Sim.dassertB _).le fun _ => ?_
    | refine bind (refl _) fun _ => ?_
    | split

theorem computeLz77B (t : List UInt8) (sa isa lcp nsv psv : List Nat) :
    Res.Le (Model.computeLz77B .checked t sa isa lcp nsv psv) (Model.computeLz77B .wrapping t sa isa lcp nsv psv) :=
  bind (whileLoop (fun _ => refl _) (fun _ => lz77StepB _ _ _ _ _ _ _) _) fun _ => refl _

theorem countZFactorsB (f : List UInt8 → List Nat) (t : List UInt8) :
    Res.Le (Model.countZFactorsB .checked f t) (Model.countZFactorsB .wrapping f t) :=
  bind (refl _) fun _ => bind (Res.Sim.computePsvB _).le fun _ => bind (Res.Sim.computeNsvB _).le fun _ =>
    bind (Res.Sim.computePhiB _).le fun _ => bind (Res.Sim.computePlcpB _ _).le fun _ => bind (Res.Sim.computeLcpB _ _).le fun _ =>
      bind (computeLz77B _ _ _ _ _ _) fun _ => dropped (refl _)

theorem musToolB (f : List UInt8 → List Nat) (t : List UInt8) :
    Res.Le (Model.musToolB .checked f t) (Model.musToolB .wrapping f t) :=
  bind (refl _) fun _ => bind (Res.Sim.computePhiB _).le fun _ => bind (Res.Sim.computePlcpB _ _).le fun _ =>
    bind (Res.Sim.computeLcpB _ _).le fun _ => (Res.Sim.getMusB _ _ _).le

theorem lcpIntervalsB (t : List UInt8) (sa lcp : List Nat) :
    Res.Le (Model.lcpIntervalsB .checked t sa lcp) (Model.lcpIntervalsB .wrapping t sa lcp) :=
  bind (refl _) fun _ => bind (Res.Sim.usubB _ _).le fun _ => bind (Res.Sim.u32subB _ _).le fun _ =>
    bind (Res.Sim.u32subB _ _).le fun _ => bind (forRange fun _ _ => (Res.Sim.lcpIterB _ _ _ _ _).le) fun _ =>
      bind (refl _) fun _ => dropped (refl _)

theorem attractorReportB (f : List UInt8 → List Nat) (t : List UInt8) (a : List Nat) :
    Res.Le (Model.attractorReportB .checked f t a) (Model.attractorReportB .wrapping f t a) := by
  unfold Model.attractorReportB
  refine bind (refl _) fun _ => ?_
  dsimp only
  repeat' first
    | exact refl _
    | refine bind (Res.Sim.computePhiB _).le fun _ => ?_
    | refine bind (Res.Sim.computePlcpB _ _).le fun _ => ?_
    | refine bind (Res.Sim.computeLcpB _ _).le fun _ => ?_
    | refine bind (lcpIntervalsB _ _ _) fun _ => ?_
    | refine bind (Res.Sim.attractorDistancesB _ _ _).le fun _ => ?_
    | refine bind (refl _) fun _ => ?_
    | split

end Res.Le

end Verif
