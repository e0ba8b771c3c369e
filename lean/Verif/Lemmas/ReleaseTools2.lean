import Verif.Lemmas.ReleaseTools
import Verif.Lemmas.Attractor
import Verif.Lemmas.ReleaseWords
import Verif.Props.Domains
import Verif.Props.Lz
import Verif.Props.Mus

/-! # The two builds: the instance with overflow checks, the entropy, the attractor check -/

namespace Verif

open Verif Model Spec

/-! ## The checked instances -/

section
variable {α : Type} [LinearOrder α]

theorem duvalB_checked : (duvalB .checked : List α → _) = duval := rfl
theorem lyndonConjugateB_checked : (lyndonConjugateB .checked : List α → _) = lyndonConjugate := rfl
theorem borderArrayB_checked : (borderArrayB .checked : List α → _) = borderArray := rfl
theorem isPrimitiveB_checked : (isPrimitiveB .checked : List α → _) = isPrimitive := rfl
theorem bwtByMatrixNaiveB_checked : (bwtByMatrixNaiveB .checked : List α → _) = bwtByMatrixNaive := rfl
theorem bbwtNaiveB_checked : (bbwtNaiveB .checked : List α → _) = bbwtNaive := rfl
theorem computePsvB_checked : (computePsvB .checked : List α → _) = computePsv := rfl
theorem computeNsvB_checked : (computeNsvB .checked : List α → _) = computeNsv := rfl
theorem computePlcpB_checked : (computePlcpB .checked : List α → _) = computePlcp := rfl
omit [LinearOrder α] in
theorem bwtFromSaB_checked : (bwtFromSaB .checked : List α → _) = bwtFromSa := rfl
end

theorem smallestPeriodB_checked : smallestPeriodB .checked = smallestPeriod := rfl
theorem isaB_checked : isaLyndonFactorizationB .checked = isaLyndonFactorization := rfl
theorem computePhiB_checked : computePhiB .checked = computePhi := rfl
theorem computeLcpB_checked : computeLcpB .checked = computeLcp := rfl
theorem decodeLz77B_checked : decodeLz77B .checked = decodeLz77 := rfl
theorem getMusB_checked : getMusB .checked = getMus := rfl
theorem musToolB_checked : musToolB .checked = musTool := rfl
theorem lcpIntervalsB_checked : lcpIntervalsB .checked = lcpIntervals := by
  funext t sa lcp
  rfl
theorem attractorDistancesB_checked : attractorDistancesB .checked = attractorDistances := rfl
theorem attractorReportB_checked : attractorReportB .checked = attractorReport := rfl
theorem countLexparseFactorsB_checked : countLexparseFactorsB .checked = countLexparseFactors := rfl

theorem bind_assoc' {α β γ : Type} (x : Res α) (f : α → Res β) (g : β → Res γ) :
    (x >>= f) >>= g = x >>= fun a => f a >>= g := by cases x <;> rfl

theorem prevLcpB_checked : prevLcpB .checked = prevLcp := by
  funext lcp psv p
  unfold prevLcpB prevLcp prevLcpDebugB
  simp only [bind_assoc']
  rfl

theorem nextLcpB_checked : nextLcpB .checked = nextLcp := by
  funext lcp psv p
  unfold nextLcpB nextLcp nextLcpDebugB
  simp only [bind_assoc']
  rfl

theorem computeLz77B_checked : computeLz77B .checked = computeLz77 := by
  unfold computeLz77B computeLz77
  have : lz77StepB .checked = lz77Step := by
    unfold lz77StepB lz77Step
    rw [prevLcpB_checked, nextLcpB_checked]
    rfl
  rw [this]

theorem countZFactorsB_checked : countZFactorsB .checked = countZFactors := by
  unfold countZFactorsB countZFactors decodeDebugB
  rw [computeLz77B_checked]
  simp only [bind_assoc']
  rfl

theorem usub_slice {β : Type} (text : List UInt8) (f : List UInt8 → Res β) :
    (do let m ← usub text.length 1
        let front ← slice text 0 m
        f front) = (do let m ← usub text.length 1; f (text.take m)) := by
  unfold usub
  split
  · rw [ok_bind, ok_bind, slice, if_pos (by omega), ok_bind, List.drop_zero, Nat.sub_zero]
  · rfl

theorem bwtFromTextBySaB_checked : bwtFromTextBySaB .checked = bwtFromTextBySa := by
  funext f t
  exact usub_slice t (fun front => do
    assertR (!front.any (fun x => x == 0))
    bwtFromSa t (f t))

theorem bwtByMatrixB_checked : bwtByMatrixB .checked = bwtByMatrix := by
  unfold bwtByMatrixB
  rw [bwtFromTextBySaB_checked]
  rfl

theorem bwtToolTransformB_checked : bwtToolTransformB .checked = bwtToolTransform := by
  unfold bwtToolTransformB
  rw [bwtFromTextBySaB_checked, bwtByMatrixB_checked]
  rfl

theorem bwtToolB_checked : bwtToolB .checked = bwtTool := by
  unfold bwtToolB
  rw [bwtToolTransformB_checked]
  rfl

theorem countRB_checked : countRB .checked = countR := by
  unfold countRB
  rw [bwtToolTransformB_checked]
  rfl

theorem lyndonFileLoopB_checked (t : List UInt8) (fs : List Nat) (d i : Nat) (o : List UInt8) :
    lyndonFileLoopB .checked t fs d i o = lyndonFileLoop t fs d i o := by
  induction d generalizing i o with
  | zero => rfl
  | succ d ih =>
    unfold lyndonFileLoopB lyndonFileLoop
    simp only [ih]
    rfl

theorem lyndonfactorizationMainB_checked : lyndonfactorizationMainB .checked = lyndonfactorizationMain := by
  funext t
  unfold lyndonfactorizationMainB lyndonfactorizationMain
  simp only [lyndonFileLoopB_checked]
  rfl

/-! ## The entropy -/

/-- If `x` returns a value, `y` returns a related one. -/
def Res.Rel {α β : Type} (R : α → β → Prop) (x : Res α) (y : Res β) : Prop := ∀ v, x = .ok v → ∃ w, y = .ok w ∧ R v w

namespace Res.Rel

variable {α β γ δ : Type} {R : α → β → Prop} {S : γ → δ → Prop}

theorem bind {x : Res α} {y : Res β} {f : α → Res γ} {g : β → Res δ} (h : Res.Rel R x y)
    (hf : ∀ a b, R a b → Res.Rel S (f a) (g b)) : Res.Rel S (x >>= f) (y >>= g) := by
  intro v hv
  cases x with
  | error e => cases hv
  | ok a =>
    obtain ⟨b, rfl, hb⟩ := h a rfl
    exact hf a b hb v hv

theorem of_le {x y : Res α} (h : Res.Le x y) : Res.Rel Eq x y := fun v hv => ⟨v, h v hv, rfl⟩

theorem le {x y : Res α} {f : α → Res γ} {g : α → Res δ} (h : Res.Le x y) (hf : ∀ a, Res.Rel S (f a) (g a)) :
    Res.Rel S (x >>= f) (y >>= g) := bind (of_le h) (by rintro a _ rfl; exact hf a)

theorem same {x : Res α} {f : α → Res γ} {g : α → Res δ} (hf : ∀ a, Res.Rel S (f a) (g a)) :
    Res.Rel S (x >>= f) (x >>= g) := le (Res.Le.refl _) hf

theorem ret {a : α} {b : β} (h : R a b) : Res.Rel R (pure a) (pure b) := by
  intro v hv
  injection hv with hv
  subst hv
  exact ⟨b, rfl, h⟩

theorem forRange {lo hi : Nat} {s : α} {t : β} {f : Nat → α → Res α} {g : Nat → β → Res β} (h0 : R s t)
    (h : ∀ i s t, R s t → Res.Rel R (f i s) (g i t)) : Res.Rel R (Verif.forRange lo hi s f) (Verif.forRange lo hi t g) := by
  unfold Verif.forRange
  generalize List.range' lo (hi - lo) = l
  induction l generalizing s t with
  | nil => exact ret h0
  | cons a l ih => exact bind (h a s t h0) fun a b hab => ih hab

end Res.Rel

theorem usubB_ge (m : Build) (a b : Nat) : Res.Le (usub a b) (usubB m a b) := Res.Le.ite (Res.Le.refl _) Res.Le.error
theorem computePhiB_ge (m : Build) (sa : List Nat) : Res.Le (computePhi sa) (computePhiB m sa) := by
  cases m
  · exact Res.Le.refl _
  · exact (Res.Sim.computePhiB sa).le
theorem computePlcpB_ge (m : Build) (t : List UInt8) (phi : List Nat) : Res.Le (computePlcp t phi) (computePlcpB m t phi) := by
  cases m
  · exact Res.Le.refl _
  · exact (Res.Sim.computePlcpB t phi).le
theorem computeLcpB_ge (m : Build) (p sa : List Nat) : Res.Le (computeLcp p sa) (computeLcpB m p sa) := by
  cases m
  · exact Res.Le.refl _
  · exact (Res.Sim.computeLcpB p sa).le

/-- a number that is a number -/
abbrev IsNum : ℝ → Option ℝ → Prop := fun x y => y = some x

theorem zeroOrderB_rel (A : Arith) (t : List UInt8) : Res.Rel IsNum (zeroOrderEntropyF A t) (zeroOrderEntropyB A t) := by
  unfold zeroOrderEntropyF zeroOrderEntropyB
  refine Res.Rel.same fun ⟨cs, n⟩ => ?_
  dsimp only
  split
  · intro v hv; cases hv
  · exact Res.Rel.same fun s => Res.Rel.ret rfl

theorem contextB_rel (A : Arith) (t : List UInt8) (k : Nat) (sa : List Nat) (b l : Nat) :
    Res.Rel IsNum (computeContextF A t k sa b l) (computeContextB A t k sa b l) :=
  Res.Rel.same fun v => Res.Rel.bind (zeroOrderB_rel A v) fun a b hab => Res.Rel.ret (by
    rw [hab]
    rfl)

theorem kthStepB_rel (m : Build) (A : Arith) (t : List UInt8) (k : Nat) (sa lcp : List Nat) (j : Nat) (s : ℝ × Nat)
    (s' : Option ℝ × Nat) (h : s' = (some s.1, s.2)) :
    Res.Rel (fun a b => b = (some a.1, a.2)) (kthStepF A t k sa lcp j s) (kthStepB m A t k sa lcp j s') := by
  subst h
  unfold kthStepF kthStepB
  refine Res.Rel.same fun v => ?_
  dsimp only
  split
  · refine Res.Rel.same fun _ => Res.Rel.le (usubB_ge m _ _) fun _ => Res.Rel.le (usubB_ge m _ _) fun _ => ?_
    exact Res.Rel.bind (contextB_rel A t k sa _ _) fun a b hab => Res.Rel.ret (by rw [hab]; rfl)
  · split
    · exact Res.Rel.ret rfl
    · exact Res.Rel.ret rfl

theorem kthB_rel (m : Build) (A : Arith) (f : List UInt8 → List Nat) (t : List UInt8) (k : Nat) :
    Res.Rel IsNum (kthOrderEntropyF A f t k) (kthOrderEntropyB m A f t k) := by
  intro v hv
  have hpos : 0 < t.length := by
    unfold kthOrderEntropyF at hv
    obtain ⟨_, _, hv⟩ := bind_eq_ok hv
    obtain ⟨n, hn, -⟩ := bind_eq_ok hv
    unfold usub at hn
    split at hn
    · omega
    · cases hn
  revert hv
  revert v
  change Res.Rel IsNum _ _
  unfold kthOrderEntropyF kthOrderEntropyB
  refine Res.Rel.same fun _ => ?_
  rw [show usubB m t.length 1 = .ok (t.length - 1) by unfold usubB; rw [if_pos (by omega)],
    show usub t.length 1 = .ok (t.length - 1) by unfold usub; rw [if_pos (by omega)], ok_bind, ok_bind,
    show slice t 0 (t.length - 1) = .ok (t.take (t.length - 1)) by
      rw [slice, if_pos (by omega), List.drop_zero, Nat.sub_zero], ok_bind]
  refine Res.Rel.same fun _ => Res.Rel.le (computePhiB_ge m _) fun phi => Res.Rel.le (computePlcpB_ge m _ _) fun plcp =>
    Res.Rel.le (computeLcpB_ge m _ _) fun lcp => Res.Rel.bind (R := fun a b => b = (some a.1, a.2))
      (Res.Rel.forRange rfl fun j s s' h => kthStepB_rel m A t k _ lcp j s s' h) ?_
  rintro ⟨sum, cc⟩ _ rfl
  dsimp only
  refine Res.Rel.le (usubB_ge m _ _) fun d => Res.Rel.same fun last => ?_
  have tail : ∀ x : ℝ, Res.Rel IsNum (pure (A.fl (x / A.fl t.length)))
      (pure (nanOp (fun x y => A.fl (x / A.fl y)) (some x) (some (t.length : ℝ)))) := fun x => Res.Rel.ret rfl
  split
  · refine Res.Rel.le (usubB_ge m _ _) fun a => Res.Rel.le (usubB_ge m _ _) fun b => ?_
    refine Res.Rel.bind (contextB_rel A t k _ _ _) fun x y hxy => ?_
    rw [hxy]
    exact Res.Rel.ret rfl
  · exact Res.Rel.ret rfl

/-- The sentinel alone with order 1: not a number. -/
theorem kthB_sentinel (A : Arith) (f : List UInt8 → List Nat) (hf : f [0] = [0]) :
    kthOrderEntropyB .wrapping A f [0] 1 = .ok none := by
  have h1 : computePhiB .wrapping [0] = .ok [0] := by decide
  have h2 : computePlcpB .wrapping [(0 : UInt8)] [0] = .ok [1] := by decide
  have h3 : computeLcpB .wrapping [1] [0] = .ok [1] := by decide
  have h4 : contextLetters [0] 1 [0] 18446744073709551615 2 = .ok [] := by
    unfold contextLetters
    rw [List.drop_eq_nil_of_le (by simp)]
    rfl
  have h5 : zeroOrderEntropyB A [] = .ok none := rfl
  unfold kthOrderEntropyB
  rw [hf]
  simp only [h1, ok_bind, h2, h3]
  rw [show assertR (decide (1 > 0)) = .ok () from rfl, ok_bind,
    show usubB .wrapping ([0] : List UInt8).length 1 = .ok 0 from rfl, ok_bind,
    show slice [0] 0 0 = .ok [] from rfl, ok_bind,
    show assertR (!([] : List UInt8).any fun x => decide (x = 0)) = .ok () from rfl, ok_bind]
  rw [show forRange 0 ([1] : List Nat).length (some (0 : ℝ), 0) (kthStepB .wrapping A [0] 1 [0] [1]) = .ok (some 0, 1) by
    unfold forRange
    simp [kthStepB, rd, pure_ok], ok_bind]
  dsimp only
  rw [show usubB .wrapping ([1] : List Nat).length 1 = .ok 0 from rfl, ok_bind, show rd [1] 0 = .ok 1 from rfl, ok_bind]
  simp only [show (1 ≥ 1 ∧ 1 > 0) = True by simp, if_true, ok_bind, List.length_singleton,
    show usubB .wrapping 0 1 = .ok 18446744073709551615 from rfl]
  unfold computeContextB
  simp only [h4, h5, ok_bind]
  rfl

/-- The sentinel alone with order 1 panics with overflow checks. -/
theorem kthB_sentinel_checked (A : Arith) (f : List UInt8 → List Nat) (hf : f [0] = [0]) :
    kthOrderEntropyB .checked A f [0] 1 = .error .arith := by
  have h1 : computePhiB .checked [0] = .ok [0] := by decide
  have h2 : computePlcpB .checked [(0 : UInt8)] [0] = .ok [1] := by decide
  have h3 : computeLcpB .checked [1] [0] = .ok [1] := by decide
  unfold kthOrderEntropyB
  rw [hf]
  simp only [h1, ok_bind, h2, h3]
  rw [show assertR (decide (1 > 0)) = .ok () from rfl, ok_bind,
    show usubB .checked ([0] : List UInt8).length 1 = .ok 0 from rfl, ok_bind,
    show slice [0] 0 0 = .ok [] from rfl, ok_bind,
    show assertR (!([] : List UInt8).any fun x => decide (x = 0)) = .ok () from rfl, ok_bind]
  rw [show forRange 0 ([1] : List Nat).length (some (0 : ℝ), 0) (kthStepB .checked A [0] 1 [0] [1]) = .ok (some 0, 1) by
    unfold forRange
    simp [kthStepB, rd, pure_ok], ok_bind]
  dsimp only
  rw [show usubB .checked ([1] : List Nat).length 1 = .ok 0 from rfl, ok_bind, show rd [1] 0 = .ok 1 from rfl, ok_bind]
  simp only [show (1 ≥ 1 ∧ 1 > 0) = True by simp, if_true, ok_bind, List.length_singleton,
    show usubB .checked 0 1 = .error .arith from rfl]
  rfl

theorem sentinel_array {sa : List Nat} (h : IsSuffixArray ([0] : List UInt8) sa) : sa = [0] := by
  obtain ⟨hp, -⟩ := h
  exact List.perm_singleton.1 (by simpa using hp)

/-! ## The attractor check -/

theorem attractorReportB_eq {sufsort : List UInt8 → List Nat} (hsort : SortsSuffixes sufsort)
    {T : List UInt8} (hT : ∀ x ∈ T, x ≠ 0) (hlen : T.length < 2147483647) (attr : List Nat) :
    attractorReportB .wrapping sufsort (T ++ [0]) attr = attractorReport sufsort (T ++ [0]) attr := by
  have hS : (T ++ [(0 : UInt8)]).length = T.length + 1 := by simp
  have hs := hsort (T ++ [0]) (by omega)
  have hsl := hs.length
  obtain ⟨phi, plcp, lcp, g1, g2, g3, g4, g5, g6, g7, g8, g9⟩ := lcpChain hs (by omega) (by omega)
  have A : TreeCtx (T ++ [0]) (sufsort (T ++ [0])) lcp :=
    treeCtx_build hT hs ⟨by omega, fun i h hi => g8 i h hi⟩
  obtain ⟨nodes, edges, t1, -⟩ := lcpIntervals_ok A
  have hl0 : (T ++ [(0 : UInt8)]).getLast? = some 0 := by simp
  simp only [attractorReportB, attractorReport]
  rw [hl0]
  dsimp only
  simp only [computePhiB_ge .wrapping _ _ g1, computePlcpB_ge .wrapping _ _ _ g3, computeLcpB_ge .wrapping _ _ _ g6,
    Res.Le.lcpIntervalsB _ _ _ _ t1, g1, g3, g6, t1, ok_bind]
  rw [show assertR (decide ((T ++ [(0 : UInt8)]).length > 0)) = .ok () by simp [assertR], ok_bind, ok_bind]
  by_cases hattr : ∀ p ∈ attr, p ≤ T.length
  · obtain ⟨bits, b1, b2, b3⟩ := bits_ok (n := T.length + 1) attr (fun p hp => by have := hattr p hp; omega)
    obtain ⟨d, d1, d2, d3⟩ := distances_ok (n := T.length + 1) (sa := sufsort (T ++ [0])) (attr := attr)
      (by omega) (by rw [← hS]; exact A.hsa) (fun p hp => by have := hattr p hp; omega) b2 b3
    rw [hS, b1]
    simp only [ok_bind]
    rw [(Res.Sim.attractorDistancesB _ _ _).le _ d1, d1]
  · have hbad : forEach attr () (fun p _ => assertR (decide (p < (T ++ [(0 : UInt8)]).length))) = .error .assert := by
      push Not at hattr
      obtain ⟨p, hp, hlt⟩ := hattr
      clear * - hp hlt
      induction attr with
      | nil => simp at hp
      | cons a l ih =>
        by_cases ha : a < (T ++ [(0 : UInt8)]).length
        · rcases List.mem_cons.1 hp with rfl | hp
          · simp at ha; omega
          · show (assertR (decide (a < (T ++ [(0 : UInt8)]).length)) >>= fun s => _) = _
            rw [assertR, if_pos (by simpa using ha), ok_bind]
            exact ih hp
        · show (assertR (decide (a < (T ++ [(0 : UInt8)]).length)) >>= fun s => _) = _
          rw [assertR, if_neg (by simpa using ha)]
          rfl
    rw [hbad]
    rfl

end Verif
