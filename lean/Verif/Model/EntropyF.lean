import Verif.Model.Entropy

/-! # The entropy tools with rounding

The definitions of Model/Entropy again, with every `f64` operation followed by a rounding.  `A.fl` is the
rounding of one operation `+ - * /` (and of the conversion `as f64`), `A.lg` the library function `log2`; both
are arbitrary here, what is assumed about them is `Accurate` of Spec/Rounding. -/

namespace Verif.Model

open Verif

/-- An implementation of the arithmetic of `f64`. -/
structure Arith where
  fl : ℝ → ℝ
  lg : ℝ → ℝ

/-- `count as f64` times `(total as f64 / count as f64).log2()`.  src/bin/entropy.rs:27 -/
noncomputable def letterTermF (A : Arith) (total count : Nat) : ℝ :=
  A.fl (A.fl count * A.lg (A.fl (A.fl total / A.fl count)))

/-- `zero_order_entropy`.  src/bin/entropy.rs:16-31.  For no letters at all the final division is `0.0 / 0.0`,
not a number; this is modelled as a failure. -/
noncomputable def zeroOrderEntropyF (A : Arith) (text : List UInt8) : Res ℝ := do
  let (counters, total) ← charCounters text
  if total = 0 then .error .arith else
  let sum ← forEach counters (0 : ℝ) (fun count sum =>
      if count > 0 then pure (A.fl (sum + letterTermF A total count)) else pure sum)
  pure (A.fl (sum / A.fl total))

/-- The closure `compute_context`.  src/bin/entropy.rs:51-61 -/
noncomputable def computeContextF (A : Arith) (text : List UInt8) (k : Nat) (sa : List Nat) (start length : Nat) :
    Res ℝ := do
  let v ← contextLetters text k sa start length
  let h ← zeroOrderEntropyF A v
  pure (A.fl (A.fl length * h))

/-- The body of the loop over the lcp array.  src/bin/entropy.rs:65-75 -/
noncomputable def kthStepF (A : Arith) (text : List UInt8) (k : Nat) (sa lcp : List Nat) (j : Nat) (s : ℝ × Nat) :
    Res (ℝ × Nat) := do
  let v ← rd lcp j
  if s.2 > 0 ∧ v < k then do
    assertR (decide (j > 0))
    let a ← usub j s.2
    let b ← usub a 1
    let x ← computeContextF A text k sa b (s.2 + 1)
    pure (A.fl (s.1 + x), 0)
  else if v ≥ k then pure (s.1, s.2 + 1)
  else pure s

/-- `kth_order_entropy`.  src/bin/entropy.rs:37-81 -/
noncomputable def kthOrderEntropyF (A : Arith) (sufsort : List UInt8 → List Nat) (text : List UInt8) (k : Nat) :
    Res ℝ := do
  assertR (decide (k > 0))
  let n1 ← usub text.length 1
  assertR (! (text.take n1).any (fun x => decide (x = 0)))
  let sa := sufsort text
  let phi ← computePhi sa
  let plcp ← computePlcp text phi
  let lcp ← computeLcp plcp sa
  let (sum, cc) ← forRange 0 lcp.length ((0 : ℝ), 0) (kthStepF A text k sa lcp)
  let m ← usub lcp.length 1
  let last ← rd lcp m
  let sum ← if last ≥ k ∧ cc > 0 then do
      let a ← usub lcp.length cc
      let b ← usub a 1
      let x ← computeContextF A text k sa b (cc + 1)
      pure (A.fl (sum + x))
    else pure sum
  pure (A.fl (sum / A.fl text.length))

/-- `kmer.1 as f64 * (kmer.1 as f64).log2()`.  src/bin/entropy_kmer.rs:70, 74 -/
noncomputable def mapTermF (A : Arith) (count : Nat) : ℝ := A.fl (A.fl count * A.lg (A.fl count))

/-- `entropy_via_kmer_counting`.  src/bin/entropy_kmer.rs:24-77.  `ord` and `ord'` are the orders in which
the two hash maps are iterated. -/
noncomputable def entropyViaKmerCountingF (A : Arith) (ord ord' : List (Nat × Nat) → List (Nat × Nat))
    (text : List UInt8) (order : Nat) : Res (ℝ × Nat) := do
  let s ← kmerCounts text order
  let kmersum ← forEach (ord s.kmers) (0 : ℝ) (fun kmer sum => pure (A.fl (sum + mapTermF A kmer.2)))
  let kplusmersum ← forEach (ord' s.kplusmers) (0 : ℝ) (fun kmer sum => pure (A.fl (sum + mapTermF A kmer.2)))
  pure (A.fl (A.fl (kmersum - kplusmersum) / A.fl s.count), s.count)

end Verif.Model
