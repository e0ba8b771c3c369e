import Mathlib.Analysis.SpecialFunctions.Log.Base
import Verif.Model.Core

/-! # Model of `src/bin/entropy.rs` and `src/bin/entropy_kmer.rs`

`f64` values are real numbers: rounding is not modelled.  `HashMap<u64, u64>` is an association list in
insertion order (the iteration order of the map is unspecified, a sum of reals does not depend on it).
`sufsort` is `cdivsufsort::sort_in_place`. -/

namespace Verif.Model

open Verif

/-- The counting loop of `zero_order_entropy`.  src/bin/entropy.rs:17-23 -/
def charCounters (text : List UInt8) : Res (List Nat × Nat) :=
  forEach text (List.replicate 256 0, 0) (fun c (s : List Nat × Nat) => do
    let v ← rd s.1 c.toNat
    let cs ← wr s.1 c.toNat (v + 1)
    pure (cs, s.2 + 1))

/-- `zero_order_entropy`.  src/bin/entropy.rs:16-31 -/
noncomputable def zeroOrderEntropy (text : List UInt8) : Res ℝ := do
  let (counters, total) ← charCounters text
  let sum ← forEach counters (0 : ℝ) (fun count sum =>
    if count > 0 then pure (sum + (count : ℝ) * Real.logb 2 ((total : ℝ) / count)) else pure sum)
  pure (sum / (total : ℝ))

/-- The letters collected by the closure `compute_context`.  src/bin/entropy.rs:53-59 -/
def contextLetters (text : List UInt8) (k : Nat) (sa : List Nat) (start length : Nat) :
    Res (List UInt8) :=
  forEach ((sa.drop start).take length) [] (fun p v =>
    if p + k < text.length then do
      let c ← rd text (p + k)
      pure (v ++ [c])
    else pure v)

/-- The closure `compute_context`.  src/bin/entropy.rs:51-61 -/
noncomputable def computeContext (text : List UInt8) (k : Nat) (sa : List Nat) (start length : Nat) :
    Res ℝ := do
  let v ← contextLetters text k sa start length
  let h ← zeroOrderEntropy v
  pure ((length : ℝ) * h)

/-- The body of the loop of `kth_order_entropy` over the lcp array; state `(sum, contextcount)`.
src/bin/entropy.rs:65-75 -/
noncomputable def kthStep (text : List UInt8) (k : Nat) (sa lcp : List Nat) (j : Nat) (s : ℝ × Nat) :
    Res (ℝ × Nat) := do
  let v ← rd lcp j
  if s.2 > 0 ∧ v < k then do
    assertR (decide (j > 0))
    let a ← usub j s.2
    let b ← usub a 1
    let x ← computeContext text k sa b (s.2 + 1)
    pure (s.1 + x, 0)
  else if v ≥ k then pure (s.1, s.2 + 1)
  else pure s

/-- `kth_order_entropy`.  src/bin/entropy.rs:37-81 -/
noncomputable def kthOrderEntropy (sufsort : List UInt8 → List Nat) (text : List UInt8) (k : Nat) :
    Res ℝ := do
  assertR (decide (k > 0))
  let n1 ← usub text.length 1
  assertR (! (text.take n1).any (fun x => decide (x = 0)))
  let sa := sufsort text
  let phi ← computePhi sa
  let plcp ← computePlcp text phi
  let lcp ← computeLcp plcp sa
  let (sum, cc) ← forRange 0 lcp.length ((0 : ℝ), 0) (kthStep text k sa lcp)
  let m ← usub lcp.length 1
  let last ← rd lcp m
  let sum ← if last ≥ k ∧ cc > 0 then do
      let a ← usub lcp.length cc
      let b ← usub a 1
      let x ← computeContext text k sa b (cc + 1)
      pure (sum + x)
    else pure sum
  pure (sum / (text.length : ℝ))

/-- Add one to the count of `key` in a map.  src/bin/entropy_kmer.rs:38-46, 54-62 -/
def incMap (m : List (Nat × Nat)) (key : Nat) : List (Nat × Nat) :=
  match m with
  | [] => [(key, 1)]
  | (a, c) :: m => if a = key then (a, c + 1) :: m else (a, c) :: incMap m key

/-- `ringbuf <<= 8; ringbuf |= byte` on `u64`.  src/bin/entropy_kmer.rs:31-32, 51-52 -/
def pushByte (ringbuf : Nat) (b : UInt8) : Nat := (ringbuf * 256) % 18446744073709551616 + b.toNat

/-- `ringbuf & (u64::MAX >> (8 * (8 - order)))`: the last `order` bytes.
src/bin/entropy_kmer.rs:37, 53 (there with `7 - order` for `order + 1`) -/
def lastBytes (order ringbuf : Nat) : Nat := ringbuf % 256 ^ order

/-- State of `entropy_via_kmer_counting`. -/
structure KmerState where
  kmers : List (Nat × Nat)
  kplusmers : List (Nat × Nat)
  ringbuf : Nat
  count : Nat
  deriving DecidableEq, Repr

/-- The body of the main loop.  src/bin/entropy_kmer.rs:49-66 -/
def kmerStep (order : Nat) (b : UInt8) (s : KmerState) : KmerState :=
  let kmers := incMap s.kmers (lastBytes order s.ringbuf)
  let ringbuf := pushByte s.ringbuf b
  ⟨kmers, incMap s.kplusmers (lastBytes (order + 1) ringbuf), ringbuf, s.count + 1⟩

/-- The counting part of `entropy_via_kmer_counting` on the bytes of a slice (whose iterator never yields
an error).  The shift amounts `8 * (8 - order)` and `8 * (7 - order)` overflow if `order` is not in `1..=8` or
`1..=7`; the second one is only computed if a byte follows the first `order` bytes, so eight bytes with `order` 8
are accepted.  src/bin/entropy_kmer.rs:24-67 -/
def kmerCounts (text : List UInt8) (order : Nat) : Res KmerState :=
  if text.length < order then .error .unwrap
  else if order = 0 ∨ 8 < order ∨ (order = 8 ∧ 8 < text.length) then .error .arith
  else do
    let ringbuf := (text.take order).foldl pushByte 0
    let s := (text.drop order).foldl (fun s b => kmerStep order b s) ⟨[], [], ringbuf, order⟩
    pure { s with kmers := incMap s.kmers (lastBytes order s.ringbuf) }

/-- `entropy_via_kmer_counting`.  src/bin/entropy_kmer.rs:24-77 -/
noncomputable def entropyViaKmerCounting (text : List UInt8) (order : Nat) : Res (ℝ × Nat) := do
  let s ← kmerCounts text order
  let kmersum ← forEach s.kmers (0 : ℝ) (fun kmer sum =>
    pure (sum + (kmer.2 : ℝ) * Real.logb 2 kmer.2))
  let kplusmersum ← forEach s.kplusmers (0 : ℝ) (fun kmer sum =>
    pure (sum + (kmer.2 : ℝ) * Real.logb 2 kmer.2))
  pure ((kmersum - kplusmersum) / (s.count : ℝ), s.count)

end Verif.Model
