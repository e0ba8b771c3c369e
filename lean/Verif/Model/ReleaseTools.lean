import Verif.Model.Release
import Verif.Model.Lz
import Verif.Model.Mus
import Verif.Model.BwtTool
import Verif.Model.EntropyF
import Verif.Model.LyndonTool

/-!
# The library functions and the analysis tools in both builds

`Core.lean`, `Lz.lean`, `Mus.lean`, `BwtTool.lean`, `EntropyF.lean`, `Attractor.lean` and `LyndonTool.lean` model the build with
overflow checks and debug assertions (`cargo build`).  Here the functions that subtract or that contain a debug assertion are
transcribed with the build as a parameter: `Build.wrapping` (`cargo build --release`) drops the borrow of a subtraction and skips
the debug assertions.  `assert!`, indexing, slicing and `unwrap` panic in both builds.  Sums of lengths and positions stay far
below `2^64` and are natural numbers, as in those files.
-/

namespace Verif.Model

open Verif

variable {α : Type}

/-- `debug_assert!(b)`, evaluated only in the build with debug assertions -/
def dassertB (m : Build) (b : Bool) : Res Unit :=
  match m with
  | .checked => assertR b
  | .wrapping => .ok ()

/-! ### src/core.rs -/

/-- The emission `loop` of `duval`; the assertion is `assert_lt!`, kept in both builds.  src/core.rs:345-352 -/
def duvalEmitB (m : Build) (i j : Nat) (s : Nat × List Nat) : Res (Bool × (Nat × List Nat)) := do
  let (k, out) := s
  assertR (i < j)
  let d ← usubB m j i
  let k := k + d
  let e ← usubB m k 1
  pure (decide (k ≥ i), (k, out ++ [e]))

/-- One turn of the outer `while k < n` of `duval`.  src/core.rs:334-352 -/
def duvalOuterB [LinearOrder α] (m : Build) (text : List α) (s : Nat × List Nat) : Res (Nat × List Nat) := do
  let (k, out) := s
  let n := text.length
  let (i, j) ← whileLoop (n + 1) (duvalCond text n) (duvalBody text k) (k, k + 1)
  loopR (n + 1) (duvalEmitB m i j) (k, out)

/-- `duval`.  src/core.rs:329-355 -/
def duvalB [LinearOrder α] (m : Build) (text : List α) : Res (List Nat) := do
  let n := text.length
  let (_, out) ← whileLoop (n + 1) (fun s => pure (decide (s.1 < n))) (duvalOuterB m text) (0, [])
  pure out

/-- `isa_lyndon_factorization`.  src/core.rs:358-373 -/
def isaLyndonFactorizationB (m : Build) (isa : List Nat) : Res (List Nat) := do
  let cur ← rd isa 0
  let n := isa.length
  let (_, _, out) ← whileLoop (n + 1) (fun (s : Nat × Nat × List Nat) => pure (decide (s.1 < n)))
    (fun (k, cur, out) => do
      let v ← rd isa k
      if v < cur then
        let e ← usubB m k 1
        pure (k + 1, v, out ++ [e])
      else pure (k + 1, cur, out))
    (1, cur, [])
  let e ← usubB m n 1
  pure (out ++ [e])

/-- `lyndon_conjugate`.  src/core.rs:79-96 -/
def lyndonConjugateB [LinearOrder α] (m : Build) (text : List α) : Res Nat := do
  let n := text.length
  let doubletext := text ++ text
  let factors ← duvalB m doubletext
  let factors := factors ++ [2 * n]
  let f0 ← rd factors 0
  if f0 + 1 = n then pure 0
  else do
    let hi ← usubB m factors.length 1
    let r ← forFind 0 hi (fun x => do
      let e ← rd factors (x + 1)
      if e + 1 ≥ n then
        let b ← rd factors x
        pure (some (b + 1))
      else pure none)
    match r with
    | some p => pure p
    | none => .error .explicit

/-- Body of the `for i in 0..n` loop of `border_array`.  src/core.rs:221-227 -/
def borderStepB [DecidableEq α] (m : Build) (text : List α) (i : Nat) (border : List Nat) : Res (List Nat) := do
  let length ← rd border i
  let length ← whileLoop (text.length + 2) (borderCond text i)
    (fun length => do
      let l1 ← usubB m length 1
      rd border l1) length
  pure (border ++ [length + 1])

/-- `border_array`.  src/core.rs:217-232 -/
def borderArrayB [DecidableEq α] (m : Build) (text : List α) : Res (List Nat) := do
  let n := text.length
  let border ← forRange 0 n [0] (borderStepB m text)
  match border with
  | [] => pure []
  | b0 :: rest => do
    let rest ← rest.mapM (fun e => usubB m e 1)
    pure (b0 :: rest)

/-- `smallest_period`.  src/core.rs:110-113 -/
def smallestPeriodB (m : Build) (border : List Nat) : Res Nat := do
  let n ← usubB m border.length 1
  let b ← rd border n
  usubB m n b

/-- `is_primitive`; `%` by zero panics in both builds.  src/core.rs:100-107 -/
def isPrimitiveB [DecidableEq α] (m : Build) (text : List α) : Res Bool := do
  let border ← borderArrayB m text
  let period ← smallestPeriodB m border
  if period = text.length then pure true
  else do
    let p ← smallestPeriodB m border
    if p = 0 then .error .arith else pure (decide (text.length % p ≠ 0))

/-- Loop of `bwt_from_sa` and `bwt_from_text_by_sa`.  src/core.rs:19-24, 202-205 -/
def bwtFromSaB (m : Build) (text : List α) (sa : List Nat) : Res (List α) := do
  let n := text.length
  let c0 ← rd text 0
  forRange 0 n (List.replicate n c0) (fun i bwt => do
    let s ← rd sa i
    let d ← usubB m (n + s) 1
    let c ← rd text (d % n)
    wr bwt i c)

/-- `bwt_from_text_by_sa`; the slice `text[..text.len() - 1]` panics if the end wrapped around.  src/core.rs:10-30 -/
def bwtFromTextBySaB (m : Build) (sufsort : List UInt8 → List Nat) (text : List UInt8) : Res (List UInt8) := do
  let d ← usubB m text.length 1
  let front ← slice text 0 d
  assertR (!front.any (fun x => x == 0))
  bwtFromSaB m text (sufsort text)

/-- `bwt_by_matrix_naive`.  src/core.rs:34-54 -/
def bwtByMatrixNaiveB [LinearOrder α] (m : Build) (text : List α) : Res (List α) := do
  let n := text.length
  let indices ← forRange 0 n [] (fun i v => pure (v ++ [i]))
  let indices ← sortByR (rotCmp text) indices
  forRange 0 n [] (fun i bwt => do
    let x ← rd indices i
    let d ← usubB m (x + n) 1
    let c ← rd text (d % n)
    pure (bwt ++ [c]))

/-- `bwt_by_matrix`.  src/core.rs:60-76 -/
def bwtByMatrixB (m : Build) (sufsort : List UInt8 → List Nat) (text : List UInt8) : Res (List UInt8) := do
  let n := text.length
  assertR (decide (n > 0))
  let start ← lyndonConjugateB m text
  if start ≤ n then
    let newtext := text.drop start ++ text.take start ++ [0]
    let bwt ← bwtFromTextBySaB m sufsort newtext
    removeFirstZero bwt
  else .error .index

/-- The closure comparing two conjugates in `bbwt_naive`.  src/core.rs:149-167 -/
def conjCmpB [LinearOrder α] (m : Build) (text : List α) (a b : Conjugate) : Res Ordering := do
  let alen ← usubB m (1 + a.stop) a.start
  let blen ← usubB m (1 + b.stop) b.start
  let r ← forFind 0 (alen * blen) (fun len => do
    let x ← rd text (a.start + ((a.index + len) % alen))
    let y ← rd text (b.start + ((b.index + len) % blen))
    if x = y then pure none
    else if x < y then pure (some .lt) else pure (some .gt))
  match r with
  | some o => pure o
  | none => pure .eq

/-- The list of conjugates of all factors.  src/core.rs:127-147 -/
def conjugatesB (m : Build) (factors : List Nat) : Res (List Conjugate) := do
  let f0 ← rd factors 0
  let v ← forRange 0 (f0 + 1) [] (fun j v => pure (v ++ [(⟨j, 0, f0⟩ : Conjugate)]))
  let l ← usubB m factors.length 1
  forRange 0 l v (fun factor v => do
    let e ← rd factors factor
    let e' ← rd factors (factor + 1)
    forRange (e + 1) (e' + 1) v (fun j v => do
      let d ← usubB m j e
      let d ← usubB m d 1
      pure (v ++ [(⟨d, e + 1, e'⟩ : Conjugate)])))

/-- Position of the letter preceding a conjugate.  src/core.rs:170-174 -/
def conjPositionB (m : Build) (c : Conjugate) : Res Nat :=
  if c.index = 0 then pure c.stop else usubB m (c.start + c.index) 1

/-- `bbwt_naive`.  src/core.rs:116-178 -/
def bbwtNaiveB [LinearOrder α] (m : Build) (text : List α) : Res (List α) := do
  let n := text.length
  let factors ← duvalB m text
  let conjs ← conjugatesB m factors
  assertR (decide (conjs.length = n))
  let conjs ← sortByR (conjCmpB m text) conjs
  let c0 ← rd text 0
  forRange 0 n (List.replicate n c0) (fun i bbwt => do
    let c ← rd conjs i
    let p ← conjPositionB m c
    let x ← rd text p
    wr bbwt i x)

/-- `compute_phi`.  src/core.rs:239-247 -/
def computePhiB (m : Build) (sa : List Nat) : Res (List Nat) := do
  let phi := List.replicate sa.length 0
  assertR (decide (sa.length > 0))
  let phi ← forRange 1 sa.length phi (fun i phi => do
    let p ← rd sa i
    let i1 ← usubB m i 1
    let q ← rd sa i1
    wr phi p q)
  let p ← rd sa 0
  let l ← usubB m sa.length 1
  let q ← rd sa l
  wr phi p q

/-- `compute_plcp`: the comparison of the lengths is a `debug_assert_eq!`.  src/core.rs:257-275 -/
def computePlcpB [DecidableEq α] (m : Build) (text : List α) (phi : List Nat) : Res (List Nat) := do
  dassertB m (decide (text.length = phi.length))
  let (plcp, _) ← forRange 0 text.length (List.replicate text.length 0, 0)
    (fun b (s : List Nat × Nat) => do
      let (plcp, length) := s
      let a ← rd phi b
      let length ← whileLoop (text.length + 1) (plcpCond text a b) (fun l => pure (l + 1)) length
      let plcp ← wr plcp b (asU32 length)
      pure (plcp, length - 1))
  pure plcp

/-- `compute_lcp`: the comparison of the lengths is a `debug_assert_eq!`.  src/core.rs:277-287 -/
def computeLcpB (m : Build) (plcp : List Nat) (sa : List Nat) : Res (List Nat) := do
  dassertB m (decide (plcp.length = sa.length))
  forRange 0 plcp.length (List.replicate plcp.length 0) (fun i lcp => do
    let p ← rd sa i
    let v ← rd plcp p
    wr lcp i v)

/-- `compute_psv`.  src/core.rs:291-306 -/
def computePsvB [LinearOrder α] (m : Build) (arr : List α) : Res (List Nat) := do
  let psv := List.replicate arr.length 0
  let psv ← wr psv 0 INVALID
  forRange 1 arr.length psv (fun i psv => do
    let p ← usubB m i 1
    let psv ← wr psv i INVALID
    let v ← jump arr psv i (arr.length + 1) p
    wr psv i v)

/-- `compute_nsv`.  src/core.rs:308-323 -/
def computeNsvB [LinearOrder α] (m : Build) (arr : List α) : Res (List Nat) := do
  let nsv := List.replicate arr.length 0
  let l ← usubB m arr.length 1
  let nsv ← wr nsv l INVALID
  forRange 0 l nsv (fun t nsv => do
    let i := l - 1 - t
    let nsv ← wr nsv i INVALID
    let v ← jump arr nsv i (arr.length + 1) (i + 1)
    wr nsv i v)

/-! ### src/bin/count_z.rs, src/bin/count_lexparse.rs -/

/-- One factor of `decode_lz77`.  src/bin/count_z.rs:25-32 -/
def decodeFactorB (m : Build) (f : LZFactor) (text : List UInt8) : Res (List UInt8) := do
  if f.len = 0 then pure (text ++ [UInt8.ofNat f.pos])
  else do
    let refPos ← usubB m text.length f.pos
    forRange 0 f.len text (fun p text => do
      let c ← rd text (refPos + p)
      pure (text ++ [c]))

/-- `decode_lz77`.  src/bin/count_z.rs:22-36 -/
def decodeLz77B (m : Build) (factors : List LZFactor) : Res (List UInt8) :=
  forEach factors [] (decodeFactorB m)

/-- The two debug assertions of `prev_lcp`: the order of the positions, and the answer of the segment tree against the minimum
of a scan (which is evaluated only for the assertion).  src/bin/count_z.rs:61-66 -/
def prevLcpDebugB (m : Build) (lcp : List Nat) (saPos p ret : Nat) : Res Unit :=
  match m with
  | .checked => do
    let mn ← rmqNaive lcp (p + 1) (saPos + 1)
    assertR (decide (ret = mn))
  | .wrapping => .ok ()

/-- `prev_lcp`.  src/bin/count_z.rs:54-68 -/
def prevLcpB (m : Build) (lcp psv : List Nat) (saPos : Nat) : Res Nat := do
  let p ← rd psv saPos
  if p = INVALID then pure 0
  else do
    dassertB m (decide (saPos > p))
    let ret ← rmqQuery lcp (p + 1) (saPos + 1)
    prevLcpDebugB m lcp saPos p ret
    pure ret

/-- The second debug assertion of `next_lcp`.  src/bin/count_z.rs:78-81 -/
def nextLcpDebugB (m : Build) (lcp : List Nat) (saPos p ret : Nat) : Res Unit :=
  match m with
  | .checked => do
    let mn ← rmqNaive lcp (saPos + 1) (p + 1)
    assertR (decide (ret = mn))
  | .wrapping => .ok ()

/-- `next_lcp`.  src/bin/count_z.rs:69-83 -/
def nextLcpB (m : Build) (lcp nsv : List Nat) (saPos : Nat) : Res Nat := do
  let p ← rd nsv saPos
  if p = INVALID then pure 0
  else do
    dassertB m (decide (saPos < p))
    let ret ← rmqQuery lcp (saPos + 1) (p + 1)
    nextLcpDebugB m lcp saPos p ret
    pure ret

/-- `a - b` on `u32` -/
def u32subB (m : Build) (a b : Nat) : Res Nat :=
  if b ≤ a then .ok (a - b)
  else match m with
    | .checked => .error .arith
    | .wrapping => .ok (a + 4294967296 - b)

/-- One turn of the `while` loop of `compute_lz77`.  src/bin/count_z.rs:50-112 -/
def lz77StepB (m : Build) (text : List UInt8) (sa isa lcp nsv psv : List Nat) (s : Nat × List LZFactor) :
    Res (Nat × List LZFactor) := do
  let (i, factors) := s
  let saPos ← rd isa i
  let prev ← prevLcpB m lcp psv saPos
  let next ← nextLcpB m lcp nsv saPos
  if prev = 0 ∧ next = 0 then do
    let c ← rd text i
    pure (i + 1, factors ++ [⟨c.toNat, 0⟩])
  else do
    let maxLcp := if prev < next then next else prev
    let q ← if prev < next then rd nsv saPos else rd psv saPos
    let maxPos ← rd sa q
    dassertB m (decide (maxPos < i))
    let d ← u32subB m (asU32 i) (asU32 maxPos)
    pure (i + maxLcp, factors ++ [⟨d, maxLcp⟩])

/-- `compute_lz77`.  src/bin/count_z.rs:40-114 -/
def computeLz77B (m : Build) (text : List UInt8) (sa isa lcp nsv psv : List Nat) : Res (List LZFactor) := do
  let (_, factors) ← whileLoop (text.length + 1)
    (fun (s : Nat × List LZFactor) => pure (decide (s.1 < text.length)))
    (lz77StepB m text sa isa lcp nsv psv) (0, [])
  pure factors

/-- The final `debug_assert_eq!(text, decode_lz77(..))`.  src/bin/count_z.rs:211 -/
def decodeDebugB (m : Build) (text : List UInt8) (factors : List LZFactor) : Res Unit :=
  match m with
  | .checked => do
    let dec ← decodeLz77B .checked factors
    assertR (decide (text = dec))
  | .wrapping => .ok ()

/-- The factors computed by the `count_z` tool on its input text.  src/bin/count_z.rs:176-211 -/
def countZFactorsB (m : Build) (sufsort : List UInt8 → List Nat) (text : List UInt8) : Res (List LZFactor) := do
  let sa := sufsort text
  let isa ← inversePermutation 2147483647 sa
  let psv ← computePsvB m sa
  let nsv ← computeNsvB m sa
  let phi ← computePhiB m sa
  let plcp ← computePlcpB m text phi
  let lcp ← computeLcpB m plcp sa
  let factors ← computeLz77B m text sa isa lcp nsv psv
  decodeDebugB m text factors
  pure factors

/-- The factors computed by `count_lexparse` (and, per text, by `enumerate_lexparse`).
src/bin/count_lexparse.rs:72-99, src/bin/enumerate_lexparse.rs:85-97 -/
def countLexparseFactorsB (m : Build) (sufsort : List UInt8 → List Nat) (text : List UInt8) :
    Res (List LZFactor) := do
  let sa := sufsort text
  let phi ← computePhiB m sa
  let plcp ← computePlcpB m text phi
  computeLexparse text plcp phi

/-! ### src/bin/mus.rs, src/bin/bwt.rs, src/bin/count_r.rs -/

/-- `get_mus`; its assertion is `assert_lt!`, kept in both builds.  src/bin/mus.rs:25-53 -/
def getMusB (m : Build) (sa isa lcp : List Nat) : Res (List (Nat × Nat)) := do
  let n ← usubB m sa.length 1
  forRange 0 n [] (fun i mus => do
    let elli ← musGetLength sa isa lcp i
    assertR (decide (elli + i < sa.length))
    if elli + i ≥ n then pure mus
    else do
      let nextell ← musGetLength sa isa lcp (i + 1)
      if elli ≤ nextell then pure (mus ++ [(i, elli + 1)]) else pure mus)

/-- What `main` of `mus` computes from the text it read.  src/bin/mus.rs:71-93 and 101-115 -/
def musToolB (m : Build) (sufsort : List UInt8 → List Nat) (text : List UInt8) : Res (List (Nat × Nat)) := do
  let sa := sufsort text
  let isa ← inversePermutation 2147483647 sa
  let phi ← computePhiB m sa
  let plcp ← computePlcpB m text phi
  let lcp ← computeLcpB m plcp sa
  getMusB m sa isa lcp

/-- The `match args.use_matrix`.  src/bin/bwt.rs:60-69, src/bin/count_r.rs:59-68 -/
def bwtToolTransformB (m : Build) (sufsort : List UInt8 → List Nat) (useMatrix : Bool) (text : List UInt8) :
    Res (List UInt8) :=
  if useMatrix then
    if text.length < 100 then bwtByMatrixNaiveB m text else bwtByMatrixB m sufsort text
  else bwtFromTextBySaB m sufsort text

/-- The bytes written by the `bwt` tool.  src/bin/bwt.rs:38-74 -/
def bwtToolB (m : Build) (sufsort : List UInt8 → List Nat) (useMatrix noDollar : Bool) (input : List UInt8) :
    Res (List UInt8) :=
  bwtToolTransformB m sufsort useMatrix (bwtToolText noDollar input)

/-- The numbers printed by `count_r`.  src/bin/count_r.rs:34-79 -/
def countRB (m : Build) (sufsort : List UInt8 → List Nat) (useMatrix noDollar : Bool) (input : List UInt8) :
    Res (Nat × Nat) := do
  let bwt ← bwtToolTransformB m sufsort useMatrix (bwtToolText noDollar input)
  let r := numberOfRuns (sliceReader bwt)
  pure (bwt.length, r)

/-! ### src/bin/entropy.rs

An `f64` that is not a number is `none`; arithmetic with one gives one. -/

/-- One rounded operation on two `f64`s. -/
def nanOp (f : ℝ → ℝ → ℝ) (x y : Option ℝ) : Option ℝ := x.bind fun a => y.map fun b => f a b

/-- `zero_order_entropy`: for no letters at all the final division is `0.0 / 0.0`.  src/bin/entropy.rs:16-31 -/
noncomputable def zeroOrderEntropyB (A : Arith) (text : List UInt8) : Res (Option ℝ) := do
  let (counters, total) ← charCounters text
  if total = 0 then pure none else
  let sum ← forEach counters (0 : ℝ) (fun count sum =>
      if count > 0 then pure (A.fl (sum + letterTermF A total count)) else pure sum)
  pure (some (A.fl (sum / A.fl total)))

/-- The closure `compute_context`: `skip(start).take(length)` of an iterator skips to the end if `start` is beyond it.
src/bin/entropy.rs:51-61 -/
noncomputable def computeContextB (A : Arith) (text : List UInt8) (k : Nat) (sa : List Nat) (start length : Nat) :
    Res (Option ℝ) := do
  let v ← contextLetters text k sa start length
  let h ← zeroOrderEntropyB A v
  pure (nanOp (fun x y => A.fl (A.fl x * y)) (some (length : ℝ)) h)

/-- The body of the loop over the lcp array.  src/bin/entropy.rs:65-75 -/
noncomputable def kthStepB (m : Build) (A : Arith) (text : List UInt8) (k : Nat) (sa lcp : List Nat) (j : Nat)
    (s : Option ℝ × Nat) : Res (Option ℝ × Nat) := do
  let v ← rd lcp j
  if s.2 > 0 ∧ v < k then do
    assertR (decide (j > 0))
    let a ← usubB m j s.2
    let b ← usubB m a 1
    let x ← computeContextB A text k sa b (s.2 + 1)
    pure (nanOp (fun x y => A.fl (x + y)) s.1 x, 0)
  else if v ≥ k then pure (s.1, s.2 + 1)
  else pure s

/-- `kth_order_entropy`.  src/bin/entropy.rs:37-81 -/
noncomputable def kthOrderEntropyB (m : Build) (A : Arith) (sufsort : List UInt8 → List Nat) (text : List UInt8) (k : Nat) :
    Res (Option ℝ) := do
  assertR (decide (k > 0))
  let n1 ← usubB m text.length 1
  let front ← slice text 0 n1
  assertR (! front.any (fun x => decide (x = 0)))
  let sa := sufsort text
  let phi ← computePhiB m sa
  let plcp ← computePlcpB m text phi
  let lcp ← computeLcpB m plcp sa
  let (sum, cc) ← forRange 0 lcp.length (some (0 : ℝ), 0) (kthStepB m A text k sa lcp)
  let d ← usubB m lcp.length 1
  let last ← rd lcp d
  let sum ← if last ≥ k ∧ cc > 0 then do
      let a ← usubB m lcp.length cc
      let b ← usubB m a 1
      let x ← computeContextB A text k sa b (cc + 1)
      pure (nanOp (fun x y => A.fl (x + y)) sum x)
    else pure sum
  pure (nanOp (fun x y => A.fl (x / A.fl y)) sum (some (text.length : ℝ)))

/-! ### src/bin/is_stringattractor.rs -/

/-- The body of `for i in 1..n`; its two assertions are `assert_lt!`, kept in both builds.
src/bin/is_stringattractor.rs:57-108 -/
def lcpIterB (m : Build) (text : List UInt8) (sa lcp : List Nat) (i : Nat) (s : LcpState) : Res LcpState := do
  let n := text.length
  let c ← rd lcp i
  let s ← whileLoop (s.path.length + 1)
    (fun s => do let d ← topDepth s; pure (decide (c < d)))
    (lcpPop text sa (i - 1)) { s with child := none }
  let d ← topDepth s
  let s ← if c > d then
      match s.child with
      | none => .error .assert
      | some ch => do
        let cn ← rd s.nodes ch
        let p ← rd sa cn.begin
        assertR (decide (c + p < n))
        pure { s with nodes := s.nodes ++ [⟨c, cn.begin, n⟩], path := s.nodes.length :: s.path }
    else pure s
  let s ← match s.child with
    | none => pure s
    | some ch => do
      let cn ← rd s.nodes ch
      let p ← rd sa cn.begin
      let d ← topDepth s
      let label ← rd text (p + d)
      match s.path with
      | [] => .error .unwrap
      | top :: _ => pure { s with edges := s.edges ++ [⟨top, label, ch⟩] }
  let p ← rd sa i
  assertR (decide (p + n - p - 1 < n))
  let d1 ← u32subB m n p
  let d2 ← u32subB m d1 1
  pure { s with nodes := s.nodes ++ [⟨d2, i, i⟩], path := s.nodes.length :: s.path }

/-- The loop over the intervals under `#[cfg(debug_assertions)]`.  src/bin/is_stringattractor.rs:128-140 -/
def intervalsDebugB (m : Build) (n : Nat) (sa : List Nat) (nodes : List LCPInterval) : Res Unit :=
  match m with
  | .checked => forEach nodes () (fun nd _ => do
      assertR (decide (nd.begin < n))
      assertR (decide (nd.end_ < n))
      let p ← rd sa nd.begin
      assertR (decide (p + nd.depth < n)))
  | .wrapping => .ok ()

/-- `lcp_intervals`.  src/bin/is_stringattractor.rs:32-143 -/
def lcpIntervalsB (m : Build) (text : List UInt8) (sa lcp : List Nat) : Res (List LCPInterval × List SuffixEdge) := do
  let n := text.length
  let p0 ← rd sa 0
  let n1 ← usubB m n 1
  let a ← u32subB m n p0
  let d0 ← u32subB m a 1
  let s ← forRange 1 n (⟨[⟨0, 0, n1⟩, ⟨d0, 0, 0⟩], [1, 0], [], none⟩ : LcpState) (lcpIterB m text sa lcp)
  let s ← whileLoop (s.path.length + 1) (fun s => pure (decide (s.path ≠ [])))
    (lcpPop text sa (n - 1)) { s with child := none }
  intervalsDebugB m n sa s.nodes
  pure (s.nodes, s.edges)

/-- The distance array `arr_d`.  src/bin/is_stringattractor.rs:210-223 -/
def attractorDistancesB (m : Build) (n : Nat) (sa : List Nat) (bits : List Bool) : Res (List Nat) :=
  forRange 0 n (List.replicate n 0) (fun i arr => do
    let p ← rd sa i
    let b ← rd bits p
    if b then pure arr
    else
      match select1 bits (rank1 bits p) with
      | some pos => do
        let b' ← rd bits pos
        assertR b'
        let d ← usubB m pos p
        wr arr i d
      | none => wr arr i n)

/-- `is_attractor`: the result and the substrings it prints.  src/bin/is_stringattractor.rs:162-245 -/
def attractorReportB (m : Build) (sufsort : List UInt8 → List Nat) (text : List UInt8) (attractor : List Nat) :
    Res (Bool × List (List UInt8)) := do
  let n := text.length
  assertR (decide (n > 0))
  match text.getLast? with
  | none => .error .unwrap
  | some c => assertR (decide (c = 0))
  forEach attractor () (fun p _ => assertR (decide (p < n)))
  let sa := sufsort text
  let phi ← computePhiB m sa
  let plcp ← computePlcpB m text phi
  let lcp ← computeLcpB m plcp sa
  let (nodes, edges) ← lcpIntervalsB m text sa lcp
  let bits ← forEach attractor (List.replicate n false) (fun p v => wr v p true)
  let d ← attractorDistancesB m n sa bits
  forEach edges (true, []) (checkEdge text sa d nodes)

/-! ### src/bin/lyndonfactorization.rs -/

/-- The condition of the `break`.  src/bin/lyndonfactorization.rs:76-78 -/
def lyndonFileStopB (m : Build) (text : List UInt8) (factors : List Nat) (id : Nat) : Res Bool := do
  let l ← usubB m factors.length 1
  if id = l then do
    let e ← rd factors id
    if e + 1 = text.length then do
      let n1 ← usubB m text.length 1
      let c ← rd text n1
      pure (decide (c = 0))
    else pure false
  else pure false

/-- The header and the body written in one round of the loop.  src/bin/lyndonfactorization.rs:88-97 -/
def lyndonFileRecordB (m : Build) (text : List UInt8) (factors : List Nat) (id : Nat) : Res (List UInt8) := do
  let id1 ← usubB m id 1
  let p ← rd factors id1
  let e ← rd factors id
  let body ← slice text (p + 1) (e + 1)
  pure (Spec.ascii "\n>Factor " ++ Spec.decimal (id + 1) ++ Spec.ascii " : " ++ Spec.decimal (p + 1) ++
    Spec.ascii " -> " ++ Spec.decimal (e + 1) ++ Spec.ascii "\n" ++ body)

/-- `for factor_id in 1..factors.len() { if .. { break; } .. }`.  src/bin/lyndonfactorization.rs:74-98 -/
def lyndonFileLoopB (m : Build) (text : List UInt8) (factors : List Nat) : Nat → Nat → List UInt8 → Res (List UInt8)
  | 0, _, out => .ok out
  | d + 1, id, out => do
    let stop ← lyndonFileStopB m text factors id
    if stop then pure out
    else do
      let r ← lyndonFileRecordB m text factors id
      lyndonFileLoopB m text factors d (id + 1) (out ++ r)

/-- `main` with an output file: the number of factors and the bytes of the file.
src/bin/lyndonfactorization.rs:53-100 -/
def lyndonfactorizationMainB (m : Build) (text : List UInt8) : Res (Nat × List UInt8) := do
  let factors ← duvalB m text
  match factors.getLast? with
  | none => .error .unwrap
  | some e => do
    assertR (decide (e + 1 = text.length))
    let e0 ← rd factors 0
    let first ← slice text 0 (e0 + 1)
    let out ← lyndonFileLoopB m text factors (factors.length - 1) 1 (Spec.ascii ">Factor 1\n" ++ first)
    pure (factors.length, out)

end Verif.Model
