import Verif.Rust

/-!
# Model of `src/core.rs` (and of `read_char` of `src/io.rs`)

Each definition cites the lines it models.  `text.len()` is `text.length`.  Letters are values of any
type `α` with a `LinearOrder` (Rust `C: Ord`) or `DecidableEq` (Rust `C: Eq`); byte-only functions use
`UInt8`.
-/

namespace Verif.Model

open Verif

variable {α : Type}

/-- `x as u32` for a `usize` value: truncation to 32 bits. -/
def asU32 (x : Nat) : Nat := x % 4294967296

/-- `core::INVALID_VALUE = u32::MAX`.  src/core.rs:289 -/
def INVALID : Nat := 4294967295

/-- One turn of Duval's inner `while` condition `j != n && text[i] <= text[j]`.
src/core.rs:336 -/
def duvalCond [LinearOrder α] (text : List α) (n : Nat) (s : Nat × Nat) : Res Bool := do
  let (i, j) := s
  if j ≠ n then
    let a ← rd text i
    let b ← rd text j
    pure (decide (a ≤ b))
  else pure false

/-- Body of Duval's inner `while`: the two consecutive `if`s and `j += 1`.  The second `if` reads
`text[i]` again with the possibly reset `i`, as in the source.  src/core.rs:337-343 -/
def duvalBody [LinearOrder α] (text : List α) (k : Nat) (s : Nat × Nat) : Res (Nat × Nat) := do
  let (i, j) := s
  let a ← rd text i
  let b ← rd text j
  let i := if a < b then k else i
  let a ← rd text i
  let b ← rd text j
  let i := if a = b then i + 1 else i
  pure (i, j + 1)

/-- The emission `loop` of Duval: `assert_lt!(i, j); k += j - i; push(k - 1); if k >= i break`.
State is `(k, ending_positions)`.  src/core.rs:345-352 -/
def duvalEmit (i j : Nat) (s : Nat × List Nat) : Res (Bool × (Nat × List Nat)) := do
  let (k, out) := s
  assertR (i < j)
  let d ← usub j i
  let k := k + d
  let e ← usub k 1
  pure (decide (k ≥ i), (k, out ++ [e]))

/-- One turn of Duval's outer `while k < n`. src/core.rs:334-352 -/
def duvalOuter [LinearOrder α] (text : List α) (s : Nat × List Nat) : Res (Nat × List Nat) := do
  let (k, out) := s
  let n := text.length
  let (i, j) ← whileLoop (n + 1) (duvalCond text n) (duvalBody text k) (k, k + 1)
  loopR (n + 1) (duvalEmit i j) (k, out)

/-- `duval`: end positions of the Lyndon factors.  src/core.rs:329-355 -/
def duval [LinearOrder α] (text : List α) : Res (List Nat) := do
  let n := text.length
  let (_, out) ← whileLoop (n + 1) (fun s => pure (decide (s.1 < n))) (duvalOuter text) (0, [])
  pure out

/-- `isa_lyndon_factorization`; `isa` values are modelled as naturals (the Rust `i32`s are
non-negative).  Loop state: `(k, current_val, ending_positions)`.  src/core.rs:358-373 -/
def isaLyndonFactorization (isa : List Nat) : Res (List Nat) := do
  let cur ← rd isa 0
  let n := isa.length
  let (_, _, out) ← whileLoop (n + 1) (fun (s : Nat × Nat × List Nat) => pure (decide (s.1 < n)))
    (fun (k, cur, out) => do
      let v ← rd isa k
      if v < cur then
        let e ← usub k 1
        pure (k + 1, v, out ++ [e])
      else pure (k + 1, cur, out))
    (1, cur, [])
  let e ← usub n 1
  pure (out ++ [e])

/-- `lyndon_conjugate`.  src/core.rs:79-96.  The `for` with `return` is `forFind`. -/
def lyndonConjugate [LinearOrder α] (text : List α) : Res Nat := do
  let n := text.length
  let doubletext := text ++ text
  let factors ← duval doubletext
  let factors := factors ++ [2 * n]
  let f0 ← rd factors 0
  if f0 + 1 = n then pure 0
  else do
    let hi ← usub factors.length 1
    let r ← forFind 0 hi (fun x => do
      let e ← rd factors (x + 1)
      if e + 1 ≥ n then
        let b ← rd factors x
        pure (some (b + 1))
      else pure none)
    match r with
    | some p => pure p
    | none => .error .explicit

/-- `while length > 0 && text[length - 1] != text[i]` of `border_array`.  src/core.rs:223 -/
def borderCond [DecidableEq α] (text : List α) (i : Nat) (length : Nat) : Res Bool := do
  if length > 0 then
    let a ← rd text (length - 1)
    let b ← rd text i
    pure (decide (a ≠ b))
  else pure false

/-- Body of the `for i in 0..n` loop of `border_array`.  src/core.rs:221-227 -/
def borderStep [DecidableEq α] (text : List α) (i : Nat) (border : List Nat) : Res (List Nat) := do
  let length ← rd border i
  let length ← whileLoop (text.length + 2) (borderCond text i)
    (fun length => do
      let l1 ← usub length 1
      rd border l1) length
  pure (border ++ [length + 1])

/-- `border_array`.  src/core.rs:217-232.  The final loop decrements all entries but the first
(checked subtraction). -/
def borderArray [DecidableEq α] (text : List α) : Res (List Nat) := do
  let n := text.length
  let border ← forRange 0 n [0] (borderStep text)
  match border with
  | [] => pure []
  | b0 :: rest => do
    let rest ← rest.mapM (fun e => usub e 1)
    pure (b0 :: rest)

/-- `smallest_period`.  src/core.rs:110-113 -/
def smallestPeriod (border : List Nat) : Res Nat := do
  let n ← usub border.length 1
  let b ← rd border n
  usub n b

/-- `is_primitive`.  src/core.rs:100-107.  `%` by zero would panic. -/
def isPrimitive [DecidableEq α] (text : List α) : Res Bool := do
  let border ← borderArray text
  let period ← smallestPeriod border
  if period = text.length then pure true
  else do
    let p ← smallestPeriod border
    if p = 0 then .error .arith else pure (decide (text.length % p ≠ 0))

/-- The closure comparing two suffixes, `text[*a..].cmp(&text[*b..])`.  src/core.rs:189-193.
Slicing from beyond the end panics. -/
def suffixCmp [LinearOrder α] (text : List α) (a b : Nat) : Res Ordering :=
  if a ≤ text.length ∧ b ≤ text.length then
    .ok (if text.drop a < text.drop b then .lt
      else if text.drop a = text.drop b then .eq else .gt)
  else .error .index

/-- `suffixarray_naive`.  src/core.rs:183-195 -/
def suffixarrayNaive [LinearOrder α] (text : List α) : Res (List Nat) :=
  sortByR (suffixCmp text) (List.range text.length)

/-- Loop of `bwt_from_sa` and `bwt_from_text_by_sa`: `bwt[i] = text[(n + sa[i] - 1) % n]`.
src/core.rs:19-24, 202-205.  `vec![text[0]; n]` panics on empty text. -/
def bwtFromSa (text : List α) (sa : List Nat) : Res (List α) := do
  let n := text.length
  let c0 ← rd text 0
  forRange 0 n (List.replicate n c0) (fun i bwt => do
    let s ← rd sa i
    let m ← usub (n + s) 1
    let c ← rd text (m % n)
    wr bwt i c)

/-- `bwt_from_text_by_sa`.  src/core.rs:10-30.  `sufsort` is `cdivsufsort::sort_in_place`.
The first assertion `!text.len() > 0` uses the *bitwise* complement, so it never rejects the empty text
(it is false only for `len = usize::MAX`, which no vector has) and is omitted;
`text[..text.len() - 1]` then underflows on the empty text. -/
def bwtFromTextBySa (sufsort : List UInt8 → List Nat) (text : List UInt8) : Res (List UInt8) := do
  let m ← usub text.length 1
  assertR (!(text.take m).any (fun x => x == 0))
  bwtFromSa text (sufsort text)

/-- The closure comparing two rotations in `bwt_by_matrix_naive`.  src/core.rs:39-48 -/
def rotCmp [LinearOrder α] (text : List α) (a b : Nat) : Res Ordering := do
  let n := text.length
  let r ← forFind 0 n (fun i => do
    let x ← rd text ((a + i) % n)
    let y ← rd text ((b + i) % n)
    match ucmp x y with
    | .eq => pure none
    | o => pure (some o))
  match r with
  | some o => pure o
  | none => pure .eq

/-- `bwt_by_matrix_naive`.  src/core.rs:34-54 -/
def bwtByMatrixNaive [LinearOrder α] (text : List α) : Res (List α) := do
  let n := text.length
  let indices ← forRange 0 n [] (fun i v => pure (v ++ [i]))
  let indices ← sortByR (rotCmp text) indices
  forRange 0 n [] (fun i bwt => do
    let x ← rd indices i
    let m ← usub (x + n) 1
    let c ← rd text (m % n)
    pure (bwt ++ [c]))

/-- `bwt.remove(bwt.iter().position(|&x| x == 0).unwrap())`.  src/core.rs:74 -/
def removeFirstZero (bwt : List UInt8) : Res (List UInt8) :=
  match bwt.findIdx? (fun x => x == 0) with
  | some p => .ok (bwt.eraseIdx p)
  | none => .error .unwrap

/-- `bwt_by_matrix`.  src/core.rs:60-76.  Slicing `text[conjugate_start..n]` panics if the start is
beyond the end. -/
def bwtByMatrix (sufsort : List UInt8 → List Nat) (text : List UInt8) : Res (List UInt8) := do
  let n := text.length
  assertR (decide (n > 0))
  let start ← lyndonConjugate text
  if start ≤ n then
    let newtext := text.drop start ++ text.take start ++ [0]
    let bwt ← bwtFromTextBySa sufsort newtext
    removeFirstZero bwt
  else .error .index

/-- The local struct `Conjugate` of `bbwt_naive`.  src/core.rs:122-126 -/
structure Conjugate where
  index : Nat
  start : Nat
  stop : Nat
  deriving DecidableEq, Repr

/-- The closure comparing two conjugates in `bbwt_naive`.  src/core.rs:149-167.
`while len < alen * blen { ... }` with early returns is `forFind 0 (alen*blen)`. -/
def conjCmp [LinearOrder α] (text : List α) (a b : Conjugate) : Res Ordering := do
  let alen ← usub (1 + a.stop) a.start
  let blen ← usub (1 + b.stop) b.start
  let r ← forFind 0 (alen * blen) (fun len => do
    let x ← rd text (a.start + ((a.index + len) % alen))
    let y ← rd text (b.start + ((b.index + len) % blen))
    if x = y then pure none
    else if x < y then pure (some .lt) else pure (some .gt))
  match r with
  | some o => pure o
  | none => pure .eq

/-- The list of conjugates of all factors, in text order.  src/core.rs:127-147 -/
def conjugates (factors : List Nat) : Res (List Conjugate) := do
  let f0 ← rd factors 0
  let v ← forRange 0 (f0 + 1) [] (fun j v => pure (v ++ [(⟨j, 0, f0⟩ : Conjugate)]))
  let m ← usub factors.length 1
  forRange 0 m v (fun factor v => do
    let e ← rd factors factor
    let e' ← rd factors (factor + 1)
    forRange (e + 1) (e' + 1) v (fun j v => do
      let d ← usub j e
      let d ← usub d 1
      pure (v ++ [(⟨d, e + 1, e'⟩ : Conjugate)])))

/-- Position of the letter preceding a conjugate.  src/core.rs:170-174 -/
def conjPosition (c : Conjugate) : Res Nat :=
  if c.index = 0 then pure c.stop else usub (c.start + c.index) 1

/-- `bbwt_naive`.  src/core.rs:116-178 -/
def bbwtNaive [LinearOrder α] (text : List α) : Res (List α) := do
  let n := text.length
  let factors ← duval text
  let conjs ← conjugates factors
  assertR (decide (conjs.length = n))
  let conjs ← sortByR (conjCmp text) conjs
  let c0 ← rd text 0
  forRange 0 n (List.replicate n c0) (fun i bbwt => do
    let c ← rd conjs i
    let p ← conjPosition c
    let x ← rd text p
    wr bbwt i x)

/-- `i.leading_zeros()` of a 64-bit `usize`: number of zero bits above the highest one bit. -/
def leadingZeros64 (i : Nat) : Nat :=
  ((List.range 64).reverse.takeWhile (fun b => !i.testBit b)).length

/-- `bit_size`.  src/core.rs:235-237 -/
def bitSize (i : Nat) : Nat := 64 - leadingZeros64 i

/-- `compute_phi`.  src/core.rs:239-247.  The assertion comes after the (infallible) allocation. -/
def computePhi (sa : List Nat) : Res (List Nat) := do
  let phi := List.replicate sa.length 0
  assertR (decide (sa.length > 0))
  let phi ← forRange 1 sa.length phi (fun i phi => do
    let p ← rd sa i
    let i1 ← usub i 1
    let q ← rd sa i1
    wr phi p q)
  let p ← rd sa 0
  let l ← usub sa.length 1
  let q ← rd sa l
  wr phi p q

/-- `inverse_permutation`; `tmax` is the largest value of the element type `T` (`T::from_usize(i)`
fails beyond it).  src/core.rs:249-255 -/
def inversePermutation (tmax : Nat) (arr : List Nat) : Res (List Nat) :=
  forRange 0 arr.length (List.replicate arr.length 0) (fun i inv => do
    let p ← rd arr i
    if i ≤ tmax then wr inv p i else .error .unwrap)

/-- The `while` condition of `compute_plcp`.  src/core.rs:265-267 -/
def plcpCond [DecidableEq α] (text : List α) (a b : Nat) (length : Nat) : Res Bool := do
  if a + length < text.length ∧ b + length < text.length then
    let x ← rd text (a + length)
    let y ← rd text (b + length)
    pure (decide (x = y))
  else pure false

/-- `compute_plcp`; loop state `(plcp, length)`.  src/core.rs:257-275.  The `debug_assert_eq!` on the
lengths is modelled (debug profile). -/
def computePlcp [DecidableEq α] (text : List α) (phi : List Nat) : Res (List Nat) := do
  assertR (decide (text.length = phi.length))
  let (plcp, _) ← forRange 0 text.length (List.replicate text.length 0, 0)
    (fun b (s : List Nat × Nat) => do
      let (plcp, length) := s
      let a ← rd phi b
      let length ← whileLoop (text.length + 1) (plcpCond text a b) (fun l => pure (l + 1)) length
      let plcp ← wr plcp b (asU32 length)
      pure (plcp, length - 1))
  pure plcp

/-- `compute_lcp`.  src/core.rs:277-287 -/
def computeLcp (plcp : List Nat) (sa : List Nat) : Res (List Nat) := do
  assertR (decide (plcp.length = sa.length))
  forRange 0 plcp.length (List.replicate plcp.length 0) (fun i lcp => do
    let p ← rd sa i
    let v ← rd plcp p
    wr lcp i v)

/-- The pointer-jumping `while p != INVALID_VALUE` loop shared by `compute_psv` and `compute_nsv`:
state `p`, the result is the value finally stored in `psv[i]`.  src/core.rs:296-303, 313-320.
(`psv[i] = INVALID` before the loop; `psv[i] = p as u32; break` inside.) -/
def jump [LinearOrder α] (arr : List α) (sv : List Nat) (i : Nat) : Nat → Nat → Res Nat
  | 0, _ => .error .fuel
  | fuel + 1, p => do
    if p ≠ INVALID then
      let x ← rd arr p
      let y ← rd arr i
      if x < y then pure (asU32 p)
      else do
        let p' ← rd sv p
        jump arr sv i fuel p'
    else pure INVALID

/-- `compute_psv`.  src/core.rs:291-306 -/
def computePsv [LinearOrder α] (arr : List α) : Res (List Nat) := do
  let psv := List.replicate arr.length 0
  let psv ← wr psv 0 INVALID
  forRange 1 arr.length psv (fun i psv => do
    let p ← usub i 1
    let psv ← wr psv i INVALID
    let v ← jump arr psv i (arr.length + 1) p
    wr psv i v)

/-- `compute_nsv`.  src/core.rs:308-323.  `(0..arr.len()-1).rev()`: the `t`-th iteration handles index
`arr.len()-2-t`. -/
def computeNsv [LinearOrder α] (arr : List α) : Res (List Nat) := do
  let nsv := List.replicate arr.length 0
  let l ← usub arr.length 1
  let nsv ← wr nsv l INVALID
  forRange 0 l nsv (fun t nsv => do
    let i := l - 1 - t
    let nsv ← wr nsv i INVALID
    let v ← jump arr nsv i (arr.length + 1) (i + 1)
    wr nsv i v)

/-! ### Iterators -/

/-- `RandomStringGenerator { m_range: start..stop, m_log_alphabet_size }`.  src/core.rs:375-388 -/
structure RandomStringGenerator where
  start : Nat
  stop : Nat
  log : Nat
  deriving DecidableEq, Repr

/-- The letter pushed for index `i`:
`(((iter_round >> (log * i as u8)) & alphabet_mask) + 1) as u8`.  src/core.rs:415-418.
`log * i` must fit in `u8` and a shift amount must be below 64 (both checked). -/
def rsgLetter (log round mask i : Nat) : Res UInt8 :=
  let sh := log * (i % 256)
  if sh < 256 ∧ sh < 64 then .ok (UInt8.ofNat (((round >>> sh) &&& mask) + 1)) else .error .arith

/-- `RandomStringGenerator::next` on a 64-bit target.  src/core.rs:393-423.  `rnd` stands for the 128
letters the `rand` branch would produce. -/
def RandomStringGenerator.next (rnd : List UInt8) (g : RandomStringGenerator) :
    Res (Option (List UInt8) × RandomStringGenerator) := do
  if g.start * 2 ≥ 18446744073709551616 then .error .arith
  else if g.start * 2 ≥ g.stop then pure (none, g)
  else if g.start ≥ g.stop then pure (some rnd, g)
  else do
    let round := g.start + 1
    let g := { g with start := round }
    let msb := bitSize round
    -- `64u8 - log` must not underflow and the shift by it must be below 64
    let d ← usub 64 g.log
    if d ≥ 64 then .error .arith
    else do
      let mask := 18446744073709551615 >>> d
      if g.log = 0 then .error .arith
      else do
        let text ← forRange 1 (msb / g.log) [] (fun i text => do
          let c ← rsgLetter g.log round mask i
          pure (text ++ [c]))
        pure (some (text ++ [0]), g)

/-- `LyndonWordGenerator`.  src/core.rs:426-441.  Stack letters are `u8` values, kept as naturals with an
explicit overflow check where they are incremented. -/
structure LyndonWordGenerator where
  length : Nat
  sigma : Nat
  stack : List Nat
  deriving DecidableEq, Repr

/-- `LyndonWordGenerator::new`.  src/core.rs:434-440 -/
def LyndonWordGenerator.new (length sigma : Nat) : LyndonWordGenerator := ⟨length, sigma, []⟩

/-- `while stack.len() < m_length { stack.push(stack[stack.len() - current_length]) }`.
src/core.rs:465-468 -/
def lwgFill (length cur : Nat) (stack : List Nat) : Res (List Nat) :=
  whileLoop (length + 1) (fun stack => pure (decide (stack.length < length)))
    (fun stack => do
      let p ← usub stack.length cur
      let c ← rd stack p
      pure (stack ++ [c])) stack

/-- `while !stack.is_empty() && *stack.last() == m_alphabet_size - 1 { stack.pop() }`.
src/core.rs:471-473 -/
def lwgPop (sigma : Nat) (stack : List Nat) : Res (List Nat) :=
  whileLoop (stack.length + 1)
    (fun stack => match stack.getLast? with
      | none => pure false
      | some c => do
        let z ← usub sigma 1
        pure (decide (c = z)))
    (fun stack => pure stack.dropLast) stack

/-- `LyndonWordGenerator::next`.  src/core.rs:452-480 -/
def LyndonWordGenerator.next (g : LyndonWordGenerator) :
    Res (Option (List Nat) × LyndonWordGenerator) := do
  if g.length = 0 then pure (none, g)
  else if g.stack = [] then pure (some [0], { g with stack := [0] })
  else do
    let stack ← lwgFill g.length g.stack.length g.stack
    let stack ← lwgPop g.sigma stack
    match stack.getLast? with
    | none => pure (none, { g with length := 0, stack := stack })
    | some c =>
      if c + 1 < 256 then
        let stack := stack.dropLast ++ [c + 1]
        pure (some stack, { g with stack := stack })
      else .error .arith

/-- `BinaryStringGenerator`.  src/core.rs:484-497 -/
structure BinaryStringGenerator where
  length : Nat
  rank : Nat
  deriving DecidableEq, Repr

/-- `BinaryStringGenerator::new`.  src/core.rs:491-496 -/
def BinaryStringGenerator.new (length : Nat) : BinaryStringGenerator := ⟨length, 0⟩

/-- `BinaryStringGenerator::next`; `m_rank` is a `u64`, so `1 << i` panics for `i >= 64`.
src/core.rs:502-513 -/
def BinaryStringGenerator.next (g : BinaryStringGenerator) :
    Res (Option (List UInt8) × BinaryStringGenerator) := do
  if g.rank = 18446744073709551615 then pure (none, g)
  else do
    let text ← forRange 0 g.length [] (fun i text =>
      if i < 64 then
        let bit := g.rank &&& (1 <<< i)
        pure (text ++ [if bit = 0 then (48 : UInt8) else 49])
      else .error .arith)
    pure (some text, { g with rank := g.rank + 1 })

/-- `ConjugateIterator`.  src/core.rs:518-531 -/
structure ConjugateIterator (α : Type _) where
  text : List α
  pos : Nat

/-- `ConjugateIterator::new`.  src/core.rs:525-530 -/
def ConjugateIterator.new (text : List α) : ConjugateIterator α := ⟨text, 0⟩

/-- `ConjugateIterator::next`.  src/core.rs:536-551 -/
def ConjugateIterator.next (it : ConjugateIterator α) :
    Res (Option (List α) × ConjugateIterator α) := do
  if it.pos = it.text.length then pure (none, it)
  else do
    let ret ← forRange it.pos it.text.length [] (fun i ret => do
      let c ← rd it.text i
      pure (ret ++ [c]))
    let ret ← forRange 0 it.pos ret (fun i ret => do
      let c ← rd it.text i
      pure (ret ++ [c]))
    pure (some ret, { it with pos := it.pos + 1 })

/-! ### Readers -/

/-- Outcome of one `read` call with a one-byte buffer: a byte, zero bytes, or an error. -/
inductive ReadEv where
  | byte (b : UInt8)
  | eof
  | err
  deriving DecidableEq, Repr

/-- A `std::io::Read` is the list of outcomes of its future calls; when the list is exhausted every
call returns zero bytes. -/
abbrev Reader := List ReadEv

/-- `io::read_char`: `some b` for `Ok(b)`, `none` for `Err(_)`; the reader advances by one call.
src/io.rs:79-95 -/
def readChar (r : Reader) : Option UInt8 × Reader :=
  match r with
  | [] => (none, [])
  | .byte b :: r => (some b, r)
  | .eof :: r => (none, r)
  | .err :: r => (none, r)

/-- The `loop` of `number_of_runs` (state: previous character, run counter, reader).
src/core.rs:561-572 -/
def numberOfRunsLoop : Reader → UInt8 → Nat → Nat
  | [], _, cnt => cnt
  | .eof :: _, _, cnt => cnt
  | .err :: _, _, cnt => cnt
  | .byte c :: r, prev, cnt =>
    if c ≠ prev then numberOfRunsLoop r c (cnt + 1) else numberOfRunsLoop r prev cnt

/-- `number_of_runs`.  src/core.rs:555-575 -/
def numberOfRuns (r : Reader) : Nat :=
  match readChar r with
  | (none, _) => 0
  | (some first, r) => numberOfRunsLoop r first 1

/-- A byte slice used as reader (`&mut bwt.as_slice()`). -/
def sliceReader (l : List UInt8) : Reader := l.map .byte

/-- `stringopt_stropt`.  src/core.rs:578-583 -/
def stringoptStropt (i : Option String) : Option String :=
  match i with
  | none => none
  | some s => some s

/-- `get_filename`.  src/core.rs:585-590 -/
def getFilename (o : Option String) : String :=
  match o with
  | none => "none"
  | some s => s

end Verif.Model
