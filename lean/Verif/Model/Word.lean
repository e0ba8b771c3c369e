import Verif.Model.Core
import Mathlib.Analysis.SpecialFunctions.Sqrt
import Mathlib.Algebra.Order.Floor.Semiring

/-!
# Model: `src/word.rs`

Byte strings are lists of `UInt8`; `usize` is 64 bits; arithmetic is overflow-checked (the debug profile)
unless stated otherwise.  An allocation of more than `isize::MAX` bytes is the Rust panic
"capacity overflow" (`Panic.alloc`); smaller allocations are assumed to succeed.  `log` output is not
modelled.
-/

namespace Verif.Model

/-- `a + b` on `usize` -/
def uadd (a b : Nat) : Res Nat :=
  if a + b < 18446744073709551616 then .ok (a + b) else .error .arith

/-- `k + d` on `u8` -/
def u8add (k d : Nat) : Res Nat := if k + d < 256 then .ok (k + d) else .error .arith

/-- `vec![0_u8; n]` -/
def zeroed (n : Nat) : Res (List UInt8) :=
  if n < 9223372036854775808 then .ok (List.replicate n 0) else .error .alloc

/-- `1 << k` on `usize` -/
def shl1 (k : Nat) : Res Nat := if k < 64 then .ok (2 ^ k) else .error .arith

/-- `Vec::<u8>::with_capacity(n)`: only the possible panic matters. -/
def withCapacity (n : Nat) : Res Unit := if n < 9223372036854775808 then .ok () else .error .alloc

/-! ### Fibonacci -/

/-- `fibonacci_number`; the state of the loop is `(sum, cur, old)`.  src/word.rs:13-25 -/
def fibonacciNumber (k : Nat) : Res Nat := do
  if k = 0 then pure 1
  else do
    let hi ← u8add k 1
    let st ← forRange 0 hi (1, 1, 0) (fun _ (st : Nat × Nat × Nat) => do
      let sum ← uadd st.2.1 st.2.2
      pure (sum, sum, st.2.1))
    pure st.1

/-- State of `fibonacci_word`: `(text, previous, current, source, target)`. -/
structure FibState where
  text : List UInt8
  previous : Nat
  current : Nat
  source : Nat
  target : Nat
  deriving DecidableEq, Repr

/-- Body of the inner `while`.  src/word.rs:52-60 -/
def fibStep (s : FibState) : Res FibState := do
  let c ← rd s.text s.source
  if c = 97 then do
    let text ← wr s.text s.target 98
    let text ← wr text (s.target + 1) 97
    pure { s with text := text, target := s.target + 2, source := s.source + 1 }
  else do
    let text ← wr s.text s.target 97
    pure { s with text := text, target := s.target + 1, source := s.source + 1 }

/-- Body of the `for` loop.  src/word.rs:48-65 -/
def fibRound (s : FibState) : Res FibState := do
  let new ← uadd s.current s.previous
  let s ← whileLoop (new + 1) (fun s => pure (decide (s.target < new))) fibStep s
  pure { s with previous := s.current, current := new }

/-- `fibonacci_word` with a buffer of `length` bytes.  src/word.rs:36-70 -/
def fibonacciWordBuf (length k : Nat) : Res (List UInt8) := do
  let text ← zeroed length
  let text ← wr text 0 97
  let hi ← u8add k 1
  let s ← forRange 0 hi (⟨text, 0, 1, 0, 1⟩ : FibState) (fun _ s => fibRound s)
  pure (s.text.take s.current)

/-- `fibonacci_word`.  src/word.rs:35-70.  `est` is the number that the floating-point function
`fibonacci_number_estimate(k + 2)` returns (src/word.rs:28-30); its rounding errors are not modelled, the
theorems hold for every `est` close enough to the exact value.  `x as usize` rounds down. -/
noncomputable def fibonacciWord (est : ℝ) (k : Nat) : Res (List UInt8) := do
  let _ ← u8add k 2
  let length ← uadd (min ⌊est + 1⌋₊ 18446744073709551615) 1
  fibonacciWordBuf length k

/-- Binet's formula, `fibonacci_number_estimate` in exact arithmetic.  src/word.rs:9-11, 28-30 -/
noncomputable def binet (k : Nat) : ℝ :=
  (((1 + Real.sqrt 5) / 2) ^ k - (-1 / ((1 + Real.sqrt 5) / 2)) ^ k) / Real.sqrt 5

/-! ### Thue–Morse -/

/-- `thuemorse_word`.  src/word.rs:105-118 -/
def thuemorseWord (k : Nat) : Res (List UInt8) := do
  let n ← shl1 k
  let text ← zeroed n
  let text ← wr text 0 97
  forRange 0 k text (fun j text => do
    let powerj ← shl1 j
    forRange 0 powerj text (fun i text => do
      let c ← rd text i
      wr text (powerj + i) (if c = 97 then 98 else 97)))

/-! ### Kolakoski -/

/-- `(kolakoski_length_estimate(e) + 1.0) as usize`: `2^e` is exact in `f64`; `2^e + 1.0` is exact up to
`e = 52` and rounds to `2^e` from `e = 53` on (ties to even); the cast saturates.
src/word.rs:130-132, 137 -/
def kolakoskiEstimate (e : Nat) : Nat :=
  if e ≤ 52 then 2 ^ e + 1 else if e ≤ 63 then 2 ^ e else 18446744073709551615

/-- State of `kolakoski_word`. -/
structure KolState where
  text : List UInt8
  source : Nat
  target : Nat
  currentSize : Nat
  oldSize : Nat
  deriving DecidableEq, Repr

/-- Body of the inner `loop`, the first component being `true` for `break`.  src/word.rs:154-175 -/
def kolStep (s : KolState) : Res (Bool × KolState) := do
  let t1 ← usub s.target 1
  let last ← rd s.text t1
  let sym : UInt8 := if last = 97 then 98 else 97
  let c ← rd s.text s.source
  let s ← (if c = 97 then do
      let text ← wr s.text s.target sym
      pure { s with text := text, target := s.target + 1 }
    else pure s : Res KolState)
  let c ← rd s.text s.source
  let s ← (if c = 98 then do
      let text ← wr s.text s.target sym
      let text ← wr text (s.target + 1) sym
      pure { s with text := text, target := s.target + 2 }
    else pure s : Res KolState)
  let s := { s with source := s.source + 1 }
  if s.source = s.currentSize then do
    let cur ← uadd s.oldSize s.target
    let old ← usub cur s.target
    pure (true, { s with currentSize := cur, oldSize := old })
  else pure (false, s)

/-- `kolakoski_word`.  src/word.rs:136-181.  The inner `loop` gets `currentSize` rounds of fuel.  The unsafe
`set_len(target)` is defined only for `target` up to the length of the (initialised) buffer; beyond it the
model reports `Panic.index` (undefined behaviour in Rust). -/
def kolakoskiWord (k : Nat) : Res (List UInt8) := do
  let e ← u8add k 2
  let length ← uadd (kolakoskiEstimate e) 1
  let text ← zeroed length
  let text ← wr text 0 98
  let text ← wr text 1 98
  let s ← forRange 0 k (⟨text, 1, 2, 2, 0⟩ : KolState) (fun _ s => loopR s.currentSize kolStep s)
  if s.target ≤ s.text.length then pure (s.text.take s.target) else .error .index

/-! ### Morphisms -/

/-- `period_doubling_morphism`.  src/word.rs:214-219 -/
def periodDoublingMorphism (c : UInt8) : List UInt8 := if c = 97 then [97, 98] else [97, 97]

/-- `thuemorse_morphism`.  src/word.rs:221-226 -/
def thuemorseMorphism (c : UInt8) : List UInt8 := if c = 97 then [97, 98] else [98, 97]

/-- `fibonacci_morphism`.  src/word.rs:228-233 -/
def fibonacciMorphism (c : UInt8) : List UInt8 := if c = 97 then [97, 98] else [97]

/-- `tribonacci_morphism`.  src/word.rs:615-621 -/
def tribonacciMorphism (c : UInt8) : List UInt8 :=
  if c = 97 then [97, 98] else if c = 98 then [97, 99] else [97]

/-- `vtm_morphism`.  src/word.rs:675-681 -/
def vtmMorphism (c : UInt8) : List UInt8 :=
  if c = 97 then [97, 98, 99] else if c = 98 then [97, 99] else [98]

/-- `fibonacci_lyndonfactor_morphism`.  src/word.rs:699-704 -/
def fibonacciLyndonfactorMorphism (c : UInt8) : List UInt8 := if c = 97 then [97, 97, 98] else [97, 98]

/-- The `for c in morphism(..)` loop of `iterate_2morphism`, with its early `break`.
src/word.rs:251-257 -/
def write2 (n : Nat) : List UInt8 → List UInt8 → Nat → Res (List UInt8 × Nat)
  | [], text, target => .ok (text, target)
  | c :: cs, text, target => do
    let text ← wr text target c
    if target + 1 = n then pure (text, target + 1) else write2 n cs text (target + 1)

/-- `iterate_2morphism`.  src/word.rs:238-261 -/
def iterate2morphism (rounds : Nat) (morphism : UInt8 → List UInt8) : Res (List UInt8) := do
  if rounds = 0 then pure [97]
  else do
    let n ← shl1 rounds
    let text ← zeroed n
    let text ← wr text 0 97
    let text ← wr text 1 98
    let st ← whileLoop (n + 1) (fun (st : List UInt8 × Nat × Nat) => pure (decide (st.2.2 < n)))
      (fun st => do
        let c ← rd st.1 st.2.1
        let r ← write2 n (morphism c) st.1 st.2.2
        pure (r.1, st.2.1 + 1, r.2)) (text, 1, 2)
    pure st.1

/-- The initial capacity: `if sizehint > 0 { sizehint } else { 1 << rounds }`.
src/word.rs:306, 330 -/
def initialCapacity (rounds sizehint : Nat) : Res Unit := do
  let cap ← (if sizehint > 0 then pure sizehint else shl1 rounds : Res Nat)
  withCapacity cap

/-- `iterate_general_morphism_with_startsymbol`.  src/word.rs:299-317 -/
def iterateGeneralMorphismWithStartsymbol (rounds : Nat) (morphism : UInt8 → List UInt8)
    (sizehint : Nat) (startsymbol : List UInt8) : Res (List UInt8) := do
  initialCapacity rounds sizehint
  forRange 0 rounds startsymbol (fun _ oldtext =>
    forEach oldtext [] (fun c text => pure (text ++ morphism c)))

/-- State of `iterate_general_morphism`. -/
structure MorState where
  text : List UInt8
  round : Nat
  endLastRound : Nat
  sourcePos : Nat
  deriving DecidableEq, Repr

/-- Body of the `while` loop.  src/word.rs:337-347 -/
def morStep (morphism : UInt8 → List UInt8) (s : MorState) : Res MorState := do
  let c ← rd s.text s.sourcePos
  let s := { s with text := s.text ++ morphism c }
  if s.sourcePos = s.endLastRound then do
    let e ← usub s.text.length 1
    pure { s with round := s.round + 1, endLastRound := e, sourcePos := s.sourcePos + 1 }
  else pure { s with sourcePos := s.sourcePos + 1 }

/-- `iterate_general_morphism`; `fuel` bounds the rounds of the `while` loop.  src/word.rs:322-349 -/
def iterateGeneralMorphism (fuel rounds : Nat) (morphism : UInt8 → List UInt8) (sizehint : Nat) :
    Res (List UInt8) := do
  if rounds = 0 then pure [97]
  else do
    initialCapacity rounds sizehint
    let text := morphism 97
    let e ← usub text.length 1
    let s ← whileLoop fuel (fun (s : MorState) => pure (decide (s.round < rounds))) (morStep morphism)
      ⟨text, 1, e, 1⟩
    pure s.text

/-- `period_doubling_word`.  src/word.rs:351-353 -/
def periodDoublingWord (k : Nat) : Res (List UInt8) := iterate2morphism k periodDoublingMorphism

/-- `tribonacci_number`; state `(sum, cur, old, ancient)`.  The sum is computed from left to right.
src/word.rs:641-654 -/
def tribonacciNumber (k : Nat) : Res Nat := do
  if k = 0 then pure 1
  else do
    let st ← forRange 0 k (0, 1, 1, 0) (fun _ (st : Nat × Nat × Nat × Nat) => do
      let x ← uadd st.2.1 st.2.2.1
      let sum ← uadd x st.2.2.2
      pure (sum, sum, st.2.1, st.2.2.1))
    pure st.1

/-- `tribonacci_word`.  src/word.rs:623-625 -/
def tribonacciWord (fuel k : Nat) : Res (List UInt8) := do
  let hint ← tribonacciNumber k
  iterateGeneralMorphism fuel k tribonacciMorphism hint

/-- The size hint `(1 + (3 << k)) as usize`, computed in `i32`: a shift by 32 or more panics, shifted-out
bits are lost, the addition cannot overflow, a negative value becomes a huge `usize`.
src/word.rs:687, 714 -/
def i32SizeHint (k : Nat) : Res Nat :=
  if k < 32 then
    let x := (3 * 2 ^ k) % 4294967296
    if x < 2147483648 then (if x + 1 < 2147483648 then .ok (x + 1) else .error .arith)
    else .ok (18446744073709551616 + x + 1 - 4294967296)
  else .error .arith

/-- `vtm_word`.  src/word.rs:686-688 -/
def vtmWord (fuel k : Nat) : Res (List UInt8) := do
  let hint ← i32SizeHint k
  iterateGeneralMorphism fuel k vtmMorphism hint

/-- `fibonacci_lyndonfactor`.  src/word.rs:710-717 -/
def fibonacciLyndonfactor (k : Nat) : Res (List UInt8) := do
  let hint ← i32SizeHint k
  iterateGeneralMorphismWithStartsymbol k fibonacciLyndonfactorMorphism hint [97, 98]

/-! ### Paperfolding -/

/-- The two letters written for the letter `c`; `none` is the `panic!` branch.  src/word.rs:425-443 -/
def paperPair (c : UInt8) : Option (UInt8 × UInt8) :=
  if c = 100 then some (100, 98)
  else if c = 98 then some (99, 98)
  else if c = 99 then some (100, 97)
  else if c = 97 then some (99, 97)
  else none

/-- Body of the loop of `quaternary_paperfolding_word`.  src/word.rs:424-443 -/
def paperStep (k : Nat) (text : List UInt8) : Res (List UInt8) := do
  let c ← rd text k
  match paperPair c with
  | none => .error .explicit
  | some (x, y) => do
    let text ← wr text (2 * k) x
    wr text (2 * k + 1) y

/-- `quaternary_paperfolding_word`.  src/word.rs:416-446 -/
def quaternaryPaperfoldingWord (i : Nat) : Res (List UInt8) := do
  let n ← shl1 i
  let text ← zeroed n
  let text ← wr text 0 100
  forRange 0 (n / 2) text paperStep

/-- The two binary letters for a quaternary letter.  src/word.rs:467-485 -/
def binaryPair (c : UInt8) : Option (UInt8 × UInt8) :=
  if c = 100 then some (49, 49)
  else if c = 98 then some (48, 49)
  else if c = 99 then some (49, 48)
  else if c = 97 then some (48, 48)
  else none

/-- Body of the loop of `quaternary_to_binary`.  src/word.rs:466-485 -/
def binaryStep (text : List UInt8) (i : Nat) (output : List UInt8) : Res (List UInt8) := do
  let c ← rd text i
  match binaryPair c with
  | none => .error .explicit
  | some (x, y) => do
    let output ← wr output (2 * i) x
    wr output (2 * i + 1) y

/-- `quaternary_to_binary`; `text.len() << 1` drops the top bit (it is 0 for every vector).
src/word.rs:461-488 -/
def quaternaryToBinary (text : List UInt8) : Res (List UInt8) := do
  let output ← zeroed (text.length * 2 % 18446744073709551616)
  forRange 0 text.length output (binaryStep text)

/-- `paperfolding_word`.  src/word.rs:409-411 -/
def paperfoldingWord (i : Nat) : Res (List UInt8) := do
  let q ← quaternaryPaperfoldingWord i
  quaternaryToBinary q

/-! ### Necklaces and de Bruijn words -/

/-- Condition of the `while` in `is_necklace`.  src/word.rs:499 -/
def necklaceCond (text : List UInt8) (n : Nat) (st : Nat × Nat) : Res Bool :=
  if st.2 = n then pure false
  else do
    let a ← rd text st.1
    let b ← rd text st.2
    pure (decide (a ≤ b))

/-- Body of the `while` in `is_necklace`; the state is `(i, j)`.  src/word.rs:500-506 -/
def necklaceBody (text : List UInt8) (st : Nat × Nat) : Res (Nat × Nat) := do
  let a ← rd text st.1
  let b ← rd text st.2
  let i := if a < b then 0 else st.1
  let a ← rd text i
  let b ← rd text st.2
  pure (if a = b then i + 1 else i, st.2 + 1)

/-- `is_necklace(text, n)`; `j` starts at 1, so for `n = 0` the loop only ends at an index error (or a
descent).  The fuel covers all indices of the text.  src/word.rs:492-512 -/
def isNecklace (text : List UInt8) (n : Nat) : Res Bool := do
  let st ← whileLoop (text.length + n + 2) (necklaceCond text n) (necklaceBody text) (0, 1)
  if st.2 ≠ n then pure false else pure true

/-- One round of the `loop` in `binary_debruijn_word` up to the termination test.
src/word.rs:555-561 -/
def debruijnStep (word : List UInt8) : Res (UInt8 × List UInt8) := do
  match word with
  | [] => .error .unwrap
  | first :: rest => do
    let nk ← isNecklace (rest ++ [98]) (rest ++ [98]).length
    let c := if nk then (if first = 97 then 98 else 97) else first
    pure (c, rest ++ [c])

/-- The termination test: `for (i, letter) in word.iter().enumerate().take(n)` leaves the function exactly
if no letter is `b` (the deque has `n` letters, and `n ≥ 1`).  src/word.rs:562-569 -/
def debruijnDone (n : Nat) (word : List UInt8) : Bool :=
  (word.take n).all (fun c => c ≠ 98) && decide (n ≤ word.length)

/-- The `loop` of `binary_debruijn_word` with fuel.  src/word.rs:554-570 -/
def debruijnLoop (n : Nat) : Nat → List UInt8 → List UInt8 → Res (List UInt8)
  | 0, _, _ => .error .fuel
  | fuel + 1, word, output => do
    let (c, word) ← debruijnStep word
    if debruijnDone n word then pure (output ++ [c]) else debruijnLoop n fuel word (output ++ [c])

/-- `binary_debruijn_word`; `fuel` bounds the rounds of the `loop`.  src/word.rs:546-571 -/
def binaryDebruijnWord (fuel k : Nat) : Res (List UInt8) :=
  debruijnLoop (k + 1) fuel (List.replicate (k + 1) 97) []

/-! ### Powers of two -/

/-- The `while j > 1 << (most_significant_bit + 1)`.  src/word.rs:601-603 -/
def power2Msb (j msb : Nat) : Res Nat :=
  whileLoop (j + 1) (fun msb => do
    let p ← shl1 (msb + 1)
    pure (decide (j > p))) (fun msb => pure (msb + 1)) msb

/-- `power2_sequence`; the state is `(text, most_significant_bit)`.  src/word.rs:594-611 -/
def power2Sequence (k : Nat) : Res (List UInt8) := do
  let n ← shl1 k
  let text ← zeroed n
  let st ← forRange 1 n (text, 0) (fun j (st : List UInt8 × Nat) => do
    let msb ← power2Msb j st.2
    let p ← shl1 msb
    let m ← usub p 1
    let j1 ← usub j 1
    let text ← wr st.1 j1 (if (j &&& m) > 0 then 97 else 98)
    pure (text, msb))
  pure st.1

end Verif.Model
