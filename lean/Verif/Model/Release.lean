import Verif.Model.WordF
import Verif.Model.Mains
import Verif.Model.Generators

/-!
# The generators in both builds

`Verif/Model/Word.lean`, `Core.lean` and `Generators.lean` model the build with overflow checks (`cargo build`).  Here the
generators are transcribed with the build as a parameter: `Build.checked` panics at an overflow, `Build.wrapping`
(`cargo build --release`) drops the high bits of sums and differences and takes shift distances modulo the width of the
type.  `Verif/Props/Release.lean` proves that the instances for `Build.checked` are the definitions of those files.
-/

namespace Verif.Model

open Verif

/-- `a + b` on `usize` -/
def uaddB (m : Build) (a b : Nat) : Res Nat :=
  if a + b < 18446744073709551616 then .ok (a + b)
  else match m with
    | .checked => .error .arith
    | .wrapping => .ok ((a + b) % 18446744073709551616)

/-- `a - b` on `usize` -/
def usubB (m : Build) (a b : Nat) : Res Nat :=
  if b ≤ a then .ok (a - b)
  else match m with
    | .checked => .error .arith
    | .wrapping => .ok (a + 18446744073709551616 - b)

/-- `k + d` on `u8` -/
def u8addB (m : Build) (k d : Nat) : Res Nat :=
  if k + d < 256 then .ok (k + d)
  else match m with
    | .checked => .error .arith
    | .wrapping => .ok ((k + d) % 256)

/-- `1 << k` on 64-bit numbers -/
def shl1B (m : Build) (k : Nat) : Res Nat :=
  if k < 64 then .ok (2 ^ k)
  else match m with
    | .checked => .error .arith
    | .wrapping => .ok (2 ^ (k % 64))

/-! ### Fibonacci -/

/-- `fibonacci_number`.  src/word.rs:13-25 -/
def fibonacciNumberB (m : Build) (k : Nat) : Res Nat := do
  if k = 0 then pure 1
  else do
    let hi ← u8addB m k 1
    let st ← forRange 0 hi (1, 1, 0) (fun _ (st : Nat × Nat × Nat) => do
      let sum ← uaddB m st.2.1 st.2.2
      pure (sum, sum, st.2.1))
    pure st.1

/-- Body of the `for` loop of `fibonacci_word`.  src/word.rs:48-65 -/
def fibRoundB (m : Build) (s : FibState) : Res FibState := do
  let new ← uaddB m s.current s.previous
  let s ← whileLoop (new + 1) (fun s => pure (decide (s.target < new))) fibStep s
  pure { s with previous := s.current, current := new }

/-- `fibonacci_word` with a buffer of `length` bytes.  src/word.rs:36-70 -/
def fibonacciWordBufB (m : Build) (length k : Nat) : Res (List UInt8) := do
  let text ← zeroed length
  let text ← wr text 0 97
  let hi ← u8addB m k 1
  let s ← forRange 0 hi (⟨text, 0, 1, 0, 1⟩ : FibState) (fun _ s => fibRoundB m s)
  pure (s.text.take s.current)

/-- `fibonacci_word`; `est e` is what `fibonacci_number_estimate(e)` returns.  src/word.rs:35-70 -/
noncomputable def fibonacciWordB (m : Build) (est : Nat → ℝ) (k : Nat) : Res (List UInt8) := do
  let k2 ← u8addB m k 2
  let length ← uaddB m (min ⌊est k2 + 1⌋₊ 18446744073709551615) 1
  fibonacciWordBufB m length k

/-! ### Thue–Morse, Kolakoski -/

/-- `thuemorse_word`.  src/word.rs:105-118 -/
def thuemorseWordB (m : Build) (k : Nat) : Res (List UInt8) := do
  let n ← shl1B m k
  let text ← zeroed n
  let text ← wr text 0 97
  forRange 0 k text (fun j text => do
    let powerj ← shl1B m j
    forRange 0 powerj text (fun i text => do
      let c ← rd text i
      wr text (powerj + i) (if c = 97 then 98 else 97)))

/-- Body of the inner `loop` of `kolakoski_word`.  src/word.rs:154-175 -/
def kolStepB (m : Build) (s : KolState) : Res (Bool × KolState) := do
  let t1 ← usubB m s.target 1
  let last ← rd s.text t1
  let sym : UInt8 := if last = 97 then 98 else 97
  let c ← rd s.text s.source
  let s ← (if c = 97 then do
      let text ← wr s.text s.target sym
      pure { s with text := text, target := s.target + 1 }
    else pure s : Res KolState)
  let c ← rd s.text s.source
  let s ← (if c = 98 then do
      let text ← wr s.text s.target sym
      let text ← wr text (s.target + 1) sym
      pure { s with text := text, target := s.target + 2 }
    else pure s : Res KolState)
  let s := { s with source := s.source + 1 }
  if s.source = s.currentSize then do
    let cur ← uaddB m s.oldSize s.target
    let old ← usubB m cur s.target
    pure (true, { s with currentSize := cur, oldSize := old })
  else pure (false, s)

/-- `kolakoski_word`.  src/word.rs:136-181 -/
def kolakoskiWordB (m : Build) (k : Nat) : Res (List UInt8) := do
  let e ← u8addB m k 2
  let length ← uaddB m (kolakoskiEstimate e) 1
  let text ← zeroed length
  let text ← wr text 0 98
  let text ← wr text 1 98
  let s ← forRange 0 k (⟨text, 1, 2, 2, 0⟩ : KolState) (fun _ s => loopR s.currentSize (kolStepB m) s)
  if s.target ≤ s.text.length then pure (s.text.take s.target) else .error .index

/-! ### Morphisms -/

/-- `iterate_2morphism`.  src/word.rs:238-261 -/
def iterate2morphismB (m : Build) (rounds : Nat) (morphism : UInt8 → List UInt8) : Res (List UInt8) := do
  if rounds = 0 then pure [97]
  else do
    let n ← shl1B m rounds
    let text ← zeroed n
    let text ← wr text 0 97
    let text ← wr text 1 98
    let st ← whileLoop (n + 1) (fun (st : List UInt8 × Nat × Nat) => pure (decide (st.2.2 < n)))
      (fun st => do
        let c ← rd st.1 st.2.1
        let r ← write2 n (morphism c) st.1 st.2.2
        pure (r.1, st.2.1 + 1, r.2)) (text, 1, 2)
    pure st.1

/-- `period_doubling_word`.  src/word.rs:351-353 -/
def periodDoublingWordB (m : Build) (k : Nat) : Res (List UInt8) := iterate2morphismB m k periodDoublingMorphism

/-- The initial capacity.  src/word.rs:306, 330 -/
def initialCapacityB (m : Build) (rounds sizehint : Nat) : Res Unit := do
  let cap ← (if sizehint > 0 then pure sizehint else shl1B m rounds : Res Nat)
  withCapacity cap

/-- `iterate_general_morphism_with_startsymbol`.  src/word.rs:299-317 -/
def iterateGeneralMorphismWithStartsymbolB (m : Build) (rounds : Nat) (morphism : UInt8 → List UInt8)
    (sizehint : Nat) (startsymbol : List UInt8) : Res (List UInt8) := do
  initialCapacityB m rounds sizehint
  forRange 0 rounds startsymbol (fun _ oldtext =>
    forEach oldtext [] (fun c text => pure (text ++ morphism c)))

/-- Body of the `while` loop of `iterate_general_morphism`.  src/word.rs:337-347 -/
def morStepB (m : Build) (morphism : UInt8 → List UInt8) (s : MorState) : Res MorState := do
  let c ← rd s.text s.sourcePos
  let s := { s with text := s.text ++ morphism c }
  if s.sourcePos = s.endLastRound then do
    let e ← usubB m s.text.length 1
    pure { s with round := s.round + 1, endLastRound := e, sourcePos := s.sourcePos + 1 }
  else pure { s with sourcePos := s.sourcePos + 1 }

/-- `iterate_general_morphism`.  src/word.rs:322-349 -/
def iterateGeneralMorphismB (m : Build) (fuel rounds : Nat) (morphism : UInt8 → List UInt8) (sizehint : Nat) :
    Res (List UInt8) := do
  if rounds = 0 then pure [97]
  else do
    initialCapacityB m rounds sizehint
    let text := morphism 97
    let e ← usubB m text.length 1
    let s ← whileLoop fuel (fun (s : MorState) => pure (decide (s.round < rounds))) (morStepB m morphism)
      ⟨text, 1, e, 1⟩
    pure s.text

/-- `tribonacci_number`.  src/word.rs:641-654 -/
def tribonacciNumberB (m : Build) (k : Nat) : Res Nat := do
  if k = 0 then pure 1
  else do
    let st ← forRange 0 k (0, 1, 1, 0) (fun _ (st : Nat × Nat × Nat × Nat) => do
      let x ← uaddB m st.2.1 st.2.2.1
      let sum ← uaddB m x st.2.2.2
      pure (sum, sum, st.2.1, st.2.2.1))
    pure st.1

/-- `tribonacci_word`.  src/word.rs:623-625 -/
def tribonacciWordB (m : Build) (fuel k : Nat) : Res (List UInt8) := do
  let hint ← tribonacciNumberB m k
  iterateGeneralMorphismB m fuel k tribonacciMorphism hint

/-- The size hint `(1 + (3 << k)) as usize` in `i32`: the shift distance is taken modulo 32 without overflow checks.
src/word.rs:687, 714 -/
def i32SizeHintB (m : Build) (k : Nat) : Res Nat :=
  if k < 32 then
    let x := (3 * 2 ^ k) % 4294967296
    if x < 2147483648 then
      (if x + 1 < 2147483648 then .ok (x + 1)
       else match m with
        | .checked => .error .arith
        | .wrapping => .ok (18446744073709551616 - 2147483648))
    else .ok (18446744073709551616 + x + 1 - 4294967296)
  else match m with
    | .checked => .error .arith
    | .wrapping =>
      let x := (3 * 2 ^ (k % 32)) % 4294967296
      if x < 2147483648 then
        (if x + 1 < 2147483648 then .ok (x + 1) else .ok (18446744073709551616 - 2147483648))
      else .ok (18446744073709551616 + x + 1 - 4294967296)

/-- `vtm_word`.  src/word.rs:686-688 -/
def vtmWordB (m : Build) (fuel k : Nat) : Res (List UInt8) := do
  let hint ← i32SizeHintB m k
  iterateGeneralMorphismB m fuel k vtmMorphism hint

/-- `fibonacci_lyndonfactor`.  src/word.rs:710-717 -/
def fibonacciLyndonfactorB (m : Build) (k : Nat) : Res (List UInt8) := do
  let hint ← i32SizeHintB m k
  iterateGeneralMorphismWithStartsymbolB m k fibonacciLyndonfactorMorphism hint [97, 98]

/-! ### Paperfolding, powers of two -/

/-- `quaternary_paperfolding_word`.  src/word.rs:416-446 -/
def quaternaryPaperfoldingWordB (m : Build) (i : Nat) : Res (List UInt8) := do
  let n ← shl1B m i
  let text ← zeroed n
  let text ← wr text 0 100
  forRange 0 (n / 2) text paperStep

/-- `paperfolding_word`.  src/word.rs:409-411 -/
def paperfoldingWordB (m : Build) (i : Nat) : Res (List UInt8) := do
  let q ← quaternaryPaperfoldingWordB m i
  quaternaryToBinary q

/-- The `while j > 1 << (most_significant_bit + 1)`.  src/word.rs:601-603 -/
def power2MsbB (m : Build) (j msb : Nat) : Res Nat :=
  whileLoop (j + 1) (fun msb => do
    let p ← shl1B m (msb + 1)
    pure (decide (j > p))) (fun msb => pure (msb + 1)) msb

/-- `power2_sequence`.  src/word.rs:594-611 -/
def power2SequenceB (m : Build) (k : Nat) : Res (List UInt8) := do
  let n ← shl1B m k
  let text ← zeroed n
  let st ← forRange 1 n (text, 0) (fun j (st : List UInt8 × Nat) => do
    let msb ← power2MsbB m j st.2
    let p ← shl1B m msb
    let q ← usubB m p 1
    let j1 ← usubB m j 1
    let text ← wr st.1 j1 (if (j &&& q) > 0 then 97 else 98)
    pure (text, msb))
  pure st.1

/-- The word that the tool `word` writes.  src/bin/word.rs:43-56 -/
noncomputable def wordOfB (m : Build) (est : Nat → ℝ) (fuel : Nat) : WordName → Nat → Res (List UInt8)
  | .fibonacci => fibonacciWordB m est
  | .fibonacciLyndonFactor => fibonacciLyndonfactorB m
  | .tribonacci => tribonacciWordB m fuel
  | .kolakoski => kolakoskiWordB m
  | .thueMorse => thuemorseWordB m
  | .periodDoubling => periodDoublingWordB m
  | .paperFolding => paperfoldingWordB m
  | .quaternaryPaperFolding => quaternaryPaperfoldingWordB m
  | .binaryDeBrujin => binaryDebruijnWord fuel
  | .power2 => power2SequenceB m
  | .vtm => vtmWordB m fuel

/-- `main` of `word`: the writer is opened first; `est e` is what `fibonacci_number_estimate(e)` returns.
src/bin/word.rs:39-57 -/
noncomputable def wordMainB (m : Build) (creatable : String → Bool) (est : Nat → ℝ) (fuel : Nat) (name : WordName) (k : Nat)
    (out : Option String) (w : World) : World × Res Unit :=
  match openOut creatable out w with
  | .error e => (w, .error e)
  | .ok w =>
    match wordOfB m est fuel name k with
    | .error e => (w, .error e)
    | .ok text => (writeOut out text w, .ok ())

/-! ### Iterators of `core.rs` -/

/-- `while !stack.is_empty() && *stack.last() == m_alphabet_size - 1 { stack.pop() }`.  src/core.rs:471-473 -/
def lwgPopB (m : Build) (sigma : Nat) (stack : List Nat) : Res (List Nat) :=
  whileLoop (stack.length + 1)
    (fun stack => match stack.getLast? with
      | none => pure false
      | some c => do
        let z ← usubB m sigma 1
        pure (decide (c = z)))
    (fun stack => pure stack.dropLast) stack

/-- `LyndonWordGenerator::next`.  src/core.rs:452-480 -/
def LyndonWordGenerator.nextB (m : Build) (g : LyndonWordGenerator) :
    Res (Option (List Nat) × LyndonWordGenerator) := do
  if g.length = 0 then pure (none, g)
  else if g.stack = [] then pure (some [0], { g with stack := [0] })
  else do
    let stack ← lwgFill g.length g.stack.length g.stack
    let stack ← lwgPopB m g.sigma stack
    match stack.getLast? with
    | none => pure (none, { g with length := 0, stack := stack })
    | some c => do
      let d ← u8addB m c 1
      let stack := stack.dropLast ++ [d]
      pure (some stack, { g with stack := stack })

/-- `BinaryStringGenerator::next`.  src/core.rs:502-513 -/
def BinaryStringGenerator.nextB (m : Build) (g : BinaryStringGenerator) :
    Res (Option (List UInt8) × BinaryStringGenerator) := do
  if g.rank = 18446744073709551615 then pure (none, g)
  else do
    let text ← forRange 0 g.length [] (fun i text => do
      let b ← shl1B m i
      let bit := g.rank &&& b
      pure (text ++ [if bit = 0 then (48 : UInt8) else 49]))
    pure (some text, { g with rank := g.rank + 1 })

/-- `it.iter().map(|x| x + b'a')`.  src/bin/lyndonwords.rs:29 -/
def lyndonLineB (m : Build) (w : List Nat) : Res (List UInt8) :=
  w.mapM (fun x => do
    let y ← u8addB m x 97
    pure (UInt8.ofNat y))

/-- `main` of `lyndonwords`.  src/bin/lyndonwords.rs:24-33 -/
def lyndonwordsLoopB (m : Build) : Nat → LyndonWordGenerator → Out
  | 0, _ => ([], .error .fuel)
  | fuel + 1, g =>
    match g.nextB m with
    | .error e => ([], .error e)
    | .ok (none, _) => ([], .ok ())
    | .ok (some w, g) =>
      match lyndonLineB m w with
      | .error e => ([], .error e)
      | .ok l => emit (l ++ [10]) (lyndonwordsLoopB m fuel g)

end Verif.Model
