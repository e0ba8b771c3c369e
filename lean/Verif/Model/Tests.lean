import Verif.Model.Core
import Verif.Model.Lz
import Verif.Model.Mus
import Verif.Model.Word
import Verif.Model.Attractor

/-!
# Model of the looping unit tests

`src/tests/core_test.rs` (the target `core-test` of Cargo.toml) and the tests with loops of `src/word.rs`,
`src/bin/count_z.rs`, `src/bin/mus.rs` and `src/bin/is_stringattractor.rs`.  A test passes iff its program
returns `ok ()`.  The bounds the source fixes by constants (`MAX_TEST_ITER = 4096`, `1..8`, `4..16`, ...)
are parameters; log and print lines are left out.  The part of a test that follows the call of the function
under test is a definition of its own (`...Oracle`) where it is more than one comparison.
-/

namespace Verif.Model

open Verif

/-- `for text in core::RandomStringGenerator::new(0..bound, log) { body }`.
src/tests/core_test.rs:15, 47, 64, 90, 106, src/bin/count_z.rs:121.  The iterator is asked until it returns
`None`; the fuel is one more than the bound. -/
def forTestStrings (bound log : Nat) (body : List UInt8 → Res Unit) : Res Unit := do
  let _ ← loopR (bound + 1) (fun (g : RandomStringGenerator) => do
    let (o, g) ← g.next []
    match o with
    | none => pure (true, g)
    | some text => do
      body text
      pure (false, g)) ⟨0, bound, log⟩
  pure ()

/-- The body of `test_duval`.  src/tests/core_test.rs:16-29 -/
def checkDuval (sufsort : List UInt8 → List Nat) (text : List UInt8) : Res Unit := do
  let factors ← duval text
  let m ← usub text.length 1
  assertR (!(text.take m).any (· == 0))
  let sa := sufsort text
  let isa ← inversePermutation 2147483647 sa
  let es ← isaLyndonFactorization isa
  assertR (decide (factors = es))

/-- `test_duval`.  src/tests/core_test.rs:12-31 -/
def testDuval (sufsort : List UInt8 → List Nat) (bound log : Nat) : Res Unit :=
  forTestStrings bound log (checkDuval sufsort)

/-- `test_bwt_from_text_by_sa`, `for i in 1..hi`.  src/tests/core_test.rs:34-42 -/
noncomputable def testBwtFromTextBySa (sufsort : List UInt8 → List Nat) (hi : Nat) : Res Unit :=
  forRange 1 hi () (fun i _ => do
    let text ← fibonacciWord (binet (2 * i + 2)) (2 * i)
    let bwt ← bwtFromTextBySa sufsort text
    assertR (decide (numberOfRuns (sliceReader bwt) = 2)))

/-- The body of `test_bwt_by_matrix`.  src/tests/core_test.rs:48-56 -/
def checkMatrix (sufsort : List UInt8 → List Nat) (text : List UInt8) : Res Unit := do
  if text.length < 2 then pure ()
  else do
    let m ← usub text.length 1
    let naive ← bwtByMatrixNaive (text.take m)
    let clever ← bwtByMatrix sufsort (text.take m)
    if naive ≠ clever then do
      let _ ← bwtByMatrix sufsort (text.take m)
      pure ()
    else pure ()
    assertR (decide (naive = clever))

/-- `test_bwt_by_matrix`.  src/tests/core_test.rs:44-58 -/
def testBwtByMatrix (sufsort : List UInt8 → List Nat) (bound log : Nat) : Res Unit :=
  forTestStrings bound log (checkMatrix sufsort)

/-- The assertions of `test_lyndon_conjugate` on the value `lconjugate` returned for `text`.
src/tests/core_test.rs:65-83 -/
def conjugateOracle (text : List UInt8) (lconjugate : Nat) : Res Unit := do
  let n := text.length
  assertR (decide (lconjugate < n))
  forRange 0 n () (fun conj _ =>
    if conj = lconjugate then pure ()
    else do
      let _ ← forFind 0 n (fun len => do
        let lchar ← rd text ((lconjugate + len) % n)
        let cchar ← rd text ((conj + len) % n)
        if lchar < cchar then pure (some ())
        else do
          assertR (decide (lchar = cchar))
          pure none)
      pure ())

/-- `test_lyndon_conjugate`.  src/tests/core_test.rs:60-84 -/
def testLyndonConjugate (bound log : Nat) : Res Unit :=
  forTestStrings bound log (fun text => do
    let p ← lyndonConjugate text
    conjugateOracle text p)

/-- The assertions of `test_border_array` on the array `border` returned for `text`.
src/tests/core_test.rs:92-98 -/
def borderOracle (text : List UInt8) (border : List Nat) : Res Unit := do
  let b0 ← rd border 0
  assertR (decide (b0 = 0))
  let b1 ← rd border 1
  assertR (decide (b1 = 0))
  forRange 2 text.length () (fun i _ => do
    let bi ← rd border i
    forRange 0 bi () (fun b _ => do
      let x ← rd text b
      let d ← usub i bi
      let y ← rd text (d + b)
      assertR (decide (x = y))))

/-- `test_border_array`.  src/tests/core_test.rs:86-100 -/
def testBorderArray (bound log : Nat) : Res Unit :=
  forTestStrings bound log (fun text => do
    let border ← borderArray text
    borderOracle text border)

/-- The assertions of `test_period` on the value `period` returned for `text`.
src/tests/core_test.rs:109-111 -/
def periodOracle (text : List UInt8) (period : Nat) : Res Unit := do
  let m ← usub text.length period
  forRange 0 m () (fun i _ => do
    let x ← rd text i
    let y ← rd text (i + period)
    assertR (decide (x = y)))

/-- `test_period`.  src/tests/core_test.rs:102-113 -/
def testPeriod (bound log : Nat) : Res Unit :=
  forTestStrings bound log (fun text => do
    let border ← borderArray text
    let period ← smallestPeriod border
    periodOracle text period)

/-- `test_compute_lz77`.  src/bin/count_z.rs:119-142 -/
def testComputeLz77 (sufsort : List UInt8 → List Nat) (bound log : Nat) : Res Unit :=
  forTestStrings bound log (fun text => do
    let sa := sufsort text
    let isa ← inversePermutation 2147483647 sa
    let psv ← computePsv sa
    let nsv ← computeNsv sa
    let phi ← computePhi sa
    let plcp ← computePlcp text phi
    let lcp ← computeLcp plcp sa
    let factors ← computeLz77 text sa isa lcp nsv psv
    let dec ← decodeLz77 factors
    assertR (decide (text = dec)))

/-- The loop of `test_fibonacci_number`, `for k in 0..hi`.  src/word.rs:95-97 -/
noncomputable def testFibonacciNumber (hi : Nat) : Res Unit :=
  forRange 0 hi () (fun k _ => do
    let w ← fibonacciWord (binet (k + 2)) k
    let n ← fibonacciNumber k
    assertR (decide (w.length = n)))

/-- `test_thue_morse_morphism`, `for k in 0..hi`.  src/word.rs:355-363 -/
def testThueMorseMorphism (hi : Nat) : Res Unit :=
  forRange 0 hi () (fun k _ => do
    let w ← thuemorseWord k
    let w' ← iterate2morphism k thuemorseMorphism
    assertR (decide (w = w')))

/-- `test_fibonacci_morphism`, `for k in 0..hi`.  src/word.rs:365-373.  The fuel of the morphism iteration is
one more than its size hint. -/
noncomputable def testFibonacciMorphism (hi : Nat) : Res Unit :=
  forRange 0 hi () (fun k _ => do
    let w ← fibonacciWord (binet (k + 2)) k
    let n ← fibonacciNumber k
    let w' ← iterateGeneralMorphism (n + 1) k fibonacciMorphism n
    assertR (decide (w = w')))

/-- The assertions of `test_binary_debrujin_word` on the word returned for `k`.  src/word.rs:580-584.
`str::find` is the search for an infix; the slices of the `str` cut at byte positions, which is always
allowed when `from_utf8` accepted a word of one-byte letters (not modelled separately). -/
def debruijnOracle (k : Nat) (word : List UInt8) : Res Unit := do
  if utf8Valid word = false then .error .unwrap
  else do
    let m ← usub word.length k
    forRange 0 m () (fun pos _ =>
      if word.length < pos + 1 + k then .error .index
      else
        let pattern := (word.drop pos).take (1 + k)
        if utf8Valid pattern = false then .error .unwrap
        else assertR (!decide (pattern <:+: word.drop (pos + 1))))

/-- `test_binary_debrujin_word`, `for k in 2..hi`.  src/word.rs:575-586.  The fuel of the generator is the
length of a de Bruijn word. -/
def testBinaryDebruijnWord (hi : Nat) : Res Unit :=
  forRange 2 hi () (fun k _ => do
    let word ← binaryDebruijnWord (2 ^ (k + 1)) k
    debruijnOracle k word)

/-- `test_mus_fibonacci`, `for i in 4..hi`.  src/bin/mus.rs:101-134 -/
noncomputable def testMusFibonacci (sufsort : List UInt8 → List Nat) (hi : Nat) : Res Unit :=
  forRange 4 hi () (fun i _ => do
    let text ← fibonacciWord (binet (i + 2)) i
    let mus ← musTool sufsort (text ++ [0])
    assertR (decide (mus.length = 2))
    let m0 ← rd mus 0
    let f2 ← fibonacciNumber (i - 2)
    let e0 ← usub f2 1
    assertR (decide (m0.1 = e0))
    let f3 ← fibonacciNumber (i - 3)
    assertR (decide (m0.2 = f3))
    let m1 ← rd mus 1
    let f1 ← fibonacciNumber (i - 1)
    let e1 ← usub f1 1
    assertR (decide (m1.1 = e1))
    assertR (decide (m1.2 = f2)))

/-- `test_attractor_period_doubling`, `for i in 5..hi`.  src/bin/is_stringattractor.rs:290-298 -/
def testAttractorPeriodDoubling (sufsort : List UInt8 → List Nat) (hi : Nat) : Res Unit :=
  forRange 5 hi () (fun i _ => do
    let text ← periodDoublingWord (i - 1)
    let p ← shl1 (i - 4)
    let a ← usub (3 * p) 1
    let q ← shl1 (i - 3)
    let b ← usub (3 * q) 1
    let r ← isAttractor sufsort (text ++ [0]) [a, b]
    assertR r)

/-- `test_attractor_fibonacci_attractor`, `for i in 3..hi`.  src/bin/is_stringattractor.rs:307-318 -/
noncomputable def testAttractorFibonacci (sufsort : List UInt8 → List Nat) (hi : Nat) : Res Unit :=
  forRange 3 hi () (fun i _ => do
    let f ← fibonacciNumber (i - 1)
    let a ← usub f 1
    let b ← usub f 2
    let text ← fibonacciWord (binet (i + 2)) i
    let r ← isAttractor sufsort (text ++ [0]) [a, b]
    assertR r)

end Verif.Model
