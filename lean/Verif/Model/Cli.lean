import Verif.Model.ResultLines
import Verif.Model.GenArtificial
import Verif.Model.Generators
import Verif.Spec.Cli

/-! # Model of the command lines

The `Args` structures of the tools, and the parser the attribute macros of `clap` (version 4) make of them.  `clap` is not
part of the repository; its parser is modelled by its documented behaviour: the words are handled from left to right, the
first error ends the program with status 2 (a message goes to the standard error), `--help` and `--version` end it with
status 0.  `short` names an option by the first letter of the field, `long` by the field with dashes for underscores,
`value_enum` a value by the variant in kebab case.  Words are Unicode texts. -/

namespace Verif.Model.Cli

open Verif Spec.Cli

/-! ## values -/

/-- `<integer>::from_str` on the digits, with the check for overflow at every step (`bound` is one more than the largest
value). -/
def digitsLoop (bound : Nat) : List Char → Nat → Option Nat
  | [], n => some n
  | c :: s, n =>
    if 48 ≤ c.toNat ∧ c.toNat ≤ 57 then
      if n * 10 + (c.toNat - 48) < bound then digitsLoop bound s (n * 10 + (c.toNat - 48)) else none
    else none

/-- `usize::from_str`, `u64::from_str`: a leading `+` is dropped; the empty text and a lone sign are errors. -/
def parseUnsigned (bound : Nat) : List Char → Option Nat
  | [] => none
  | ['+'] => none
  | '+' :: s => digitsLoop bound s 0
  | s => digitsLoop bound s 0

/-- `i64::from_str`. -/
def parseI64 : List Char → Option Int
  | [] => none
  | ['+'] => none
  | ['-'] => none
  | '+' :: s => (digitsLoop (2 ^ 63) s 0).map Int.ofNat
  | '-' :: s => (digitsLoop (2 ^ 63 + 1) s 0).map fun n => - Int.ofNat n
  | s => (digitsLoop (2 ^ 63) s 0).map Int.ofNat

/-- All variants of `WordName`.  src/bin/word.rs:24-37 -/
def allWords : List WordName :=
  [.fibonacci, .fibonacciLyndonFactor, .tribonacci, .kolakoski, .thueMorse, .periodDoubling, .paperFolding,
    .quaternaryPaperFolding, .binaryDeBrujin, .power2, .vtm]

/-- The value parser `clap` chooses for a type: `String`, `usize` (by `FromStr`), `u8` (an `i64` in range), `u64`, and an
enumeration. -/
def parseVal : Kind → List Char → Option Val
  | .str, s => some (.str s)
  | .usize, s => (parseUnsigned (2 ^ 64) s).map .num
  | .u64, s => (parseUnsigned (2 ^ 64) s).map .num
  | .u8, s =>
    match parseI64 s with
    | none => none
    | some i => if 0 ≤ i ∧ i ≤ 255 then some (.num i.toNat) else none
  | .word, s => (allWords.find? fun n => decide (s = (wordText n).toList)).map .word

/-! ## the parser -/

/-- State of the parser: the settings so far, the option waiting for values and whether it has got one, and whether `--`
was seen. -/
structure St where
  occ : List (Field × Val)
  pend : Option (Opt × Bool)
  trailing : Bool
  deriving DecidableEq

/-- The option waiting for values is complete, or the program ends. -/
def resolve (st : St) : Except Nat St :=
  match st.pend with
  | some (_, false) => .error 2
  | _ => .ok { st with pend := none }

/-- Whether the field was set before. -/
def present (st : St) (f : Field) : Bool := st.occ.any fun p => decide (p.1 = f)

/-- An option that must not be given twice. -/
def Action.once : Action → Bool
  | .set _ | .setTrue => true
  | _ => false

/-- A value arrives. -/
def store (st : St) (o : Opt) (s : List Char) : Except Nat St :=
  match o.action.kind? with
  | none => .error 2
  | some k =>
    match parseVal k s with
    | none => .error 2
    | some v =>
      if Action.once o.action && present st o.field then .error 2
      else .ok { st with occ := st.occ ++ [(o.field, v)] }

/-- An option without value. -/
def react (st : St) (o : Opt) : Except Nat St :=
  match o.action with
  | .print => .error 0
  | _ => if present st o.field then .error 2 else .ok { st with occ := st.occ ++ [(o.field, .on)] }

/-- The options of a tool, and those `clap` adds. -/
def helpOpts : List Opt :=
  [⟨.help, some 'h', some "help".toList, .print⟩, ⟨.version, some 'V', some "version".toList, .print⟩]

/-- The first option with this letter. -/
def findShort (t : Tool) (c : Char) : Option Opt := (t.opts ++ helpOpts).find? fun o => decide (o.short = some c)

/-- The first option with this name. -/
def findLong (t : Tool) (l : List Char) : Option Opt := (t.opts ++ helpOpts).find? fun o => decide (o.long = some l)

/-- The name and the text after the first equality sign. -/
def splitEq : List Char → List Char × Option (List Char)
  | [] => ([], none)
  | c :: s => if c = '=' then ([], some s) else ((c :: (splitEq s).1), (splitEq s).2)

/-- A word beginning with two dashes. -/
def stepLong (t : Tool) (st : St) (body : List Char) : Except Nat St :=
  match findLong t (splitEq body).1 with
  | none => .error 2
  | some o =>
    match o.action.kind?, (splitEq body).2 with
    | some _, some v =>
      match resolve st with
      | .error e => .error e
      | .ok st => store st o v
    | some _, none =>
      match resolve st with
      | .error e => .error e
      | .ok st => .ok { st with pend := some (o, false) }
    | none, some _ => .error 2
    | none, none =>
      match resolve st with
      | .error e => .error e
      | .ok st => react st o

/-- The text attached to a short option, without the equality sign. -/
def attachedText : List Char → Option (List Char)
  | [] => none
  | '=' :: v => some v
  | v => some v

/-- A word beginning with one dash: letter by letter. -/
def stepShort (t : Tool) : St → List Char → Except Nat St
  | st, [] => .ok st
  | st, c :: r =>
    match findShort t c with
    | none => .error 2
    | some o =>
      match resolve st with
      | .error e => .error e
      | .ok st =>
        match o.action.kind? with
        | some _ =>
          match attachedText r with
          | some v => store st o v
          | none => .ok { st with pend := some (o, false) }
        | none =>
          match react st o with
          | .error e => .error e
          | .ok st => stepShort t st r

/-- Any other word: a value of the waiting option, or an error because there are no positional arguments. -/
def stepValue (st : St) (s : List Char) : Except Nat St :=
  match st.pend with
  | none => .error 2
  | some (o, _) =>
    match store { st with pend := none } o s with
    | .error e => .error e
    | .ok st =>
      match o.action with
      | .appendMany _ => .ok { st with pend := some (o, true) }
      | _ => .ok st

/-- One word of the command line. -/
def step (t : Tool) (st : St) (s : List Char) : Except Nat St :=
  if st.trailing then .error 2
  else match s with
    | ['-', '-'] => .ok { st with trailing := true }
    | '-' :: '-' :: body => stepLong t st body
    | '-' :: c :: r => stepShort t st (c :: r)
    | s => stepValue st s

/-- All words. -/
def steps (t : Tool) : St → List (List Char) → Except Nat St
  | st, [] => .ok st
  | st, s :: argv =>
    match step t st s with
    | .error e => .error e
    | .ok st => steps t st argv

/-- `Args::parse`: the settings in order, or the exit status. -/
def parse (t : Tool) (argv : List (List Char)) : Except Nat (List (Field × Val)) :=
  match steps t ⟨[], none, false⟩ argv with
  | .error e => .error e
  | .ok st =>
    match resolve st with
    | .error e => .error e
    | .ok st => if t.required.all fun f => present st f then .ok st.occ else .error 2

/-! ## the fields of the structures -/

/-- The text of a setting of field `f`. -/
def asStr (f : Field) (p : Field × Val) : Option String :=
  match p.2 with
  | .str s => if p.1 = f then some (String.ofList s) else none
  | _ => none

/-- The number of a setting of field `f`. -/
def asNum (f : Field) (p : Field × Val) : Option Nat :=
  match p.2 with
  | .num n => if p.1 = f then some n else none
  | _ => none

/-- The word of a setting of field `f`. -/
def asWord (f : Field) (p : Field × Val) : Option WordName :=
  match p.2 with
  | .word n => if p.1 = f then some n else none
  | _ => none

/-- A field of type `Option<String>`. -/
def getStr (occ : List (Field × Val)) (f : Field) : Option String := occ.findSome? (asStr f)

/-- A number with a default. -/
def getNum (occ : List (Field × Val)) (f : Field) (dflt : Nat) : Nat := (occ.findSome? (asNum f)).getD dflt

/-- A flag. -/
def getFlag (occ : List (Field × Val)) (f : Field) : Bool := occ.any fun p => decide (p.1 = f)

/-- A vector of numbers. -/
def getNums (occ : List (Field × Val)) (f : Field) : List Nat := occ.filterMap (asNum f)

/-- The name of a word (required, so there always is one). -/
def getWord (occ : List (Field × Val)) (f : Field) : WordName := (occ.findSome? (asWord f)).getD .fibonacci

/-! ## the tools -/

/-- `#[arg(short, long)] infilename: Option<String>` -/
def optIn : Opt := ⟨.infilename, some 'i', some "infilename".toList, .set .str⟩
/-- `#[arg(short, long)] outfilename: Option<String>` -/
def optOut : Opt := ⟨.outfilename, some 'o', some "outfilename".toList, .set .str⟩
/-- `#[arg(short, long, ..)] prefixlength: usize` -/
def optPrefix : Opt := ⟨.prefixlength, some 'p', some "prefixlength".toList, .set .usize⟩
/-- `#[arg(short, long)] use_matrix: bool`.  src/bin/bwt.rs:30-31 -/
def optMatrix : Opt := ⟨.useMatrix, some 'u', some "use-matrix".toList, .setTrue⟩
/-- `#[arg(short, long)] no_dollar: bool`.  src/bin/bwt.rs:34-35 -/
def optNoDollar : Opt := ⟨.noDollar, some 'n', some "no-dollar".toList, .setTrue⟩
/-- `#[arg(short, long, default_value_t = 0)] order: usize`.  src/bin/entropy.rs:156-157 -/
def optOrder : Opt := ⟨.order, some 'o', some "order".toList, .set .usize⟩

/-- src/bin/bwt.rs:14-36 -/
def bwtArgs : Tool := ⟨[optIn, optOut, optPrefix, optMatrix, optNoDollar], []⟩
/-- src/bin/count_lexparse.rs:47-61 -/
def countLexparseArgs : Tool := ⟨[optIn, optOut, optPrefix], []⟩
/-- src/bin/count_r.rs:14-32 -/
def countRArgs : Tool := ⟨[optIn, optPrefix, optMatrix, optNoDollar], []⟩
/-- src/bin/count_runs.rs:12-18 -/
def countRunsArgs : Tool := ⟨[optIn], []⟩
/-- src/bin/count_sigma.rs:35-45 -/
def countSigmaArgs : Tool := ⟨[optIn, optPrefix], []⟩
/-- src/bin/count_z.rs:148-162 -/
def countZArgs : Tool := ⟨[optIn, optPrefix, optOut], []⟩
/-- src/bin/entropy.rs:144-158, src/bin/entropy_kmer.rs:127-141 -/
def entropyArgs : Tool := ⟨[optIn, optPrefix, optOrder], []⟩
/-- src/bin/escape.rs:18-48 -/
def escapeArgs : Tool :=
  ⟨[optIn, optOut, optPrefix, ⟨.escapeSymbol, some 'e', some "escape-symbol".toList, .set .u8⟩,
    ⟨.fromSymbols, some 'f', some "from-symbols".toList, .append .u8⟩,
    ⟨.toSymbols, some 't', some "to-symbols".toList, .append .u8⟩,
    ⟨.isReversion, none, some "is-reversion".toList, .setTrue⟩], []⟩
/-- src/bin/is_stringattractor.rs:143-160 -/
def isStringattractorArgs : Tool :=
  ⟨[optIn, optPrefix, ⟨.attractor, some 'a', some "attractor".toList, .appendMany .u64⟩], []⟩
/-- src/bin/lyndonfactorization.rs:15-29, src/bin/reverse.rs:12-26 -/
def lyndonfactorizationArgs : Tool := ⟨[optIn, optOut, optPrefix], []⟩
/-- src/bin/lyndonwords.rs:8-22 -/
def lyndonwordsArgs : Tool :=
  ⟨[⟨.length, some 'l', none, .set .usize⟩, ⟨.sigma, some 's', none, .set .usize⟩, optOut], []⟩
/-- src/bin/mtf.rs:55-65 -/
def mtfArgs : Tool := ⟨[optIn, optOut], []⟩
/-- src/bin/mus.rs:13-23 -/
def musArgs : Tool := ⟨[optIn, optPrefix], []⟩
/-- src/bin/randomstring.rs:11-25 -/
def randomstringArgs : Tool :=
  ⟨[optOut, ⟨.alphabetSize, some 'a', some "alphabet-size".toList, .set .usize⟩, optPrefix], [.alphabetSize]⟩
/-- src/bin/reverse.rs:12-26 -/
def reverseArgs : Tool := ⟨[optIn, optOut, optPrefix], []⟩
/-- src/bin/rle.rs:105-123.  Two options claim `-o`, and `-h` is also claimed by the automatic help: a build with debug
assertions panics in `parse`; a release build takes the first declaration. -/
def rleArgs : Tool :=
  ⟨[optIn, optOut, ⟨.onlyzero, some 'o', some "onlyzero".toList, .setTrue⟩,
    ⟨.human, some 'h', some "human".toList, .setTrue⟩], []⟩
/-- src/bin/word.rs:9-22 -/
def wordArgs : Tool :=
  ⟨[⟨.k, some 'k', none, .set .u8⟩, ⟨.name, some 'n', some "name".toList, .set .word⟩, optOut], [.k, .name]⟩

/-- The tools with options. -/
def tools : List Tool :=
  [bwtArgs, countLexparseArgs, countRArgs, countRunsArgs, countSigmaArgs, countZArgs, entropyArgs, escapeArgs,
    isStringattractorArgs, lyndonfactorizationArgs, lyndonwordsArgs, mtfArgs, musArgs, randomstringArgs, reverseArgs,
    rleArgs, wordArgs]

/-- The assertion `clap` makes about a declaration in builds with debug assertions: no letter and no name twice. -/
def debugAsserts (t : Tool) : Bool :=
  decide (((t.opts ++ helpOpts).filterMap Opt.short).Nodup ∧ ((t.opts ++ helpOpts).filterMap Opt.long).Nodup)

/-- `Args::parse` in either kind of build; the panic of `clap` is `Panic.assert`. -/
def parseIn (m : Build) (t : Tool) (argv : List (List Char)) : Res (Except Nat (List (Field × Val))) :=
  if m = .checked ∧ debugAsserts t = false then .error .assert else .ok (parse t argv)

end Verif.Model.Cli
