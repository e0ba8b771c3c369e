import Verif.Model.Mains

/-! # Command lines: what they mean

Declarations of options, the texts that denote a value, and the command lines a tool accepts.  Words of a command line are
lists of characters (Unicode; a shell can also pass other bytes, which are not considered). -/

namespace Verif.Spec.Cli

open Verif.Model (WordName)

/-- The fields of the `Args` structures. -/
inductive Field where
  | infilename | outfilename | prefixlength | useMatrix | noDollar | order
  | escapeSymbol | fromSymbols | toSymbols | isReversion | attractor | length | sigma
  | alphabetSize | onlyzero | human | k | name | help | version
  deriving DecidableEq, Repr

/-- The type of the value of an option. -/
inductive Kind where
  | str | usize | u8 | u64 | word
  deriving DecidableEq, Repr

/-- What an option does. -/
inductive Action where
  /-- a flag -/
  | setTrue
  /-- exactly one value, at most once -/
  | set (k : Kind)
  /-- exactly one value each time, collected -/
  | append (k : Kind)
  /-- one or more values each time, collected -/
  | appendMany (k : Kind)
  /-- `--help` or `--version`: print and exit with status 0 -/
  | print
  deriving DecidableEq, Repr

/-- A declared option. -/
structure Opt where
  field : Field
  short : Option Char
  long : Option (List Char)
  action : Action
  deriving DecidableEq, Repr

/-- A tool: its options and the fields that have to be given. -/
structure Tool where
  opts : List Opt
  required : List Field

/-- The value given to an option. -/
inductive Val where
  | on
  | str (s : List Char)
  | num (n : Nat)
  | word (n : WordName)
  deriving DecidableEq, Repr

/-! ## texts that denote values -/

/-- A decimal digit. -/
def IsDigit (c : Char) : Prop := 48 ≤ c.toNat ∧ c.toNat ≤ 57

/-- The number denoted by a sequence of digits, most significant first. -/
def numeral : List Char → Nat
  | [] => 0
  | c :: s => (c.toNat - 48) * 10 ^ s.length + numeral s

/-- `s` is one or more digits with the value `n`. -/
def Digits (s : List Char) (n : Nat) : Prop := s ≠ [] ∧ (∀ c ∈ s, IsDigit c) ∧ numeral s = n

/-- The names of the words, as written on the command line. -/
def wordText : WordName → String
  | .fibonacci => "fibonacci"
  | .fibonacciLyndonFactor => "fibonacci-lyndon-factor"
  | .tribonacci => "tribonacci"
  | .kolakoski => "kolakoski"
  | .thueMorse => "thue-morse"
  | .periodDoubling => "period-doubling"
  | .paperFolding => "paper-folding"
  | .quaternaryPaperFolding => "quaternary-paper-folding"
  | .binaryDeBrujin => "binary-de-brujin"
  | .power2 => "power2"
  | .vtm => "vtm"

/-- The text `s` denotes the value `v` of kind `k`: any text for a name; digits with an optional `+` for a number that has
to fit (64 bits, or one byte; a byte may also be written as minus zero); the exact name of a word. -/
def Denotes (k : Kind) (s : List Char) (v : Val) : Prop :=
  match k with
  | .str => v = .str s
  | .usize | .u64 => ∃ n, v = .num n ∧ n < 2 ^ 64 ∧ (Digits s n ∨ ∃ r, s = '+' :: r ∧ Digits r n)
  | .u8 => ∃ n, v = .num n ∧ n < 256 ∧
      (Digits s n ∨ (∃ r, s = '+' :: r ∧ Digits r n) ∨ (∃ r, s = '-' :: r ∧ Digits r n ∧ n = 0))
  | .word => ∃ n, v = .word n ∧ s = (wordText n).toList

/-! ## the accepted command lines -/

/-- A word that can only be an option: it begins with a dash and is not just one. -/
def OptionLike (s : List Char) : Prop := ∃ c r, s = '-' :: c :: r

/-- The kind of value an option takes, if any. -/
def Action.kind? : Action → Option Kind
  | .set k | .append k | .appendMany k => some k
  | .setTrue | .print => none

/-- The word that introduces options: short flags in one word, perhaps followed by an option with a value, or one long
option.  `Head t w fs tail`: the word `w` sets the flags `fs`, and `tail` is the option with a value, together with the text
attached to it, if there is one. -/
inductive Head (t : Tool) : List Char → List Field → Option (Opt × Option (List Char)) → Prop
  /-- `-abc` -/
  | flags (fs : List Opt) (cs : List Char) : fs ≠ [] → (∀ o ∈ fs, o ∈ t.opts ∧ o.action = .setTrue) →
      fs.map Opt.short = cs.map some → cs.head? ≠ some '-' → Head t ('-' :: cs) (fs.map Opt.field) none
  /-- `-abo` -/
  | opened (fs : List Opt) (cs : List Char) (o : Opt) (c : Char) : (∀ o ∈ fs, o ∈ t.opts ∧ o.action = .setTrue) →
      fs.map Opt.short = cs.map some → o ∈ t.opts → o.action.kind? ≠ none → o.short = some c →
      (cs ++ [c]).head? ≠ some '-' → Head t ('-' :: cs ++ [c]) (fs.map Opt.field) (some (o, none))
  /-- `-abovalue`, the value not beginning with an equality sign -/
  | attached (fs : List Opt) (cs : List Char) (o : Opt) (c : Char) (v : List Char) :
      (∀ o ∈ fs, o ∈ t.opts ∧ o.action = .setTrue) → fs.map Opt.short = cs.map some → o ∈ t.opts →
      o.action.kind? ≠ none → o.short = some c → (cs ++ [c]).head? ≠ some '-' → v ≠ [] → v.head? ≠ some '=' →
      Head t ('-' :: cs ++ c :: v) (fs.map Opt.field) (some (o, some v))
  /-- `-abo=value` -/
  | equals (fs : List Opt) (cs : List Char) (o : Opt) (c : Char) (v : List Char) :
      (∀ o ∈ fs, o ∈ t.opts ∧ o.action = .setTrue) → fs.map Opt.short = cs.map some → o ∈ t.opts →
      o.action.kind? ≠ none → o.short = some c → (cs ++ [c]).head? ≠ some '-' →
      Head t ('-' :: cs ++ c :: '=' :: v) (fs.map Opt.field) (some (o, some v))
  /-- `--flag` -/
  | longFlag (o : Opt) (l : List Char) : o ∈ t.opts → o.action = .setTrue → o.long = some l →
      Head t ('-' :: '-' :: l) [o.field] none
  /-- `--option` -/
  | longOpened (o : Opt) (l : List Char) : o ∈ t.opts → o.action.kind? ≠ none → o.long = some l →
      Head t ('-' :: '-' :: l) [] (some (o, none))
  /-- `--option=value` -/
  | longEquals (o : Opt) (l v : List Char) : o ∈ t.opts → o.action.kind? ≠ none → o.long = some l →
      Head t ('-' :: '-' :: l ++ '=' :: v) [] (some (o, some v))

/-- The settings made by a word with the values that belong to it. -/
inductive Group (t : Tool) : List (List Char) → List (Field × Val) → Prop
  | flags (w : List Char) (fs : List Field) : Head t w fs none → Group t [w] (fs.map fun f => (f, .on))
  | attached (w : List Char) (fs : List Field) (o : Opt) (s : List Char) (k : Kind) (v : Val) :
      Head t w fs (some (o, some s)) → o.action.kind? = some k → Denotes k s v →
      Group t [w] ((fs.map fun f => (f, .on)) ++ [(o.field, v)])
  | one (w : List Char) (fs : List Field) (o : Opt) (s : List Char) (k : Kind) (v : Val) :
      Head t w fs (some (o, none)) → o.action.kind? = some k → ¬ OptionLike s → Denotes k s v →
      Group t [w, s] ((fs.map fun f => (f, .on)) ++ [(o.field, v)])
  | many (w : List Char) (fs : List Field) (o : Opt) (ss : List (List Char)) (k : Kind) (vs : List Val) :
      Head t w fs (some (o, none)) → o.action = .appendMany k → ss ≠ [] → (∀ s ∈ ss, ¬ OptionLike s) →
      List.Forall₂ (Denotes k) ss vs →
      Group t (w :: ss) ((fs.map fun f => (f, .on)) ++ vs.map fun v => (o.field, v))

/-- A field that may be set several times. -/
def Repeatable (t : Tool) (f : Field) : Prop :=
  ∃ o ∈ t.opts, o.field = f ∧ ((∃ k, o.action = .append k) ∨ ∃ k, o.action = .appendMany k)

/-- The command line `argv` (without the name of the program) is acceptable and makes the settings `occ`, in order: it is
a sequence of groups, optionally followed by `--`; only lists of values may be set several times, and everything required
is there. -/
def Line (t : Tool) (argv : List (List Char)) (occ : List (Field × Val)) : Prop :=
  ∃ gs : List (List (List Char) × List (Field × Val)), (∀ g ∈ gs, Group t g.1 g.2) ∧
    (argv = gs.flatMap Prod.fst ∨ argv = gs.flatMap Prod.fst ++ [['-', '-']]) ∧
    occ = gs.flatMap Prod.snd ∧
    (∀ i j, i < j → (hj : j < occ.length) → (hi : i < occ.length) → occ[i].1 = occ[j].1 → Repeatable t occ[i].1) ∧
    (∀ f ∈ t.required, ∃ v, (f, v) ∈ occ)

end Verif.Spec.Cli
