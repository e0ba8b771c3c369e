import Verif.Spec.LyndonFile

/-! # Specification vocabulary: result lines and their readers

The README promises lines that the plotting tool sqlplot can read: `RESULT` followed by `key=value` fields.
`compute_stats.sh` reads them with `sed`. -/

namespace Verif.Spec

/-- The bytes of a file name. -/
def nameBytes (s : String) : List UInt8 := s.toUTF8.data.toList

/-- Space, tab, line feed, vertical tab, form feed, carriage return. -/
def isBlank (c : UInt8) : Bool := c == 32 || (9 ≤ c && c ≤ 13)

/-- The blocks between the blanks, empty ones included. -/
def lineBlocks : List UInt8 → List (List UInt8)
  | [] => [[]]
  | c :: l =>
    if isBlank c then [] :: lineBlocks l
    else match lineBlocks l with
      | b :: bs => (c :: b) :: bs
      | [] => [[c]]

/-- The words separated by blanks. -/
def lineWords (l : List UInt8) : List (List UInt8) := (lineBlocks l).filter (· ≠ [])

/-- A field is split at its first `=`. -/
def keyValue (f : List UInt8) : List UInt8 × List UInt8 :=
  (f.takeWhile (· ≠ 61), (f.dropWhile (· ≠ 61)).drop 1)

/-- The fields of a result line, in order. -/
def resultFields (line : List UInt8) : Option (List (List UInt8 × List UInt8)) :=
  match lineWords line with
  | [] => none
  | r :: fs => if r = ascii "RESULT" then some (fs.map keyValue) else none

/-- What `key\([class]\+\)` followed by the literal `sep` captures at the beginning of `l`. -/
def sedMatch (key : List UInt8) (cls : UInt8 → Bool) (sep l : List UInt8) : Option (List UInt8) :=
  if key.isPrefixOf l then
    let d := (l.drop key.length).takeWhile cls
    if d ≠ [] ∧ sep.isPrefixOf ((l.drop key.length).dropWhile cls) then some d else none
  else none

/-- What `.*key\([class]\+\)sep.*` captures: `.*` is greedy, so the last match counts.  (`sep` starts with a byte outside
the class or is empty, so the longest block of the class is the only candidate.) -/
def sedLast (key : List UInt8) (cls : UInt8 → Bool) (sep : List UInt8) : List UInt8 → Option (List UInt8)
  | [] => sedMatch key cls sep []
  | c :: l => (sedLast key cls sep l).or (sedMatch key cls sep (c :: l))

/-- `sed 's@.*key\([class]\+\)sep.*@\1@'` on a line: a line without a match stays. -/
def sed (key : List UInt8) (cls : UInt8 → Bool) (sep line : List UInt8) : List UInt8 :=
  (sedLast key cls sep line).getD line

/-- `[0-9]` -/
def isDigit (c : UInt8) : Bool := 48 ≤ c && c ≤ 57

/-- `[0-9\.]` -/
def isDigitOrDot (c : UInt8) : Bool := isDigit c || c == 46

/-- The name of a file without its directories. -/
def basename (name : List UInt8) : List UInt8 := (name.reverse.takeWhile (· ≠ 47)).reverse

end Verif.Spec
