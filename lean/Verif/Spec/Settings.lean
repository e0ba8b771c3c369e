import Verif.Spec.Cli

/-! # What the settings of a command line mean for the program -/

namespace Verif.Spec.Cli

/-- The text given for the field `f`, `none` if the field is not set. -/
def StrIs (occ : List (Field × Val)) (f : Field) : Option String → Prop
  | some s => (f, .str s.toList) ∈ occ
  | none => ∀ v, (f, v) ∉ occ

/-- The number given for the field `f`, or `d` if the field is not set. -/
def NumIs (occ : List (Field × Val)) (f : Field) (d n : Nat) : Prop :=
  (f, .num n) ∈ occ ∨ ((∀ v, (f, v) ∉ occ) ∧ n = d)

/-- Whether the flag is set. -/
def FlagIs (occ : List (Field × Val)) (f : Field) (b : Bool) : Prop := b = true ↔ (f, .on) ∈ occ

/-- The numbers given for the field `f`, in the order given. -/
def NumsAre (occ : List (Field × Val)) (f : Field) (ns : List Nat) : Prop :=
  (occ.filter fun p => decide (p.1 = f)).map Prod.snd = ns.map Val.num

end Verif.Spec.Cli
