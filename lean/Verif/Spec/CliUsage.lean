import Verif.Spec.Cli

/-! # The options of the tools as the help shows them -/

namespace Verif.Spec.Cli

/-- What the value of an option is. -/
def kindText : Kind → String
  | .str => "text"
  | .usize => "0..2^64-1"
  | .u8 => "0..255"
  | .u64 => "0..2^64-1"
  | .word => "word name"

/-- An option as a line of help: the ways to write it, its values and whether it may be repeated. -/
def optText (o : Opt) : String :=
  (match o.short with | some c => String.ofList ['-', c] | none => "") ++
  (match o.short, o.long with | some _, some _ => "," | _, _ => "") ++
  (match o.long with | some l => String.ofList ('-' :: '-' :: l) | none => "") ++
  match o.action with
  | .setTrue => ""
  | .set k => " <" ++ kindText k ++ ">"
  | .append k => " <" ++ kindText k ++ "> repeatable"
  | .appendMany k => " <" ++ kindText k ++ ">... repeatable"
  | .print => " (print)"

/-- The options and the options that must be given. -/
def usageOf (t : Tool) : List String × List String :=
  (t.opts.map optText, (t.opts.filter fun o => t.required.contains o.field).map optText)

end Verif.Spec.Cli
