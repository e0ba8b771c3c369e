/-! # Specification vocabulary: reverting an escaped stream -/

namespace Verif.Spec

/-- `s` is an escaped form of `o`: read from the left, `s` consists of letters other than the escape
symbol (which stand for themselves), doubled escape symbols (which stand for one) and pairs of the escape
symbol and the `i`-th symbol of `to` (which stand for the `i`-th symbol of `from`). -/
inductive Unescapes (esc : UInt8) (froms tos : List UInt8) : List UInt8 → List UInt8 → Prop
  | nil : Unescapes esc froms tos [] []
  | plain {c s o} (h : c ≠ esc) (t : Unescapes esc froms tos s o) :
      Unescapes esc froms tos (c :: s) (c :: o)
  | double {s o} (t : Unescapes esc froms tos s o) : Unescapes esc froms tos (esc :: esc :: s) (esc :: o)
  | pair {i : Nat} {x y s o} (hx : froms[i]? = some x) (hy : tos[i]? = some y) (t : Unescapes esc froms tos s o) :
      Unescapes esc froms tos (esc :: y :: s) (x :: o)

end Verif.Spec
