import Verif.Spec.PrintGp

/-!
# How the text of a loop is read

Blanks are ignored.  A loop is a sum of terms `c*g_i^(s)`: the integer `c` times the cycle on the edge `i` of the tree, on the sheet `s`.
-/

namespace Hcp.Spec

/-- `c*g_i^(s)`: the triple `(c, i, s)` -/
def loopTerm (t : List Char) : Option (Int × Nat × Nat) :=
  match t.span (· ≠ '*') with
  | (c, '*' :: 'g' :: '_' :: u) =>
    match u.span (· ≠ '^') with
    | (i, '^' :: '(' :: v) =>
      if v.getLast? = some ')' then
        (expo c).bind fun c => (digits i).bind fun i => (digits v.dropLast).map fun s => (c, i, s)
      else none
    | _ => none
  | _ => none

/-- a sum of such terms; nothing is written for the loop 0 -/
def readLoop (t : List Char) : Option (List (Int × Nat × Nat)) :=
  if t = [] then some [] else ((t.filter (· ≠ ' ')).splitOn '+').mapM loopTerm

end Hcp.Spec
