import Mathlib.Data.Int.ModEq

/-!
# Specification of the intersection matrix

`a, b` are shifts (sheets modulo `m`), `s` the shift number of a pair of edges.
-/

namespace Hcp.Spec

/-- `+1` if `d ≡ sp`, `-1` if `d ≡ sm` modulo `m`, `0` otherwise -/
def pm (m : Nat) (d sp sm : Int) : Int :=
  if (m : Int) ∣ d - sp then 1 else if (m : Int) ∣ d - sm then -1 else 0

/-- how two edges `(a,b)`, `(c,d)` taken in this order meet -/
inductive Meet where
  | no
  | startPos (s : Int)
  | startNeg (s : Int)
  | endStart (s : Int)

/-- intersection number of the loop on the first edge lifted to sheet `a` with the
loop on the second one lifted to sheet `b`. -/
def Meet.number (m : Nat) (a b : Int) : Meet → Int
  | .no => 0
  | .startPos s => pm m (b - a) (1 - s) (-s)
  | .startNeg s => pm m (b - a) (-s) (-1 - s)
  | .endStart s => pm m (b - a) (-s) (1 - s)

/-- self intersections of the lifts of one loop: consecutive sheets meet once -/
def selfNumber (a b : Int) : Int := if b = a + 1 then 1 else if a = b + 1 then -1 else 0

end Hcp.Spec

namespace Hcp.Spec

/-- the way the edges `ek`, `el` (pairs of vertices) meet, `sab`/`sbd` being the shift numbers
for a common start and for "end of `ek` = start of `el`", `neg` telling whether `ek` is on the
right of `el` at a common start. -/
def meetOf (ek el : Nat × Nat) (sab sbd : Int) (neg : Bool) : Meet :=
  if el.1 = ek.1 then (if neg then .startNeg sab else .startPos sab)
  else if el.1 = ek.2 then .endStart sbd
  else .no

end Hcp.Spec
