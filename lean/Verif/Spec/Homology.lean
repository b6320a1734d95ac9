import Verif.Spec.Edge

/-!
# Vocabulary for homology loops

A loop is a list of terms `(coefficient, (edge, sheet))`.
-/

namespace Hcp.Spec

/-- a formal sum of lifted edge loops -/
abbrev Chain := List (Int × (Nat × Nat))

/-- coefficient of the loop on edge `k` lifted to sheet `s` -/
def Chain.coeff (x : Chain) (k s : Nat) : Int :=
  (x.map fun t => if t.2 = (k, s) then t.1 else 0).sum

/-- bilinear extension of an intersection number `I` of lifted edge loops -/
def Chain.pair (I : Nat × Nat → Nat × Nat → Int) (x y : Chain) : Int :=
  (x.map fun t => (y.map fun u => t.1 * u.1 * I t.2 u.2).sum).sum

end Hcp.Spec
