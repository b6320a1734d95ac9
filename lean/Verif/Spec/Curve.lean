import Mathlib.Data.Int.GCD

/-!
# Specification: holomorphic differentials of `y^m = f(x)`, `deg f = n`

The differentials `x^(i-1) dx / y^j` with `1 ≤ j ≤ m-1`, `1 ≤ i` and
`n j - m i ≥ gcd(m,n)` form a basis of the space of holomorphic differentials
(Molin–Neurohr, Prop. 3.8); its dimension is the genus
`((m-1)(n-1) - gcd(m,n) + 1)/2`.
-/

namespace Hcp.Spec

/-- `x^(i-1) dx / y^j` is holomorphic. -/
def IsHolomorphic (m n i j : Int) : Prop :=
  1 ≤ i ∧ 1 ≤ j ∧ j ≤ m - 1 ∧ n * j - m * i ≥ (Int.gcd m n : Int)

/-- number of edges of the tree: all `n` points are joined, or all but one when `m` divides `n` (the point at infinity is then not a branch point, and the paths around
the last point are combinations of the others). -/
def EdgeCount (m n N : Nat) : Prop := N + 1 = n ∨ (m ∣ n ∧ N + 2 = n)

/-- the number of edges used by the program: one less when `m` divides `n` -/
def TreeSize (m n N : Nat) : Prop := (m ∣ n → N + 2 = n) ∧ (¬ m ∣ n → N + 1 = n)

/-- `g` is the genus given by Riemann–Hurwitz. -/
def IsGenus (m n g : Int) : Prop :=
  2 * g = (m - 1) * (n - 1) - ((Int.gcd m n : Int) - 1)

end Hcp.Spec
