import Mathlib.Analysis.SpecialFunctions.Pow.Complex
import Mathlib.Order.Interval.Finset.Nat

/-!
# Vocabulary for the elementary integrals of an edge
-/

namespace Hcp.Spec

/-- The differentials are listed block after block; block number `k` has `ni[k]` elements
`x^i dx / y^(j+k)`, `0 ≤ i < ni[k]`.  `diffOf ni j r = (i, exponent of y)` for the element number `r`. -/
def diffOf : List Nat → Nat → Nat → Nat × Nat
  | [], j, r => (r, j)
  | n :: rest, j, r => if r < n then (r, j) else diffOf rest (j + 1) (r - n)

/-- `exp(2 i pi / m)` -/
noncomputable def zeta (m : Nat) : ℂ := Complex.exp (2 * Real.pi * Complex.I / m)

/-- the point of parameter `u` on the segment from `a` (`u = -1`) to `b` (`u = 1`). -/
noncomputable def edgePt (a b : ℂ) (u : ℂ) : ℂ := (a + b) / 2 + u * ((b - a) / 2)

/-- `y(t) = ∏_{k<n1} (u_k - t)^(1/m) ∏_{n1≤k<d} (t - u_k)^(1/m)`, principal roots. -/
noncomputable def edgeY (m n1 d : Nat) (u : Nat → ℂ) (t : ℂ) : ℂ :=
  (∏ k ∈ Finset.range n1, (u k - t) ^ ((m : ℂ)⁻¹)) *
    ∏ k ∈ Finset.Ico n1 d, (t - u k) ^ ((m : ℂ)⁻¹)

/-- The numbers stored for the edge from `x_a` to `x_b`, in the order of the array: the other branch points in the
coordinate of the edge, `(b-a)/2`, `(a+b)/(b-a)`, the constant, the limits at both ends. -/
structure EdgeData (m n : Nat) (x : Nat → ℂ) (a b n1 : Nat) (u : Nat → ℂ) : Prop where
  n1_le : n1 ≤ n - 2
  /-- `u_0 … u_{n-3}` are the coordinates of the other branch points, each of them once -/
  pts : ∃ τ : Nat → Nat, Set.BijOn τ (Set.Iio (n - 2)) {k | k < n ∧ k ≠ a ∧ k ≠ b} ∧
    ∀ i < n - 2, edgePt (x a) (x b) (u i) = x (τ i)
  ba2 : u (n - 2) = (x b - x a) / 2
  ab : u (n - 1) = (x b + x a) / (x b - x a)
  /-- `C y(t) (1 - t²)^(1/m)` is an `m`-th root of `∏ (x(t) - x_k)` -/
  eqn : ∀ t, (u n * edgeY m n1 (n - 2) u t) ^ m * (1 - t ^ 2) =
    ∏ k ∈ Finset.range n, (edgePt (x a) (x b) t - x k)
  ya : u (n + 1) = u n * edgeY m n1 (n - 2) u (-1)
  yb : u (n + 2) = u n * edgeY m n1 (n - 2) u 1

end Hcp.Spec
