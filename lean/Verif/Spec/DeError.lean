import Verif.Spec.Fns
import Mathlib.MeasureTheory.Integral.IntervalIntegral.Basic

/-!
# Specification of the double-exponential integration of an edge (C53, C54, C55)
-/

namespace Hcp.Spec

open MeasureTheory

/-- the integral of the differential `(i, j)` over the edge, in the coordinate of the edge: `∫_{-1}^{1} t^i dt / (y(t) (1 - t²)^(1/m))^j` -/
noncomputable def edgeIntegral (m n1 d : Nat) (u : Nat → ℂ) (i j : Nat) : ℂ :=
  ∫ t in (-1 : ℝ)..1, (t : ℂ) ^ i / (edgeY m n1 d u t * ((1 - t ^ 2 : ℝ) : ℂ) ^ ((m : ℂ)⁻¹)) ^ j

/-- its trapezoidal sum with step `h` over the nodes `|k| < N`, after the change of variable `t = tanh (l sinh x)` -/
noncomputable def trapSum (m n1 d : Nat) (u : Nat → ℂ) (l : ℝ) (i j : Nat) (h : ℝ) (N : Nat) : ℂ :=
  h * ∑ k ∈ Finset.Ioo (-(N : ℤ)) N, deTerm m n1 d u l i j (k * h)

/-- the change of variable at a complex point -/
noncomputable def deZ (l : ℝ) (t : ℂ) : ℂ := Complex.tanh (l * Complex.sinh t)

/-- no preimage of the points in the strip `|Im t| < ρ` -/
def FreeStrip (l ρ : ℝ) (d : Nat) (u : Nat → ℂ) : Prop := ∀ k < d, ∀ t : ℂ, |t.im| < ρ → deZ l t ≠ u k

/-- size of the curve dependent part of the integrand: `|z|^i / (∏ |z - u_k|)^(j/m)` -/
noncomputable def edgeSize (m d i j : Nat) (u : Nat → ℂ) (z : ℂ) : ℝ := ‖z‖ ^ i / (∏ k ∈ Finset.range d, ‖z - u k‖) ^ (j / m : ℝ)

end Hcp.Spec
