import Verif.Spec.Edge
import Mathlib.Analysis.SpecialFunctions.Pow.Real
import Verif.Spec.Intersection

/-!
# Sheets around a branch point

Near a branch point `v`, the function `y` on an edge leaving `v` in direction `d` (a nonzero complex number; the
point of parameter `τ` is `v + d τ`) behaves like `Y (2τ)^(1/m)`.  Continuing the branch of the edge `l` by turning
counterclockwise around `v` by the angle `θ` multiplies it by `exp(i θ / m)`; at equal distance
of `v` one finds a branch of the edge `k`.
-/

namespace Hcp.Spec

/-- Turning counterclockwise by `θ` moves direction `dl` onto direction `dk`. -/
def Turns (dk dl : ℂ) (θ : ℝ) : Prop := dk / dl = (‖dk / dl‖ : ℂ) * Complex.exp (θ * Complex.I)

/-- The branch of limit `Yl` on the edge of direction `dl`, continued counterclockwise by the angle `θ`, is `ζ^S`
times the branch of limit `Yk` on the edge of direction `dk`. -/
def Continues (m : Nat) (dk dl Yk Yl : ℂ) (θ : ℝ) (S : Int) : Prop :=
  Yl * Complex.exp (θ * Complex.I / m) * (‖dk‖ ^ ((m : ℝ)⁻¹) : ℝ) =
    zeta m ^ S * Yk * (‖dl‖ ^ ((m : ℝ)⁻¹) : ℝ)

/-- `S` is the number of sheets between the branch stored for the edge `l` and the one stored for the edge `k`
when going counterclockwise from `l` to `k` around their common point, by less than a full turn. -/
def SheetGap (m : Nat) (dk dl Yk Yl : ℂ) (S : Int) : Prop :=
  ∃ θ : ℝ, 0 < θ ∧ θ < 2 * Real.pi ∧ Turns dk dl θ ∧ Continues m dk dl Yk Yl θ S

/-- local intersection number at a common start point of the loop on the first edge on sheet `a` and of the loop
on the second edge on sheet `b`, for a gap of `S` sheets -/
def localNumber (m : Nat) (a b S : Int) : Int := pm m (b - a) (1 - S) (-S)

end Hcp.Spec
