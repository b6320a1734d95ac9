import Verif.Spec.Edge
import Mathlib.MeasureTheory.Integral.IntervalIntegral.Basic

/-!
# Integrals along the elementary cycles of a superelliptic curve (C52)
-/

namespace Hcp.Spec

/-- integral of `x^i dx / Y^j` along the segment from `a` to `b`, `Y` being a function of the parameter in `[-1, 1]` -/
noncomputable def segIntM (a b : ℂ) (i j : Nat) (Y : ℝ → ℂ) : ℂ :=
  ∫ t in (-1 : ℝ)..1, edgePt a b t ^ i / Y t ^ j * ((b - a) / 2)

/-- integral of `x^i dx / y^j` along the closed path lifting the segment from `a` to `b` on the sheet `ζ^s Y` and coming back on the next sheet -/
noncomputable def cycleIntM (m : Nat) (a b : ℂ) (i j : Nat) (Y : ℝ → ℂ) (s : Nat) : ℂ :=
  segIntM a b i j (fun t => zeta m ^ s * Y t) - segIntM a b i j (fun t => zeta m ^ (s + 1) * Y t)

end Hcp.Spec
