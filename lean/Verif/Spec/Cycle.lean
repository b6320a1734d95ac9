import Verif.Spec.Edge
import Mathlib.MeasureTheory.Integral.IntervalIntegral.Basic

/-!
# Integrals along the elementary cycles of a hyperelliptic curve (C47)
-/

namespace Hcp.Spec

/-- integral of `x^i dx / Y` along the segment from `a` to `b`, `Y` being a function of the parameter in `[-1, 1]` -/
noncomputable def segInt (a b : ℂ) (i : Nat) (Y : ℝ → ℂ) : ℂ :=
  ∫ t in (-1 : ℝ)..1, edgePt a b t ^ i / Y t * ((b - a) / 2)

/-- integral along the closed path lifting the segment from `a` to `b` on the sheet `(-1)^s Y` and coming back on the other sheet -/
noncomputable def cycleInt (a b : ℂ) (i : Nat) (Y : ℝ → ℂ) (s : Nat) : ℂ :=
  segInt a b i (fun t => (-1) ^ s * Y t) - segInt a b i (fun t => (-1) ^ (s + 1) * Y t)

/-- `Y` is a continuous determination of `y` on the segment from `a` to `b`, for the curve `y^2 = ∏_{k<n} (x - x_k)` -/
def IsBranch (n : Nat) (x : Nat → ℂ) (a b : ℂ) (Y : ℝ → ℂ) : Prop :=
  ContinuousOn Y (Set.Icc (-1) 1) ∧ ∀ t ∈ Set.Icc (-1 : ℝ) 1, Y t ^ 2 = ∏ k ∈ Finset.range n, (edgePt a b t - x k)

end Hcp.Spec
