import Mathlib.Analysis.SpecialFunctions.Pow.Real

/-!
# The estimate of the integrand described in `arb/de_params_d.c` 24
-/

namespace Hcp.Spec

/-- the factor of a point at distance `d` of the domain of width `r`; a point which is too close counts for `r` -/
noncomputable def roughFactor (r d : ℝ) : ℝ := by
  classical exact if d < 1 / 100000 then r else d

/-- `r^d / (∏ d_k)^(1/m)` -/
noncomputable def roughConstant (r : ℝ) (d : Int) (m : Nat) (dist : List ℝ) : ℝ := r ^ (d : ℝ) / (dist.map (roughFactor r)).prod ^ (1 / (m : ℝ))

end Hcp.Spec
