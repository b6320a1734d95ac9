import Verif.Basic
import Verif.Spec.Segment
import Mathlib.Analysis.SpecialFunctions.Pow.Real

/-!
# Rough estimates of `arb/de_params_d.c` (lines 10-35)

The `double` operations are replaced by exact operations on reals.  The functions are exported and not called in the library.
-/

namespace Hcp

/-- `LAMBDA` (complex_extras.h 12, `PI2`) -/
noncomputable def lambdaD : ℝ := Real.pi / 2

/-- `de_distance_d`, de_params_d.c 11-19 -/
noncomputable def deDistanceD (x y r : ℝ) : ℝ :=
  (|(Spec.casinh (Spec.catanh (x + Complex.I * y) / lambdaD)).im| - r) * lambdaD * ‖Complex.cosh (x + Complex.I * y)‖ / ‖Complex.cosh (lambdaD * Complex.sinh (x + Complex.I * y))‖ ^ 2

open scoped Classical in
/-- loop of `de_constant_m_d`, de_params_d.c 29-33, from round `k` on -/
noncomputable def roughLoop (w : Nat → ℂ) (r : ℝ) : Nat → Nat → ℝ → ℝ
  | 0, _, p => p
  | todo + 1, k, p => roughLoop w r todo (k + 1) (p * (if deDistanceD (w k).re (w k).im r < 1 / 100000 then r else deDistanceD (w k).re (w k).im r))

/-- `de_constant_m_d`, de_params_d.c 21-35.  `1/m` (34) is a division of integers, converted to `double` by the call of `pow`. -/
noncomputable def deConstantMD (w : Nat → ℂ) (len : Nat) (r : ℝ) (d m : Int) : Res ℝ :=
  if m = 0 then .ub "division by zero" else .ok (r ^ (d : ℝ) / (roughLoop w r len 0 1) ^ ((Int.tdiv 1 m : Int) : ℝ))

end Hcp
