import Verif.Model.Bound
import Mathlib.Analysis.SpecialFunctions.Trigonometric.Basic
import Mathlib.Analysis.SpecialFunctions.Pow.Real

/-!
# Model of the constants of the double-exponential error bound (`arb/de_params.c`)

The values are exact; the balls in which Arb encloses them are the subject of `Model/Bound`.
-/

namespace Hcp

/-- the point `z = tanh (lambda sinh (t + i r))` of `max_f` (de_params.c 56-60) -/
noncomputable def deCurve (lambda r t : ℝ) : ℂ := Complex.tanh (lambda * Complex.sinh (t + r * Complex.I))

/-- numerator and denominator of `max_f` (de_params.c 62-80): `|z|^i` and the product of the `|z - u_k|` whose `m`-th root is taken; when a factor is zero
`max_f` returns 0 (no value). -/
noncomputable def maxF (lambda r : ℝ) (u : List ℂ) (i : Nat) (t : ℝ) : ℝ × ℝ :=
  (‖deCurve lambda r t‖ ^ i, (u.map fun x => ‖deCurve lambda r t - x‖).prod)

/-- `_acb_vec_abs` (de_params.c 91-100) on one point: `|Re u| + i |Im u|` -/
noncomputable def foldQ (u : ℂ) : ℂ := ⟨|u.re|, |u.im|⟩

/-- the end of the interval of `de_constant_m2` (de_params.c 126-135): `cosh tmax = pi / (2 lambda sin r)` -/
def IsTmax (lambda r tmax : ℝ) : Prop := 0 ≤ tmax ∧ Real.cosh tmax * (2 * (lambda * Real.sin r)) = Real.pi

/-- `de_constant_m2` (de_params.c 102-153): bound of `max_f` for the folded points on a ball around `[0, tmax]`, cut in 30 parts, depth 20. `S.f` is
the evaluation of `max_f` on balls. -/
noncomputable def deConstantM2 {M : Type} (S : BoundOps M) (b : RBall) (m0 : M) : Res M := boundFunc S 20 b 30 m0

/-- `de_constant_m1` (de_params.c 155-188) on exact points: factor `|Im u|` when the real part meets `[-1, 1]` and `|u|` otherwise -/
noncomputable def deConstantM1 (u : List ℂ) (m : Nat) : ℝ :=
  ((u.map fun x => if |x.re| ≤ 1 then |x.im| else ‖x‖).prod ^ (1 / m : ℝ))⁻¹

end Hcp
