import Verif.Model.DeBound
import Verif.Spec.Bound

/-!
# Specification of the bounds of the integrand (C41, C43, C44)
-/

namespace Hcp.Spec

/-- product of the distances to the branch points -/
noncomputable def ptDist (u : List ℂ) (z : ℂ) : ℝ := (u.map fun x => ‖z - x‖).prod

/-- size of the integrand of the differential `(i, j)` without the factor common to all curves: `|z|^(i-1) / (prod |z - u_k|)^(j/m)` -/
noncomputable def integrandSize (u : List ℂ) (m i j : Nat) (z : ℂ) : ℝ := ‖z‖ ^ (i - 1) / ptDist u z ^ (j / m : ℝ)

/-- the real upper bound `B` is valid for `p / q^(1/m)`, and `q` is positive -/
def UpperBound (m : Nat) (B : ℝ) (v : ℝ × ℝ) : Prop := 0 < v.2 ∧ v.1 ≤ B * v.2 ^ (1 / m : ℝ)

end Hcp.Spec
