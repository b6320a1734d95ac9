import Verif.Model.Compute
import Verif.Model.DeParams

/-!
# Model of `de_params_tree` (`arb/de_params.c`)
-/

namespace Hcp

variable {W : Type}

/-- `de_params_tree` (de_params.c 334-338): `de_params` on the data of the edge `tree->min`, with `c.n - 2` points; `n` is `c.n`, `j1` is `c.j1`, `m` is `c.m`.  The value `tree->r` which is passed is not used by `de_params`.
The data of the edges must have been computed (`tree_ydata_init`).  As in `deParams` the numbers are exact. -/
noncomputable def deParamsTree (lam : ℝ) (m2 : ℝ → ℝ) (tr : Tree W) (data : List (YData ℂ)) (n j1 m prec : Nat) : Res DeOut :=
  match data[tr.min]? with
  | none => .ub "data of the edge not set"
  | some y => deParams lam m2 (pointsOf n y) j1 m prec

end Hcp
