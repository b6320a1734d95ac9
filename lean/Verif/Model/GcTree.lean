import Verif.Model.Compute

/-!
# Model of `gc_params_tree` (`arb/gc_params.c`)
-/

namespace Hcp

variable {A B W : Type} (P : ParOps A B) (D : DblOps)

/-- `gc_params_tree` (gc_params.c 239-243): `gc_params` on the data of the edge `tree->min`, with `c.n - 2` points and exponents up to `c.n - 1`; `n` is `c.n`.  The data of the edges must have been computed (`tree_ydata_init`). -/
noncomputable def gcParamsTree (fuel : Nat) (tr : Tree W) (data : List (YData A)) (n : Nat) (prec : Int) : Res GcPar :=
  match data[tr.min]? with
  | none => .ub "data of the edge not set"
  | some y => gcParams P D fuel (pointsOf n y) (n - 1) prec

end Hcp
