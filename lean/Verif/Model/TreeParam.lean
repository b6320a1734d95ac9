import Verif.Model.Tree
import Verif.Model.Cli

/-!
# Model of the parameters of `arb/spanning_tree.c`

The numbers are abstract: `C` stands for `cdouble`, `W` for `double`.
-/

namespace Hcp

/-- operations on `cdouble` and `double` used by the parameters -/
structure COps (C W : Type) where
  csub : C → C → C
  cdiv : C → C → C
  /-- `2*c` -/
  twice : C → C
  cabs : C → W
  cimag : C → W
  casinh : C → C
  catanh : C → C
  /-- division by `LAMBDA` (complex_extras.h 12) -/
  divLam : C → C
  fabs : W → W
  add : W → W → W
  div : W → W → W

variable {C W : Type}

/-- `param_gc_r` (spanning_tree.c 18-22) -/
def paramGcR (O : COps C W) (a b c : C) : W := O.div (O.add (O.cabs (O.csub c a)) (O.cabs (O.csub c b))) (O.cabs (O.csub b a))

/-- `param_de_tau` (spanning_tree.c 26-33) -/
def paramDeTau (O : COps C W) (a b c : C) : W :=
  O.fabs (O.cimag (O.casinh (O.divLam (O.catanh (O.cdiv (O.csub (O.csub (O.twice c) a) b) (O.csub b a))))))

/-- the parameter selected from `type` (spanning_tree.c 91-96); the enumeration has no other value -/
def treeParam (O : COps C W) : IntType → C → C → C → W
  | .d2 => paramGcR O
  | .gc => paramGcR O
  | .de => paramDeTau O

/-- `spanning_tree` (spanning_tree.c 75-134) on the approximations `w` of the points (84-86) -/
def spanningTreeOf (O : COps C W) (o : WOps W) (sort : List (Edge W) → List (Edge W)) (w : Nat → C) (tr : Tree W) (len : Nat) (type : IntType) : Res (Tree W) :=
  spanningTree o sort (fun i j => paramEdge o (fun k => treeParam O type (w i) (w j) (w k)) i j len) tr len

end Hcp
