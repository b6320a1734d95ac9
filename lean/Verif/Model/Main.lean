import Verif.Model.Cli
import Verif.Model.Curve
import Verif.Model.Compute

/-!
# Model of `main` of `arb/example/periods.c`

The reading of the arguments is `readArgs`, the polynomial `curvePoly` (`Verif.Model.Cli`), the computation `ajRun` (`Verif.Model.Compute`).
-/

namespace Hcp

variable {A B C W : Type} {O : MatOps}

/-- The libraries, for each polynomial: the routines of Arb used by `abel_jacobi_compute` with the roots of the polynomial, `fmpz_poly_degree`, `fmpz_poly_is_squarefree`, the Bernoulli and exponential polynomials. -/
structure MainEnv (A B C W : Type) (O : MatOps) where
  aj : IPoly → AjEnv A B C W O
  degree : IPoly → Int
  sqfree : IPoly → Bool
  fam : Families

/-- the loop `for (i = 0; i < run; i++) abel_jacobi_compute (aj, flag, prec)` (periods.c 190-191) on the tree of the object; the result is the one of the last call.  All calls write the same fields. -/
noncomputable def computeLoop (V : AjEnv A B C W O) (fuel : Nat) (c : Sec) (flag : Nat) (prec : Int) : Nat → Tree W → Option (AjOut A W O c.shape.g) → Res (Option (AjOut A W O c.shape.g))
  | 0, _, last => .ok last
  | k + 1, tr, _ => do
    let out ← ajRun V fuel c flag prec tr
    computeLoop V fuel c flag prec k out.tree (some out)

/-- the third argument of `f_pol`, `prec + n + 40` (periods.c 184), evaluated when a family is chosen; the families do not use it -/
def polPrec (o : Opts) : Res Unit := match o.fPol with
  | none => .ok ()
  | some _ => do
    let s ← chk (o.prec + o.n)
    let _ ← chk (s + 40)
    .ok ()

/-- what `main` has when it comes to the printing: the options, the polynomial, the curve, the fields of the object (nothing if the loop made no round) -/
structure MainRun (A W : Type) (O : MatOps) where
  o : Opts
  poly : IPoly
  c : Sec
  out : Option (AjOut A W O c.shape.g)

/-- the part of `main` after the reading of the arguments (periods.c 179-191).  The number of digits (179-180) only concerns the printing. -/
noncomputable def mainOpts (E : MainEnv A B C W O) (fuel : Nat) (o : Opts) : Res (MainRun A W O) := do
  polPrec o
  let p ← curvePoly E.fam o
  let c ← initPoly o.m (E.degree p) (E.sqfree p)
  let out ← computeLoop (E.aj p) fuel c o.flag o.prec o.run.toNat (treeInit (E.aj p).wops (treeEdges c).toNat) none
  .ok ⟨o, p, c, out⟩

/-- `main` (periods.c 70-217); `none` is the usage message -/
noncomputable def periodsMain (E : MainEnv A B C W O) (fuel : Nat) (args : List (List Char)) : Res (Option (MainRun A W O)) := do
  let o ← readArgs args
  match o with
  | none => .ok none
  | some o => do
    let r ← mainOpts E fuel o
    .ok (some r)

/-- what is printed -/
inductive Shown (A W : Type) (O : MatOps) (g : Nat) where
  | tree (t : Tree W)
  | integrals (I : Nat → Nat → A)
  | omega (om0 om1 : Nat → Nat → A)
  | tau (t : O.C g g)

/-- the printing (periods.c 193-212).  Nothing for an object that was not computed (the program would print the zero matrix made by `acb_mat_init`). -/
def MainRun.shown (r : MainRun A W O) : Option (Shown A W O r.c.shape.g) :=
  match printed r.o, r.out with
  | some .tree, some out => some (.tree out.tree)
  | some .integrals, some out => out.integrals.map .integrals
  | some .omega, some out => out.omega.map fun q => .omega q.1 q.2
  | some .tau, some out => out.tau.map .tau
  | _, _ => none

end Hcp
