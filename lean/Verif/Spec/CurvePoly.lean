import Verif.Spec.Compute
import Mathlib.Algebra.Polynomial.Eval.Defs

/-!
# Periods of the curve of a polynomial

`abel_jacobi_init_poly` receives a polynomial `f` and the curve is `y^m = f (x)`; here nothing is assumed on the leading coefficient of `f`.
-/

namespace Hcp.Spec

/-- `Z` is a continuous determination of `y` on the segment from `a` to `b`, for the curve `y^m = f (x)` -/
def IsBranchPoly (m : Nat) (f : Polynomial ℂ) (a b : ℂ) (Z : ℝ → ℂ) : Prop :=
  ContinuousOn Z (Set.Icc (-1) 1) ∧ ∀ t ∈ Set.Icc (-1 : ℝ) 1, Z t ^ m = f.eval (edgePt a b t)

end Hcp.Spec

namespace Hcp
open Spec

variable {A B C W : Type} {O : MatOps}

/-- The output is right for the curve `y^m = f (x)`, up to the factor `s j` for the differentials `x^i dx / y^j`: `Z k` is a determination of `y` on edge number `k` of the tree, the table `cc` holds the intersection numbers of the closed paths over the edges, the loops form a symplectic basis for `cc` with `alpha_i . beta_i = 1`, the matrix of integrals contains `s j` times the integrals over the elementary
closed paths, the matrices of periods contain `s j` times the integrals over the loops, and `tau` contains the solution of `omega0 tau = omega1` for the exact periods (with no factor), or its opposite when all solvers but the last fail (C30). -/
structure PolyRight (s : Nat → ℂ) (V : AjEnv A B C W O) (R : A → ℂ → Prop) (RC : {n m : Nat} → O.C n m → Matrix (Fin n) (Fin m) ℂ → Prop) (m : Nat) (f : Polynomial ℂ) (x : Nat → ℂ) (c : Sec)
    (out : AjOut A W O c.shape.g) (Z : Nat → ℝ → ℂ) (ca cb : Nat → ℂ) (cc : IMat) (Q : Mat (out.tree.e.length * (m - 1))) : Prop where
  branches : ∀ (k : Nat) (ed : Edge W), out.tree.e[k]? = some ed → IsBranchPoly m f (x ed.a) (x ed.b) (Z k) ∧ LeavesAlong (Z k) (-1) (ca k) ∧ LeavesAlong (Z k) 1 (cb k)
  numbers : HoldsNumbers m out.tree.e ca cb cc
  basis : IsSymplecticBasis out.tree.e.length (m - 1) c.shape.g (fun s t => cc (s.1 * (m - 1) + s.2) (t.1 * (m - 1) + t.2)) Q out.loopA out.loopB
  whole : Antisymm (cc.toMat (out.tree.e.length * (m - 1))) ∧ Unimodular Q ∧ 2 * c.shape.g ≤ out.tree.e.length * (m - 1) ∧ ∀ a b, 2 * c.shape.g ≤ a.val → (Q * cc.toMat (out.tree.e.length * (m - 1)) * Q.transpose) a b = 0
  unit : UnitDual (fun s t => cc (s.1 * (m - 1) + s.2) (t.1 * (m - 1) + t.2)) out.loopA out.loopB
  positive : PositiveDual (fun s t => cc (s.1 * (m - 1) + s.2) (t.1 * (m - 1) + t.2)) out.loopA out.loopB
  integrals : ∀ I, out.integrals = some I → ∀ (k : Nat) (ed : Edge W), out.tree.e[k]? = some ed → ∀ r i j, r < c.shape.g → diffOf c.shape.ni c.shape.j1 r = (i, j) →
    R (I k r) (s j * cycleIntM m (x ed.a) (x ed.b) i j (Z k) 0)
  omega : ∀ om0 om1, out.omega = some (om0, om1) → ∀ (r k : Fin c.shape.g) (i j : Nat), diffOf c.shape.ni c.shape.j1 r = (i, j) →
    R (om0 r k) (s j * periodsOf m x out.tree.e Z c.shape out.loopA r k) ∧ R (om1 r k) (s j * periodsOf m x out.tree.e Z c.shape out.loopB r k)
  tau : ∀ om0 om1 t, out.omega = some (om0, om1) → out.tau = some t → ∃ tau, RC t tau ∧
    ((∀ tau', periodsOf m x out.tree.e Z c.shape out.loopA * tau' = periodsOf m x out.tree.e Z c.shape out.loopB ↔ tau' = tau) ∨
      (O.solve (V.mat om0) (V.mat (g := c.shape.g) om1) = none ∧ solveReal O (V.mat om0) (V.mat (g := c.shape.g) om1) = none ∧ solveReal O (O.mulI (V.mat om0)) (O.mulI (V.mat (g := c.shape.g) om1)) = none ∧
        periodsOf m x out.tree.e Z c.shape out.loopA * tau = -periodsOf m x out.tree.e Z c.shape out.loopB))

end Hcp
