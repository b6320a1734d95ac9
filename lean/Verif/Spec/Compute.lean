import Verif.Model.Compute
import Verif.Spec.GcParams
import Verif.Spec.Tau
import Verif.Spec.ExtraPrec
import Verif.Props.SuperPeriods
import Verif.Props.HyperCurve

/-!
# What `abel_jacobi_compute` promises
-/

namespace Hcp
open Spec

variable {A B C W : Type} {O : MatOps}

/-- What is assumed on the parts left out: inclusion for all routines of Arb at all precisions of at least two bits, the sorting routines permute. -/
structure AjEnv.Sound (V : AjEnv A B C W O) (R : A → ℂ → Prop) (RB : B → ℝ → Prop) (RC : {n m : Nat} → O.C n m → Matrix (Fin n) (Fin m) ℂ → Prop) : Prop where
  ar : ∀ p, 2 ≤ p → Encloses (V.ar p) exact R
  fns : ∀ p, 2 ≤ p → EnclosesFns (V.fns p) exactFns R
  tests : ∀ p, 2 ≤ p → SoundTests (V.tests p) R
  par : ParSound V.par R RB
  mag : MagSound V.mag R RB
  addErr : ∀ (e : ℝ) (v : A) (z z' : ℂ), R v z → ‖z - z'‖ ≤ e → R (V.addErr (some e) v) z'
  trim : ∀ v z, R v z → R (V.trim v) z
  mat : ∀ {g : Nat} (om : Nat → Nat → A) (M : Matrix (Fin g) (Fin g) ℂ), (∀ i j : Fin g, R (om i j) (M i j)) → RC (V.mat (g := g) om) M
  trimTau : ∀ {g : Nat} (t : O.C g g) (M : Matrix (Fin g) (Fin g) ℂ), RC t M → RC (V.trimTau t) M
  sortEdges : ∀ l, (V.sortEdges l).Perm l
  order : ∀ es, (V.order es).Perm (List.range es.length)

/-- The runs with the Gauss-Chebyshev rule for which the integrals are proved to be right: the ellipse parameter of every edge is in `(1, r0]` and its number of points positive, the edges are visited by
decreasing numbers of points, and the square roots at the nodes are decided (see C45). -/
structure GcGood (V : AjEnv A B C W O) (R : A → ℂ → Prop) (fuel : Nat) (c : Shape) (flag : Nat) (prec : Int) (es : List (Edge W)) (data : List (YData A)) : Prop where
  par : ∀ (k : Nat) (yd : YData A) (p : GcPar), data[k]? = some yd → gcParams V.par V.dbl fuel (pointsOf c.n yd) c.g prec = .ok p → p.e ≠ none ∧ 1 < p.r ∧ p.r ≤ p.r0 ∧ 1 ≤ p.n
  mono : (V.order es).Pairwise fun k l => ∀ (yk yl : YData A) (p q : GcPar), data[k]? = some yk → data[l]? = some yl →
    gcParams V.par V.dbl fuel (pointsOf c.n yk) c.g prec = .ok p → gcParams V.par V.dbl fuel (pointsOf c.n yl) c.g prec = .ok q → q.n.toNat ≤ p.n.toNat
  roots : ∀ (k j : Nat) (yd yj : YData A) (p : GcPar), data[k]? = some yd → data[j]? = some yj → gcParams V.par V.dbl fuel (pointsOf c.n yj) c.g prec = .ok p →
    RootsOk (V.ar prec) (V.tests prec) (V.fns prec) R (c.n + 3) yd.u yd.n1 (c.n - 2) p.n.toNat flag

/-- The runs with the double-exponential rule for which the integrals are proved to be right: the parameters returned by `de_params` for an edge are balls of real numbers, the radius covers the error of the sum on
every edge, and the roots at the nodes are decided (see C52). -/
structure DeGood (V : AjEnv A B C W O) (R : A → ℂ → Prop) (c : Shape) (flag : Nat) (prec : Int) (x : Nat → ℂ) (es : List (Edge W)) (data : List (YData A)) : Prop where
  scheme : ∀ (j : Nat) (yj : YData A) (p : DePar A), data[j]? = some yj → V.dePar (pointsOf c.n yj) (c.n - 1) c.j1 c.m prec = .ok p →
    ∃ h lam e : ℝ, R p.h h ∧ R p.lam lam ∧ (∀ v z z', R v z → ‖z - z'‖ ≤ e → R (p.err v) z') ∧
      ∀ (k : Nat) (ed : Edge W) (yd : YData A) (u : Nat → ℂ), es[k]? = some ed → data[k]? = some yd → (∀ i, R (yd.u i) (u i)) → EdgeData c.m c.n x ed.a ed.b yd.n1 u →
        ∀ r i l, r < c.g → diffOf c.ni c.j1 r = (i, l) → ‖trapSum c.m yd.n1 (c.n - 2) u lam i l h p.n - edgeIntegral c.m yd.n1 (c.n - 2) u i l‖ ≤ e
  roots : ∀ (k j : Nat) (yd yj : YData A) (p : DePar A), data[k]? = some yd → data[j]? = some yj → V.dePar (pointsOf c.n yj) (c.n - 1) c.j1 c.m prec = .ok p →
    DeRootsOk (V.ar prec) (V.tests prec) (V.fns prec) R (c.n + 3) yd.u yd.n1 (c.n - 2) c.m flag (decide (1000 < prec) && decide (5 < c.n - 2)) p

/-- the matrix of the integrals of the `g` differentials over the loops; `Y k` is the determination of `y` on edge number `k` -/
noncomputable def periodsOf (m : Nat) (x : Nat → ℂ) (es : List (Edge W)) (Y : Nat → ℝ → ℂ) (c : Shape) (loops : List (List Gamma)) : Matrix (Fin c.g) (Fin c.g) ℂ :=
  Matrix.of fun r k => loopPeriodM m x es Y (diffOf c.ni c.j1 r).1 (diffOf c.ni c.j1 r).2 (loops.getD k [])

/-- The output is right for the curve `y^m = ∏ (x - x_k)`: there are determinations `Y` of `y` on the edges of the tree and a table `cc` holding the intersection numbers of the closed paths over the edges such that
the loops form a symplectic basis for `cc` with `alpha_i . beta_i = 1` (they are the first rows of a unimodular matrix, and its other rows have intersection number zero with all closed paths), the matrix of integrals contains the integrals over the elementary closed paths, the matrices of periods contain the integrals of the differentials over the loops, and `tau` contains the solution of
`omega0 tau = omega1`, or, when all solvers but the last fail, its opposite (C30). -/
structure AjRight (V : AjEnv A B C W O) (R : A → ℂ → Prop) (RC : {n m : Nat} → O.C n m → Matrix (Fin n) (Fin m) ℂ → Prop) (m n : Nat) (x : Nat → ℂ) (c : Sec) (out : AjOut A W O c.shape.g)
    (Y : Nat → ℝ → ℂ) (ca cb : Nat → ℂ) (cc : IMat) (Q : Mat (out.tree.e.length * (m - 1))) : Prop where
  tree : GrowsAsTree (out.tree.e.map fun f => (f.a, f.b)) ∧ TreeSize m n out.tree.e.length ∧ ∀ ed ∈ out.tree.e, ed.a < n ∧ ed.b < n
  branches : Branches m n x out.tree.e Y ca cb
  numbers : HoldsNumbers m out.tree.e ca cb cc
  basis : IsSymplecticBasis out.tree.e.length (m - 1) c.shape.g (fun s t => cc (s.1 * (m - 1) + s.2) (t.1 * (m - 1) + t.2)) Q out.loopA out.loopB
  whole : Antisymm (cc.toMat (out.tree.e.length * (m - 1))) ∧ Unimodular Q ∧ 2 * c.shape.g ≤ out.tree.e.length * (m - 1) ∧ ∀ a b, 2 * c.shape.g ≤ a.val → (Q * cc.toMat (out.tree.e.length * (m - 1)) * Q.transpose) a b = 0
  unit : UnitDual (fun s t => cc (s.1 * (m - 1) + s.2) (t.1 * (m - 1) + t.2)) out.loopA out.loopB
  positive : PositiveDual (fun s t => cc (s.1 * (m - 1) + s.2) (t.1 * (m - 1) + t.2)) out.loopA out.loopB
  signs : m = 2 ∨ m = 3 ∨ n = 2 → SignCoeffs (out.loopA ++ out.loopB)
  integrals : ∀ I, out.integrals = some I → ∀ (k : Nat) (ed : Edge W), out.tree.e[k]? = some ed → ∀ r i j, r < c.shape.g → diffOf c.shape.ni c.shape.j1 r = (i, j) →
    R (I k r) (cycleIntM m (x ed.a) (x ed.b) i j (Y k) 0)
  omega : ∀ om0 om1, out.omega = some (om0, om1) → ∀ r k : Fin c.shape.g, R (om0 r k) (periodsOf m x out.tree.e Y c.shape out.loopA r k) ∧ R (om1 r k) (periodsOf m x out.tree.e Y c.shape out.loopB r k)
  tau : ∀ om0 om1 t, out.omega = some (om0, om1) → out.tau = some t → ∃ tau, RC t tau ∧
    ((∀ tau', periodsOf m x out.tree.e Y c.shape out.loopA * tau' = periodsOf m x out.tree.e Y c.shape out.loopB ↔ tau' = tau) ∨
      (O.solve (V.mat om0) (V.mat (g := c.shape.g) om1) = none ∧ solveReal O (V.mat om0) (V.mat (g := c.shape.g) om1) = none ∧ solveReal O (O.mulI (V.mat om0)) (O.mulI (V.mat (g := c.shape.g) om1)) = none ∧
        periodsOf m x out.tree.e Y c.shape out.loopA * tau = -periodsOf m x out.tree.e Y c.shape out.loopB))

end Hcp
