import Verif.Model.Curve
import Verif.Model.TreeParam
import Verif.Model.Integrate
import Verif.Model.Homology
import Verif.Model.GcParams
import Verif.Model.Tau
import Verif.Model.ExtraPrec

/-!
# Model of `abel_jacobi_compute` (`arb/aj_struct.c` 72-182)

The parts already modelled, put together.  What depends on the platform or on Arb is a field of `AjEnv`; here the working precision is kept: each arithmetic is indexed by it.
-/

namespace Hcp

/-- everything `abel_jacobi_compute` calls outside of the code modelled -/
structure AjEnv (A B C W : Type) (O : MatOps) where
  /-- the arithmetic of Arb at a given precision -/
  ar : Int → Arith A
  fns : Int → Fns A
  tests : Int → Tests A
  /-- `acb_branch_points` (aj_struct.c 10-17): the roots of the polynomial in the order of `_acb_vec_sort_lex`, at a given precision.  Two precisions may give two orders. -/
  roots : Int → Nat → A
  /-- `acb_get_cdouble` (spanning_tree.c 85-86) -/
  approx : A → C
  cops : COps C W
  wops : WOps W
  /-- `qsort` with `edge_cmp` -/
  sortEdges : List (Edge W) → List (Edge W)
  /-- the real balls of `extraprec_tree` -/
  mag : MagOps A B
  xgcd : XGcd
  /-- `qsort` with `comp_cmp` on the numbers of the edges (integrals_gc.c 127-130, integrals_de.c 182-185) -/
  order : List (Edge W) → List Nat
  par : ParOps A B
  dbl : DblOps
  /-- `de_params` (de_params.c 304-331): arguments `u`, `i`, `j`, `m`, `prec` -/
  dePar : List A → Nat → Nat → Nat → Int → Res (DePar A)
  /-- `acb_add_error_mag`; nothing stands for an infinite error -/
  addErr : Option ℝ → A → A
  /-- `acb_trim`, called by `acb_mat_trim` on each cell -/
  trim : A → A
  /-- the matrix with given cells -/
  mat : {g : Nat} → (Nat → Nat → A) → O.C g g
  /-- `acb_mat_trim` of `tau` -/
  trimTau : {g : Nat} → O.C g g → O.C g g

/-- fields of `abel_jacobi_t` (abel_jacobi.h 137-152) after the call; nothing for those which are not written.  `intprec` and `data` are local to the call. -/
structure AjOut (A W : Type) (O : MatOps) (g : Nat) where
  type : IntType
  tree : Tree W
  intprec : Int
  data : List (YData A)
  loopA : List (List Gamma)
  loopB : List (List Gamma)
  integrals : Option (Nat → Nat → A)
  omega : Option ((Nat → Nat → A) × (Nat → Nat → A))
  tau : Option (O.C g g)

variable {A B C W : Type} {O : MatOps}

/-- the other branch points in the coordinate of an edge: the first `n - 2` cells of `ye->u` -/
def pointsOf (n : Nat) (ye : YData A) : List A := (List.range (n - 2)).map ye.u

/-- `integrals_tree_gc` (integrals_gc.c 120-140) with the call of `gc_params` of each edge (integrals_gc.c 101).  A negative number of points cannot be represented by the scheme
(the allocation of gc_int.c 43 would fail). -/
noncomputable def treeGc (V : AjEnv A B C W O) (fuel : Nat) (c : Shape) (flag : Nat) (prec : Int) (data : List (YData A)) : List Nat → GcInt A → (Nat → Nat → A) → Res (Nat → Nat → A)
  | [], _, I => .ok I
  | k :: ks, gc, I =>
    match data[k]? with
    | none => .ub "tree->data"
    | some ye => do
      let p ← gcParams V.par V.dbl fuel (pointsOf c.n ye) c.g prec
      if p.n < 0 then .abort "flint_malloc: out of memory" else do
      let s ← integralsEdgeGc (V.ar prec) (V.tests prec) (V.fns prec) c flag ye p.n.toNat (V.addErr p.e) gc
      treeGc V fuel c flag prec data ks s.1 fun i => if i = k then s.2 else I i

/-- the call of `de_params` in `integrals_edge_de` (integrals_de.c 152-154) when there is a scheme with `old` points; what stands for the parameters when it is skipped is not used. -/
def deParIf (V : AjEnv A B C W O) (c : Shape) (flag : Nat) (prec : Int) (old : Nat) (ye : YData A) : Res (DePar A) :=
  if decide (old = 0) || !flag.testBit 8 then V.dePar (pointsOf c.n ye) (c.n - 1) c.j1 c.m prec else .ok ⟨0, (V.ar prec).zero, (V.ar prec).zero, id⟩

/-- `integrals_tree_de` (integrals_de.c 175-200) with the call of `de_params` of each edge (integrals_de.c 152-154), which is skipped when there is a scheme and `AJ_DE_SAME` is set. -/
def treeDe (V : AjEnv A B C W O) (c : Shape) (flag : Nat) (prec : Int) (data : List (YData A)) : List Nat → DeInt A → (Nat → Nat → A) → Res (Nat → Nat → A)
  | [], _, I => .ok I
  | k :: ks, de, I =>
    match data[k]? with
    | none => .ub "tree->data"
    | some ye => do
      let p ← deParIf V c flag prec de.n ye
      let s ← integralsEdgeDe (V.ar prec) (V.tests prec) (V.fns prec) c flag (decide (1000 < prec) && decide (5 < c.n - 2)) ye p de
      treeDe V c flag prec data ks s.1 fun i => if i = k then s.2 else I i

/-- the integrals (aj_struct.c 131-139); the matrix `aj->integrals` starts with zeros, and `integral_d2` writes its row `0`. -/
noncomputable def ajIntegrals (V : AjEnv A B C W O) (fuel : Nat) (c : Shape) (flag : Nat) (prec : Int) (type : IntType) (es : List (Edge W)) (data : List (YData A)) :
    Res (Nat → Nat → A) :=
  let X := V.ar prec
  match type with
  | .d2 => match data[0]? with
    | none => .ub "tree->data"
    | some ye => do
      let row ← integralD2 X (V.fns prec) c ye
      .ok fun k => if k = 0 then row else fun _ => X.zero
  | .gc => treeGc V fuel c flag prec data (V.order es) ⟨0, 0, fun _ => X.zero⟩ fun _ _ => X.zero
  | .de => treeDe V c flag prec data (V.order es) ⟨0, X.zero, fun _ => X.zero, fun _ => X.zero, fun _ => X.zero, id⟩ fun _ _ => X.zero

/-- `acb_mat_trim` under `AJ_TRIM` (aj_struct.c 163-167) -/
def trimIf (V : AjEnv A B C W O) (flag : Nat) (om : Nat → Nat → A) : Nat → Nat → A := if flag &&& ajTrim ≠ 0 then fun i j => V.trim (om i j) else om

/-- the tree, the data of the edges and the precision of the integrals (aj_struct.c 80-111) -/
noncomputable def ajTree (V : AjEnv A B C W O) (c : Sec) (flag : Nat) (prec : Int) (tr0 : Tree W) : Res (Tree W × Int × List (YData A)) := do
  let x0 := V.roots 64
  let tr ← spanningTreeOf V.cops V.wops V.sortEdges (fun k => V.approx (x0 k)) tr0 c.shape.n (intType flag c.m c.n)
  let extra ← extraprecTree (V.ar 64) V.mag tr.e x0 c.shape
  let intprec ← chk (prec + extra)
  let cstprec ← chk (intprec + 10)
  arbPrec cstprec
  let data ← treeYdataInit (V.ar cstprec) (V.tests cstprec) (V.roots cstprec) c.shape.n c.shape.m tr.e
  .ok (tr, intprec, data)

/-- `abel_jacobi_compute` (aj_struct.c 72-182) on an object for the curve `c` whose tree is `tr0`, the result of `tree_init` or of an earlier call.  `symplectic_basis` works with 64 bits
(intersections_tree.c 147).  `fuel` bounds the rounds of the loops of `symplectic_reduction` and `gc_params`.  The messages of `AJ_VERBOSE` are left out. -/
noncomputable def ajRun (V : AjEnv A B C W O) (fuel : Nat) (c : Sec) (flag : Nat) (prec : Int) (tr0 : Tree W) : Res (AjOut A W O c.shape.g) := do
  let (tr, intprec, data) ← ajTree V c flag prec tr0
  let ab ← symplecticBasis V.xgcd fuel (shiftOracle (V.ar 64) (V.tests 64) data c.shape.m) tr.e c.shape.m c.shape.g
  let out : AjOut A W O c.shape.g := ⟨intType flag c.m c.n, tr, intprec, data, ab.1, ab.2, none, none, none⟩
  if flag &&& ajNoInt ≠ 0 then .ok out else do
  arbPrec intprec
  let I ← ajIntegrals V fuel c.shape flag intprec (intType flag c.m c.n) tr.e data
  if flag &&& ajNoAb ≠ 0 then .ok { out with integrals := some I } else do
  let om0 ← periodMatrix (V.ar intprec) c.shape ab.1 tr.n I
  let om1 ← periodMatrix (V.ar intprec) c.shape ab.2 tr.n I
  let om0 := trimIf V flag om0
  let om1 := trimIf V flag om1
  if flag &&& ajNoTau ≠ 0 then .ok { out with integrals := some I, omega := some (om0, om1) } else do
  let t ← tauMatrix O (n := c.shape.g) (m := c.shape.g) (V.mat om0) (V.mat om1)
  .ok { out with integrals := some I, omega := some (om0, om1), tau := some (if flag &&& ajTrim ≠ 0 then V.trimTau t else t) }

end Hcp
