import Verif.Model.Arith
import Verif.Model.Curve

/-!
# Model of `arb/constants.c`

A pointer into an array of `sz` cells is an offset; every access is checked against `sz`.
-/

namespace Hcp

variable {A : Type} (X : Arith A)

/-- `acb_addmul (x + i, x + j, c)` on cells of the same array. -/
def addmulCell (sz : Nat) (i j : Nat) (c : A) (x : Nat → A) : Res (Nat → A) := do
  let a ← rdV sz x i
  let b ← rdV sz x j
  wrV sz x i (X.add a (X.mul b c))

/-- `acb_vec_polynomial_shift` (constants.c 10-17) on `x + off`. -/
def polyShift (sz off len : Nat) (c : A) (x : Nat → A) : Res (Nat → A) :=
  loopUp (fun k x => loopDown (fun l x => addmulCell X sz (off + l) (off + l - 1) c x) (len - k) k x)
    (len - 1) 1 x

/-- `acb_mul (x + i, x + i, c)` -/
def mulCell (sz i : Nat) (c : A) (x : Nat → A) : Res (Nat → A) := do
  let a ← rdV sz x i
  wrV sz x i (X.mul a c)

/-- `acb_add (x + i, x + i, c)` -/
def addCell (sz i : Nat) (c : A) (x : Nat → A) : Res (Nat → A) := do
  let a ← rdV sz x i
  wrV sz x i (X.add a c)

/-- `acb_sub (x + i, x + i, c)` -/
def subCell (sz i : Nat) (c : A) (x : Nat → A) : Res (Nat → A) := do
  let a ← rdV sz x i
  wrV sz x i (X.sub a c)

/-- `acb_vec_mul_geom` (constants.c 20-30) on `x + off`; the in/out parameter `c0` is part of the state. -/
def mulGeom (sz off len : Nat) (c0 c : A) (x : Nat → A) : Res ((Nat → A) × A) := do
  let x0 ← mulCell X sz off c0 x
  loopUp (fun k s => do
    let c0 := X.mul s.2 c
    let x ← mulCell X sz (off + k) c0 s.1
    .ok (x, c0)) (len - 1) 1 (x0, c0)

/-- `acb_vec_add_geom_arb` (constants.c 32-42) on `x + off`. -/
def addGeom (sz off len : Nat) (c0 c : A) (x : Nat → A) : Res ((Nat → A) × A) := do
  let x0 ← addCell X sz off c0 x
  loopUp (fun k s => do
    let c0 := X.mul s.2 c
    let x ← addCell X sz (off + k) c0 s.1
    .ok (x, c0)) (len - 1) 1 (x0, c0)

/-- the conditional of the loop of `acb_vec_sub_geom_arb` (constants.c 52-55). -/
def altCell (sz off k : Nat) (c : A) (x : Nat → A) : Res (Nat → A) :=
  if k % 2 ≠ 0 then subCell X sz (off + k) c x else addCell X sz (off + k) c x

/-- `acb_vec_sub_geom_arb` (constants.c 44-57) on `x + off`. -/
def subGeom (sz off len : Nat) (c0 c : A) (x : Nat → A) : Res ((Nat → A) × A) := do
  let x0 ← addCell X sz off c0 x
  loopUp (fun k s => do
    let c0 := X.mul s.2 c
    let x ← altCell X sz off k c0 s.1
    .ok (x, c0)) (len - 1) 1 (x0, c0)

/-- `_acb_vec_scalar_mul (x + off, x + off, len, c)` (Arb). -/
def scalarMul (sz off len : Nat) (c : A) (x : Nat → A) : Res (Nat → A) :=
  loopUp (fun k x => mulCell X sz (off + k) c x) len 0 x

/-- `_acb_vec_scalar_addmul (res + ro, vec + vo, len, c)` (constants.c 60-66, Arb) and, with an integer
`c`, `_acb_vec_scalar_addmul_fmpz` (constants.c 69-75). -/
def scalarAddmul (sz ro : Nat) (vsz : Nat) (v : Nat → A) (vo len : Nat) (c : A) (x : Nat → A) :
    Res (Nat → A) :=
  loopUp (fun k x => do
    let a ← rdV sz x (ro + k)
    let b ← rdV vsz v (vo + k)
    wrV sz x (ro + k) (X.add a (X.mul b c))) len 0 x

/-- `_acb_vec_unit_roots (z, m, m)` (Arb): the table of powers of `exp(2 i pi / m)`. -/
def unitRoots (m : Nat) : Nat → A := fun k => X.pow (X.unitRoot m) k

/-- the curve data the numerical routines use, as natural numbers: `c.m`, `c.n`, `c.g`, `c.j1`, `c.nj`
and the array `c.ni` (abel_jacobi.h 30-42). -/
structure Shape where
  m : Nat
  n : Nat
  g : Nat
  j1 : Nat
  ni : List Nat
  deriving DecidableEq, Repr

/-- The descriptor computed by `sec_init` as seen by the numerical routines (all fields are
non-negative there). -/
def Sec.shape (c : Sec) : Shape :=
  { m := c.m.toNat, n := c.n.toNat, g := c.g.toNat, j1 := c.j1.toNat, ni := c.ni.map Int.toNat }

/-- body of the loop over `j` of `integrals_edge_factors` (constants.c 137-166); the state is the row
and the offset `r - res`. -/
def edgeFactorsStep (c : Shape) (ba2 ab cab : A) (j nij : Nat) (s : (Nat → A) × Nat) :
    Res ((Nat → A) × Nat) := do
  let x1 ← polyShift X c.g s.2 nij ab s.1
  let x2 ← mulGeom X c.g s.2 nij ba2 ba2 x1
  let z ← rdV c.m (unitRoots X c.m) ((c.m - c.j1 - j) % c.m)
  let zj := X.neg (X.sub z X.one)
  let cj := X.div zj (X.pow cab (c.j1 + j))
  let x3 ← scalarMul X c.g s.2 nij cj x2.1
  .ok (x3, s.2 + nij)

/-- the loop over `j` of `integrals_edge_factors`; the list is the tail of `c.ni` from `j`. -/
def edgeFactorsLoop (c : Shape) (ba2 ab cab : A) : (j : Nat) → List Nat → (Nat → A) × Nat →
    Res ((Nat → A) × Nat)
  | _, [], s => .ok s
  | j, nij :: rest, s => do
    let s1 ← edgeFactorsStep X c ba2 ab cab j nij s
    edgeFactorsLoop c ba2 ab cab (j + 1) rest s1

/-- `integrals_edge_factors` (constants.c 121-175) on a row of `c.g` cells. -/
def edgeFactors (c : Shape) (ba2 ab cab : A) (x : Nat → A) : Res (Nat → A) := do
  let s ← edgeFactorsLoop X c ba2 ab cab 0 c.ni (x, 0)
  .ok s.1

/-- `integrals_edge_factors_gc` (constants.c 78-119); `cab` is ignored by the code. -/
def edgeFactorsGc (c : Shape) (ba2 ab : A) (x : Nat → A) : Res (Nat → A) := do
  let x1 ← polyShift X c.g 0 c.g ab x
  let p := X.pow ba2 (c.n / 2)
  let p := if c.n % 2 ≠ 0 then X.mul p (X.sqrt ba2) else p
  let cj := X.mul2exp (X.inv p) 1
  let x2 ← scalarMul X c.g 0 c.g cj x1
  let s ← loopUp (fun i s => do
    let ci := X.divI (X.mul s.2 ba2)
    let x ← mulCell X c.g i ci s.1
    .ok (x, ci)) (c.g - 1) 1 (x2, X.one)
  .ok s.1

end Hcp
