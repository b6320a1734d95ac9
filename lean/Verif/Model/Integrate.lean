import Verif.Model.Constants
import Verif.Model.YData

/-!
# Model of `arb/gc_int.c`, `arb/integrals_gc.c`, `arb/de_int.c` and `arb/integrals_de.c`

Options are a bit mask; bit `5` is `AJ_ROOT_DEF`, `6` is `AJ_ROOT_TURN`, `7` is `AJ_ROOT_PROD`, `8` is `AJ_DE_SAME`
(abel_jacobi.h 16-28).
-/

namespace Hcp

/-- Further functions of Arb called by these files. -/
structure Fns (A : Type) where
  /-- `acb_realref` -/
  re : A → A
  /-- `acb_imagref` -/
  im : A → A
  /-- first output of `arb_sinh_cosh` -/
  sinh : A → A
  /-- second output of `arb_sinh_cosh` -/
  cosh : A → A
  /-- `arb_gamma_fmpq` of the fraction `p / q` -/
  gammaQ : Nat → Nat → A
  /-- `arb_const_sqrt_pi` -/
  sqrtPi : A

variable {A : Type}

/-! ## `gc_int.c` -/

/-- `_arb_vec_cos_pi` (gc_int.c 9-36); `x` is the array of powers of `exp(2 i pi / 4n)`, of `len + 1` cells. -/
def cosPi (X : Arith A) (F : Fns A) (len n : Nat) : Res (Nat → A) := do
  let x : Nat → A := fun k => X.pow (X.unitRoot (4 * n)) k
  let c ← loopUp (fun k c => do
    let p ← rdV (len + 1) x (2 * k + 1)
    let c1 ← wrV len c k (F.re p)
    let q ← rdV (len + 1) x (2 * k + 1 + n % 2)
    wrV len c1 (len - k - 1) (F.im q)) (len / 2) 0 fun _ => X.zero
  if n % 4 ≥ 2 then do
    let p ← rdV (len + 1) x (n / 2)
    wrV len c (n / 4) (F.re p)
  else .ok c

/-- `gc_integration_struct` (abel_jacobi.h 62-70) -/
structure GcInt (A : Type) where
  n : Nat
  len : Nat
  x : Nat → A

/-- `gc_int_init` (gc_int.c 38-46) -/
def gcIntInit (X : Arith A) (F : Fns A) (n : Nat) : Res (GcInt A) :=
  if n ≠ 0 then do
    let x ← cosPi X F (n / 2) n
    .ok { n := n, len := n / 2, x := x }
  else .ok { n := 0, len := 0, x := fun _ => X.zero }

/-! ## `integrals_gc.c` -/

/-- the routine `sqrt_pol` points to (integrals_gc.c 27-31) -/
def sqrtPolSel (X : Arith A) (T : Tests A) (flag : Nat) (sz : Nat) (u : Nat → A) (d1 d : Nat) (x : A) : Res A :=
  if flag.testBit 5 then sqrtPolDef X sz u d1 d x else sqrtPolTurn X T sz u d1 d x

/-- contribution of one point (integrals_gc.c 40-44 and 49-51); `S` is the square root routine. -/
def gcPoint (X : Arith A) (g : Nat) (S : A → Res A) (x : A) (res : Nat → A) : Res (Nat → A) := do
  let y ← S x
  let r ← addGeom X g 0 g (X.inv y) x res
  .ok r.1

/-- the middle point (integrals_gc.c 54-69) -/
def gcMiddle (X : Arith A) (sz : Nat) (u : Nat → A) (d1 d g n : Nat) (res : Nat → A) : Res (Nat → A) :=
  if n % 2 ≠ 0 then do
    let y ← sqrtPolDef X sz u d1 d X.zero
    addCell X g 0 (X.inv y) res
  else .ok res

/-- `gc_integrals_precomp` (integrals_gc.c 9-84) with the square root routine `S`; `sz` is the number of cells of `u`, the
row has `g` cells. -/
def gcSumWith (X : Arith A) (S : A → Res A) (sz : Nat) (u : Nat → A) (d1 d g : Nat) (gc : GcInt A) : Res (Nat → A) := do
  let r ← loopUp (fun l r => do
    let x ← rdV gc.len gc.x l
    let r1 ← gcPoint X g S x r
    gcPoint X g S (X.neg x) r1) gc.len 0 fun _ => X.zero
  let r1 ← gcMiddle X sz u d1 d g gc.n r
  scalarMul X g 0 g (X.div X.pi (X.ofInt gc.n)) r1

/-- `gc_integrals_precomp` (integrals_gc.c 9-84) -/
def gcIntegralsPrecomp (X : Arith A) (T : Tests A) (sz : Nat) (u : Nat → A) (d1 d g : Nat) (gc : GcInt A)
    (flag : Nat) : Res (Nat → A) :=
  gcSumWith X (sqrtPolSel X T flag sz u d1 d) sz u d1 d g gc

/-- `gc_integrals` (integrals_gc.c 86-93) -/
def gcIntegrals (X : Arith A) (T : Tests A) (F : Fns A) (sz : Nat) (u : Nat → A) (d1 d g n : Nat) (flag : Nat) :
    Res (Nat → A) := do
  let gc ← gcIntInit X F n
  gcIntegralsPrecomp X T sz u d1 d g gc flag

/-- the test of `integrals_edge_gc` (integrals_gc.c 102): is the scheme with `old` points replaced by one with `n`?
`slong` arithmetic (the operands are far below `2^31`). -/
def gcReplace (old n cn cg : Nat) : Bool := old = 0 ∨ ((old : Int) - n) * (cn + cg) > n

/-- choice of the scheme in `integrals_edge_gc` (integrals_gc.c 102-106) -/
def gcScheme (X : Arith A) (F : Fns A) (c : Shape) (need : Nat) (gc : GcInt A) : Res (GcInt A) :=
  if gcReplace gc.n need c.n c.g then gcIntInit X F need else .ok gc

/-- `integrals_edge_gc` (integrals_gc.c 95-112) with the scheme `gc` of the previous edge; `need` and `err` are what `gc_params`
returns for this edge, `err` being the operation `_acb_vec_add_error_mag` does on each cell.  Returns the scheme in use and the row. -/
def integralsEdgeGc (X : Arith A) (T : Tests A) (F : Fns A) (c : Shape) (flag : Nat) (ye : YData A) (need : Nat)
    (err : A → A) (gc : GcInt A) : Res (GcInt A × (Nat → A)) := do
  let gc1 ← gcScheme X F c need gc
  let r ← gcIntegralsPrecomp X T (c.n + 3) ye.u ye.n1 (c.n - 2) c.g gc1 flag
  let r1 ← edgeFactors X c ye.ba2 ye.ab ye.c fun i => if i < c.g then err (r i) else r i
  .ok (gc1, r1)

/-- `integrals_tree_gc` (integrals_gc.c 120-140): `ks` is the order of the edges after `qsort`, `I k` is row `k`. -/
def integralsTreeGc (X : Arith A) (T : Tests A) (F : Fns A) (c : Shape) (flag : Nat) (data : List (YData A))
    (need : Nat → Nat) (err : Nat → A → A) : List Nat → GcInt A → (Nat → Nat → A) → Res (Nat → Nat → A)
  | [], _, I => .ok I
  | k :: ks, gc, I => do
    let s ← match data[k]? with
      | some ye => integralsEdgeGc X T F c flag ye (need k) (err k) gc
      | none => .ub "tree->data"
    integralsTreeGc X T F c flag data need err ks s.1 fun i => if i = k then s.2 else I i

/-! ## `de_int.c` -/

/-- `de_integration_struct` (abel_jacobi.h 46-61) without the values that are not read -/
structure DeInt (A : Type) where
  n : Nat
  factor : A
  x : Nat → A
  dx : Nat → A
  ch2m : Nat → A
  /-- the stored error bound, as the operation adding it to a ball -/
  err : A → A

/-- body of the loop of `de_int_init` (de_int.c 74-90); the state is `(x, dx, ch2m)`. -/
def deIntStep (X : Arith A) (F : Fns A) (h lam : A) (n m k : Nat) (s : (Nat → A) × (Nat → A) × (Nat → A)) :
    Res ((Nat → A) × (Nat → A) × (Nat → A)) := do
  let kh := X.mul h (X.ofInt k)
  let sh := X.mul (F.sinh kh) lam
  let shsh := F.sinh sh
  let chsh := F.cosh sh
  let x ← wrV n s.1 k (X.div shsh chsh)
  let chsh2 := X.mul chsh chsh
  let dx ← wrV n s.2.1 k (X.div (F.cosh kh) chsh2)
  let ch ← wrV n s.2.2 k (X.root m chsh2)
  .ok (x, dx, ch)

/-- `de_int_init` (de_int.c 32-100) -/
def deIntInit (X : Arith A) (F : Fns A) (h lam : A) (n : Nat) (err : A → A) (m : Nat) : Res (DeInt A) :=
  if n ≠ 0 then do
    let x ← wrV n (fun _ => X.zero) 0 X.zero
    let dx ← wrV n (fun _ => X.zero) 0 X.one
    let ch ← wrV n (fun _ => X.zero) 0 X.one
    let s ← loopUp (deIntStep X F h lam n m) (n - 1) 1 (x, dx, ch)
    .ok { n := n, factor := X.mul lam h, x := s.1, dx := s.2.1, ch2m := s.2.2, err := err }
  else .ok { n := 0, factor := X.zero, x := fun _ => X.zero, dx := fun _ => X.zero, ch2m := fun _ => X.zero, err := err }

/-! ## `integrals_de.c` -/

/-- the routine `mth_root_pol` points to (integrals_de.c 32-41); `big` is `prec > 1000 && d > 5`. -/
def mthRootSel (X : Arith A) (T : Tests A) (flag : Nat) (big : Bool) (sz : Nat) (u : Nat → A) (d1 d : Nat) (x : A)
    (m : Nat) : Res A :=
  if flag.testBit 5 then mthRootPolDef X sz u d1 d x m
  else if flag.testBit 7 then mthRootPolProd X sz u d1 d x m
  else if flag.testBit 6 then mthRootPolTurn X T sz u d1 d x m (unitRoots X m) m
  else if big then mthRootPolTurn X T sz u d1 d x m (unitRoots X m) m
  else mthRootPolProd X sz u d1 d x m

/-- the loop over the blocks (integrals_de.c 65-72 and 95-102); `G` is `acb_vec_add_geom_arb` or
`acb_vec_sub_geom_arb`, the list is the tail of `c.ni` from `j`; `off` is `r - res`. -/
def deBlocks (X : Arith A) (G : Nat → Nat → A → A → (Nat → A) → Res ((Nat → A) × A)) (y x : A) :
    (j : Nat) → List Nat → Nat → A → (Nat → A) → Res (Nat → A)
  | _, [], _, _, res => .ok res
  | j, nij :: rest, off, wy, res => do
    let wy1 := if j ≠ 0 then X.mul wy y else wy
    let r ← G off nij wy1 x res
    deBlocks X G y x (j + 1) rest (off + nij) wy1 r.1

/-- contribution of one point (integrals_de.c 50-72 and 82-102): `x` is the argument of the root, `xg` the ratio of the
geometric progressions, both `de->x[l]` up to sign. -/
def dePoint (X : Arith A) (c : Shape) (S : A → Res A) (G : Nat → Nat → A → A → (Nat → A) → Res ((Nat → A) × A))
    (x xg dx ch : A) (res : Nat → A) : Res (Nat → A) := do
  let y0 ← S x
  let y := X.div ch y0
  let wy := if c.j1 > 1 then X.mul (X.pow y c.j1) dx else X.mul y dx
  deBlocks X G y xg 0 c.ni 0 wy res

/-- body of the loop over the points (integrals_de.c 45-103) -/
def deStep (X : Arith A) (c : Shape) (S : A → Res A) (de : DeInt A) (l : Nat) (res : Nat → A) : Res (Nat → A) := do
  let x ← rdV de.n de.x l
  let dx ← rdV de.n de.dx l
  let ch ← rdV de.n de.ch2m l
  let r1 ← dePoint X c S (fun off len => addGeom X c.g off len) x x dx ch res
  if l = 0 then .ok r1
  else dePoint X c S (fun off len => subGeom X c.g off len) (X.neg x) x dx ch r1

/-- `de_integrals_precomp` (integrals_de.c 9-117) with the root routine `S`.  `de_int_init` leaves the struct uninitialised when there is
no point, `de->factor` is then read at line 105. -/
def deSumWith (X : Arith A) (S : A → Res A) (c : Shape) (de : DeInt A) : Res (Nat → A) :=
  if de.n = 0 then .ub "de->factor" else do
  let r ← loopUp (deStep X c S de) de.n 0 fun _ => X.zero
  scalarMul X c.g 0 c.g de.factor r

/-- `de_integrals_precomp` (integrals_de.c 9-117); `sz` is the number of cells of `u`. -/
def deIntegralsPrecomp (X : Arith A) (T : Tests A) (sz : Nat) (u : Nat → A) (d1 d : Nat) (c : Shape) (de : DeInt A)
    (flag : Nat) (big : Bool) : Res (Nat → A) :=
  deSumWith X (fun x => mthRootSel X T flag big sz u d1 d x c.m) c de

/-- the test of `integrals_edge_de` (integrals_de.c 155): `de->n` is an `ulong`, so both sides are computed modulo `2^64`. -/
def deReplace (old n cn cg : Nat) : Bool := old = 0 ∨ toUlong (((old : Int) - n) * (cn + cg)) > toUlong n

/-- what `de_params` returns for an edge: number of points, step, scaling, error -/
structure DePar (A : Type) where
  n : Nat
  h : A
  lam : A
  err : A → A

/-- choice of the scheme in `integrals_edge_de` (integrals_de.c 152-163) -/
def deScheme (X : Arith A) (F : Fns A) (c : Shape) (flag : Nat) (p : DePar A) (de : DeInt A) : Res (DeInt A) :=
  if (decide (de.n = 0) || !flag.testBit 8) && deReplace de.n p.n c.n c.g then deIntInit X F p.h p.lam p.n p.err c.m
  else .ok de

/-- `integrals_edge_de` (integrals_de.c 141-173) with the scheme of the previous edge. -/
def integralsEdgeDe (X : Arith A) (T : Tests A) (F : Fns A) (c : Shape) (flag : Nat) (big : Bool) (ye : YData A) (p : DePar A)
    (de : DeInt A) : Res (DeInt A × (Nat → A)) := do
  let de1 ← deScheme X F c flag p de
  let r ← deIntegralsPrecomp X T (c.n + 3) ye.u ye.n1 (c.n - 2) c de1 flag big
  let r1 ← edgeFactors X c ye.ba2 ye.ab ye.c fun i => if i < c.g then de1.err (r i) else r i
  .ok (de1, r1)

/-- `integrals_tree_de` (integrals_de.c 175-200): `ks` is the order of the edges after `qsort`. -/
def integralsTreeDe (X : Arith A) (T : Tests A) (F : Fns A) (c : Shape) (flag : Nat) (big : Bool) (data : List (YData A))
    (par : Nat → DePar A) : List Nat → DeInt A → (Nat → Nat → A) → Res (Nat → Nat → A)
  | [], _, I => .ok I
  | k :: ks, de, I => do
    let s ← match data[k]? with
      | some ye => integralsEdgeDe X T F c flag big ye (par k) de
      | none => .ub "tree->data"
    integralsTreeDe X T F c flag big data par ks s.1 fun i => if i = k then s.2 else I i

/-- the loop of `integral_d2` (integrals_de.c 215-225): cell `g - j` for `j = g … 1`. -/
def integralD2Vals (X : Arith A) (F : Fns A) (c : Shape) : Res (Nat → A) :=
  loopUp (fun p res => do
    let j := c.g - p
    let r := X.mul F.sqrtPi (F.gammaQ j c.m)
    wrV c.g res p (X.div r (F.gammaQ (2 * j + c.m) (2 * c.m)))) c.g 0 fun _ => X.zero

/-- `integral_d2` (integrals_de.c 202-230) -/
def integralD2 (X : Arith A) (F : Fns A) (c : Shape) (ye : YData A) : Res (Nat → A) := do
  let r ← integralD2Vals X F c
  edgeFactors X c ye.ba2 ye.ab ye.c r

end Hcp
