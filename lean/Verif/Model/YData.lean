import Verif.Model.Arith
import Verif.Model.Intersection

/-!
# Model of `arb/mth_root_pol.c`, `arb/ydata.c` (edge data) and the numerical part of
`arb/intersections_tree.c`
-/

namespace Hcp

/-- Predicates and conversions of Arb called by these files.  Their answers are data of the model: nothing is assumed
about them here (`Verif.Spec.Tests` states the documented guarantees). -/
structure Tests (A : Type) where
  /-- `arb_is_negative(acb_realref(.))` -/
  reNeg : A → Bool
  /-- `arb_is_nonpositive(acb_realref(.))` -/
  reNonpos : A → Bool
  /-- `arb_is_nonnegative(acb_realref(.))`, also `arb_is_nonnegative` on a real ball -/
  reNonneg : A → Bool
  /-- `arb_is_nonpositive(acb_imagref(.))` -/
  imNonpos : A → Bool
  /-- `arb_contains_zero(acb_imagref(.))` -/
  imHasZero : A → Bool
  /-- `arf_sgn(arb_midref(acb_imagref(.)))` -/
  imSgn : A → Int
  /-- `acb_contains_zero` -/
  hasZero : A → Bool
  /-- `acb_is_finite` -/
  finite : A → Bool
  /-- `acb_arg` -/
  arg : A → A
  /-- `arb_get_unique_fmpz` -/
  uniqueInt : A → Option Int

variable {A : Type}

/-! ## `mth_root_pol.c` -/

/-- `acb_sub_arb(t, u + k, x); if (k >= d1) acb_neg(t, t)`
(mth_root_pol.c 21-23, 41-43, 61-63, 92-94 and 107-109); `sz` is the number of cells of `u`. -/
def factorAt (X : Arith A) (sz : Nat) (u : Nat → A) (d1 : Nat) (x : A) (k : Nat) : Res A := do
  let t ← rdV sz u k
  .ok (if d1 ≤ k then X.neg (X.sub t x) else X.sub t x)

/-- `sqrt_pol_def` (mth_root_pol.c 11-29). -/
def sqrtPolDef (X : Arith A) (sz : Nat) (u : Nat → A) (d1 d : Nat) (x : A) : Res A :=
  loopUp (fun k y => do
    let t ← factorAt X sz u d1 x k
    .ok (X.mul y (X.sqrt t))) d 0 X.one

/-- `mth_root_pol_def` (mth_root_pol.c 31-49); the argument `z` is not used by the C code. -/
def mthRootPolDef (X : Arith A) (sz : Nat) (u : Nat → A) (d1 d : Nat) (x : A) (m : Nat) : Res A :=
  loopUp (fun k y => do
    let t ← factorAt X sz u d1 x k
    .ok (X.mul y (X.root m t))) d 0 X.one

/-- `mth_root_pol_prod` (mth_root_pol.c 51-71). -/
def mthRootPolProd (X : Arith A) (sz : Nat) (u : Nat → A) (d1 d : Nat) (x : A) (m : Nat) : Res A := do
  let y ← loopUp (fun k y => do
    let t ← factorAt X sz u d1 x k
    .ok (X.add y (X.log t))) d 0 X.zero
  .ok (X.exp (X.div y (X.ofInt m)))

/-- `acb_sgn_imag` (mth_root_pol.c 73-80): note the value `0` or `1` on a possibly real ball. -/
def sgnImag (T : Tests A) (x : A) : Int :=
  if T.imHasZero x then (if T.reNonneg x then 1 else 0) else T.imSgn x

/-- state of `acb_prod_turn` after a factor: `y`, sign of `y`, counter; `none` is the early
`return FAIL`. -/
abbrev TurnState (A : Type) := A × Option (Int × Int)

/-- one iteration (mth_root_pol.c 98-133).  On failure at 100-106 `y` is unchanged, at 113-120 it
has been multiplied already. -/
def turnStep (X : Arith A) (T : Tests A) (y : A) (sy q : Int) (t : A) : TurnState A :=
  if sy = 0 then (y, none)
  else
    let y1 := X.mul y t
    let st := sgnImag T t
    if st = 0 then (y1, none)
    else if sy = st then
      let sy1 := sgnImag T y1
      if sy1 ≠ st then (if st > 0 then (y1, some (sy1, q + 1)) else (y1, some (sy1, q - 1)))
      else (y1, some (sy1, q))
    else (y1, some (sgnImag T y1, q))

/-- the loop of `acb_prod_turn` (mth_root_pol.c 98-133), from index `k`. -/
def turnLoop (X : Arith A) (T : Tests A) (sz : Nat) (u : Nat → A) (d1 : Nat) (x : A) :
    (cnt k : Nat) → TurnState A → Res (TurnState A)
  | 0, _, s => .ok s
  | _ + 1, _, (y, none) => .ok (y, none)
  | cnt + 1, k, (y, some (sy, q)) => do
    let t ← factorAt X sz u d1 x k
    turnLoop X T sz u d1 x cnt (k + 1) (turnStep X T y sy q t)

/-- `acb_prod_turn` (mth_root_pol.c 82-136): the product and the counter, `none` for `FAIL` (the
counter is at most `d` in absolute value and never equals the constant `FAIL` for `d < 2^31 - 1`).  `u[0]` is read
even when `d = 0`. -/
def prodTurn (X : Arith A) (T : Tests A) (sz : Nat) (u : Nat → A) (d1 d : Nat) (x : A) :
    Res (A × Option Int) := do
  let y0 ← rdV sz u 0
  let y := if d1 = 0 then X.neg (X.sub y0 x) else X.sub y0 x
  let s ← turnLoop X T sz u d1 x (d - 1) 1 (y, some (sgnImag T y, 0))
  .ok (s.1, s.2.map Prod.snd)

/-- `sqrt_pol_turn` (mth_root_pol.c 138-152). -/
def sqrtPolTurn (X : Arith A) (T : Tests A) (sz : Nat) (u : Nat → A) (d1 d : Nat) (x : A) : Res A := do
  let s ← prodTurn X T sz u d1 d x
  match s with
  | (_, none) => sqrtPolDef X sz u d1 d x
  | (y, some q) => .ok (if q.tmod 2 ≠ 0 then X.neg (X.sqrt y) else X.sqrt y)

/-- `mth_root_pol_turn` (mth_root_pol.c 154-169); `z` is the table of the `m`-th roots of unity, of `zsz` cells. -/
def mthRootPolTurn (X : Arith A) (T : Tests A) (sz : Nat) (u : Nat → A) (d1 d : Nat) (x : A)
    (zsz : Nat) (z : Nat → A) (m : Nat) : Res A := do
  let s ← prodTurn X T sz u d1 d x
  match s with
  | (_, none) => mthRootPolDef X sz u d1 d x m
  | (y, some q) =>
    let q1 := normShift q m
    if q1 ≠ 0 then do
      let zq ← rdV zsz z q1
      .ok (X.mul (X.root m y) zq)
    else .ok (X.root m y)

/-! ## `ydata.c` -/

/-- the sign normalisation and the root of `constant_cab` (ydata.c 14-18): value of `c` before the final
rotation, and `k`. -/
def cabRoot (X : Arith A) (T : Tests A) (ba2 : A) (n m : Nat) : A × Nat :=
  let c := X.pow ba2 n
  if T.reNeg c then (X.root m (X.neg c), 1) else (X.root m c, 0)

/-- `constant_cab` (ydata.c 9-35). -/
def constantCab (X : Arith A) (T : Tests A) (ba2 : A) (n1 n m : Nat) : Res A :=
  let ck := cabRoot X T ba2 n m
  let c := if (ck.2 + n1) % 2 = 0 then X.mul ck.1 (X.unitRoot (2 * m)) else ck.1
  if T.hasZero c then .abort "Cab contains 0" else .ok c

/-- body of the loop storing the transformed points (ydata.c 56-64); state `(l, u)`. -/
def abStep (X : Arith A) (n : Nat) (x : Nat → A) (a b k : Nat) (s : Nat × (Nat → A)) :
    Res (Nat × (Nat → A)) :=
  if k = a ∨ k = b then .ok s
  else do
    let xk ← rdV n x k
    let ab ← rdV (n + 3) s.2 (n - 1)
    let ba ← rdV (n + 3) s.2 (n - 2)
    let u ← wrV (n + 3) s.2 s.1 (X.div (X.sub (X.mul2exp xk 1) ab) ba)
    .ok (s.1 + 1, u)

/-- `acb_swap(u + i, u + j)` -/
def swapV (sz : Nat) (u : Nat → A) (i j : Nat) : Res (Nat → A) := do
  let p ← rdV sz u i
  let q ← rdV sz u j
  let u1 ← wrV sz u i q
  wrV sz u1 j p

/-- the reordering loop `for (k = 0; k < l; k++) if (test(u[k])) swap(u + k--, u + --l)`
(ydata.c 68-71); `cnt = l - k`.  Returns the final `l` and the array. -/
def partLoop (sz : Nat) (p : A → Bool) : (cnt k : Nat) → (Nat → A) → Res (Nat × (Nat → A))
  | 0, k, u => .ok (k, u)
  | cnt + 1, k, u => do
    let uk ← rdV sz u k
    if p uk then do
      let u1 ← swapV sz u k (k + cnt)
      partLoop sz p cnt k u1
    else partLoop sz p cnt (k + 1) u

/-- `ab_points` (ydata.c 37-77) on the array of `n - 2 + 5` cells of `ydata_init_edge`; returns `n1` and the array. -/
def abPoints (X : Arith A) (T : Tests A) (x : Nat → A) (a b n : Nat) (u : Nat → A) :
    Res (Nat × (Nat → A)) := do
  let xb ← rdV n x b
  let xa ← rdV n x a
  let u1 ← wrV (n + 3) u (n - 2) xb
  let u2 ← wrV (n + 3) u1 (n - 1) (X.add xb xa)
  let u3 ← wrV (n + 3) u2 (n - 2) (X.sub xb xa)
  let s ← loopUp (abStep X n x a b) n 0 (0, u3)
  if s.1 ≠ n - 2 then .abort "ab_points"
  else do
    let r ← partLoop (n + 3) T.reNonpos s.1 0 s.2
    let ab ← rdV (n + 3) r.2 (n - 1)
    let ba ← rdV (n + 3) r.2 (n - 2)
    let v1 ← wrV (n + 3) r.2 (n - 1) (X.div ab ba)
    let v2 ← wrV (n + 3) v1 (n - 2) (X.mul2exp ba (-1))
    .ok (r.1, v2)

/-- `limit_edge` (ydata.c 79-96); returns the value stored in `z`. -/
def limitEdge (X : Arith A) (u : Nat → A) (n1 n m : Nat) (x : Int) : Res A := do
  let z ← mthRootPolDef X (n + 3) u n1 (n - 2) (X.ofInt x) m
  let c ← rdV (n + 3) u n
  .ok (X.mul z c)

/-- `ydata_struct` (abel_jacobi.h 72-85); the pointers `ba2, ab, c, ya, yb` are the cells `n-2 … n+2` of `u`. -/
structure YData (A : Type) where
  m : Nat
  n : Nat
  n1 : Nat
  u : Nat → A

namespace YData
/-- `yab->ba2` -/
def ba2 (y : YData A) : A := y.u (y.n - 2)
/-- `yab->ab` -/
def ab (y : YData A) : A := y.u (y.n - 1)
/-- `yab->c` -/
def c (y : YData A) : A := y.u y.n
/-- `yab->ya` -/
def ya (y : YData A) : A := y.u (y.n + 1)
/-- `yab->yb` -/
def yb (y : YData A) : A := y.u (y.n + 2)
end YData

/-- `ydata_init_edge` (ydata.c 98-123) for the edge `(a, b)`; `_acb_vec_init` fills with zeros. -/
def ydataInitEdge (X : Arith A) (T : Tests A) (x : Nat → A) (a b n m : Nat) : Res (YData A) := do
  let r ← abPoints X T x a b n fun _ => X.zero
  let ba2 ← rdV (n + 3) r.2 (n - 2)
  let c ← constantCab X T ba2 r.1 n m
  let u1 ← wrV (n + 3) r.2 n c
  let ya ← limitEdge X u1 r.1 n m (-1)
  let u2 ← wrV (n + 3) u1 (n + 1) ya
  let yb ← limitEdge X u2 r.1 n m 1
  let u3 ← wrV (n + 3) u2 (n + 2) yb
  .ok { m := m, n := n, n1 := r.1, u := u3 }

/-- `tree_ydata_init` (ydata.c 131-138): the data of the edges, in order. -/
def treeYdataInit {W : Type} (X : Arith A) (T : Tests A) (x : Nat → A) (n m : Nat) :
    List (Edge W) → Res (List (YData A))
  | [] => .ok []
  | e :: rest => do
    let y ← ydataInitEdge X T x e.a e.b n m
    let ys ← treeYdataInit X T x n m rest
    .ok (y :: ys)

/-! ## `intersections_tree.c`, numerical part -/

/-- `arb_angle` (intersections_tree.c 42-75): a determination of `arg(ab/cd) / 2 pi`. -/
def arbAngle (X : Arith A) (T : Tests A) (ab cd : A) : Res A :=
  let t := X.div ab cd
  if T.finite t = false then .abort "infinite value"
  else
    let r :=
      if T.reNonpos t then
        let r0 := T.arg (X.neg t)
        if T.reNonneg r0 then X.sub r0 X.pi else X.add r0 X.pi
      else T.arg t
    .ok (X.mul2exp (X.div r X.pi) (-1))

/-- `arb_get_si` (intersections_tree.c 77-93); `fmpz_get_si` requires a value fitting an `slong`. -/
def arbGetSi (T : Tests A) (a : A) : Res Int :=
  match T.uniqueInt a with
  | none => .abort "shift not an integer"
  | some s => if FitsSlong s then .ok s else .ub "fmpz_get_si"

/-- `shift_number` (intersections_tree.c 95-129), type `ABAD`. -/
def shiftAD (X : Arith A) (T : Tests A) (yab ycd : YData A) (m : Nat) : Res Int := do
  let rho ← arbAngle X T yab.ba2 ycd.ba2
  let psi ← arbAngle X T ycd.ya yab.ya
  arbGetSi T (X.add rho (X.mul psi (X.ofInt m)))

/-- `shift_number` (intersections_tree.c 95-129), type `ABBD`. -/
def shiftBD (X : Arith A) (T : Tests A) (yab ycd : YData A) (m : Nat) : Res Int := do
  let rho ← arbAngle X T yab.ba2 ycd.ba2
  let psi ← arbAngle X T ycd.ya yab.yb
  arbGetSi T (X.add (X.add rho (X.mul psi (X.ofInt m))) (X.mul2exp X.one (-1)))

/-- `is_neg_abad` (intersections_tree.c 131-142). -/
def isNegAbad (X : Arith A) (T : Tests A) (ab2 cd2 : A) : Bool := T.imNonpos (X.div ab2 cd2)

/-- the answers `intersection_tree` gets from `tree->data`. -/
def shiftOracle (X : Arith A) (T : Tests A) (data : List (YData A)) (m : Nat) : ShiftOracle where
  abad k l := match data[k]?, data[l]? with
    | some yk, some yl => shiftAD X T yk yl m
    | _, _ => .ub "tree->data"
  abbd k l := match data[k]?, data[l]? with
    | some yk, some yl => shiftBD X T yk yl m
    | _, _ => .ub "tree->data"
  neg k l := match data[k]?, data[l]? with
    | some yk, some yl => isNegAbad X T yk.ba2 yl.ba2
    | _, _ => false

end Hcp
