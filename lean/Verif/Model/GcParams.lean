import Verif.Model.Arith
import Mathlib.Data.Real.Basic
import Mathlib.Algebra.Order.Floor.Ring
import Mathlib.Algebra.Order.Archimedean.Real.Basic

/-!
# Model of `arb/gc_params.c`

`B` is the type of real balls (`arb_t`), `A` the type of complex ones.  The midpoints read by the code are real numbers.
-/

namespace Hcp

/-- operations of Arb called by `gc_params.c`; the working precision is dropped -/
structure ParOps (A B : Type) where
  /-- `acb_add_si` -/
  addSi : A → Int → A
  /-- `acb_abs` -/
  abs : A → B
  /-- `arb_add` -/
  add : B → B → B
  /-- `arb_sub` -/
  sub : B → B → B
  /-- `arb_mul` -/
  mul : B → B → B
  /-- `arb_div` -/
  div : B → B → B
  /-- `arb_mul_si` -/
  mulSi : B → Int → B
  /-- `arb_mul_2exp_si` -/
  mul2exp : B → Int → B
  /-- `arb_sub_ui (x, 1)` -/
  sub1 : B → B
  /-- `arb_sub_arf` -/
  subArf : B → ℝ → B
  /-- `arb_log` -/
  log : B → B
  /-- `arb_exp` -/
  exp : B → B
  /-- `arb_acosh` -/
  acosh : B → B
  /-- `arb_const_log_sqrt2pi` -/
  logSqrt2pi : B
  /-- `arb_const_log2` -/
  log2 : B
  /-- `arb_one` -/
  one : B
  /-- `arb_is_positive` -/
  isPositive : B → Bool
  /-- `arb_is_finite` -/
  isFinite : B → Bool
  /-- `arb_overlaps` -/
  overlaps : B → B → Bool
  /-- ball of given midpoint and radius (`arf_set_d`, `mag_set_d`, `arb_set`) -/
  ball : ℝ → ℝ → B
  /-- midpoint -/
  mid : B → ℝ
  /-- `arb_get_abs_lbound_arf` -/
  absLbound : B → ℝ
  /-- `arb_get_ubound_arf`; nothing for an infinite or undefined bound -/
  ubound : B → Option ℝ
  /-- `arb_get_mag`; nothing for an infinite magnitude -/
  mag : B → Option ℝ

/-- functions of the C library in double precision; nothing for NaN or an infinite value -/
structure DblOps where
  /-- `acosh` -/
  acosh : ℝ → Option ℝ
  /-- `A = 1 + 2 * M / K` -/
  affine : ℝ → Nat → Option ℝ
  /-- `eps = R / (A + log (A / R))` -/
  eps : (A R : ℝ) → Option ℝ
  /-- `cosh (R * (1. - eps))` -/
  coshMul : (R eps : ℝ) → Option ℝ

variable {A B : Type} (P : ParOps A B) (D : DblOps)

/-- `arb_func_r_gc` (gc_params.c 10-33) -/
def funcRGc (u : A) : Res B :=
  let r := P.mul2exp (P.add (P.abs (P.addSi u (-1))) (P.abs (P.addSi u 1))) (-1)
  if P.isPositive (P.sub1 r) then .ok r else .abort "not enough precision in parameters"

/-- loop of `arb_vec_r` (gc_params.c 41-47); the state is the midpoint of `r0` (`none` before the first round) and the list of the values `r_k`. -/
noncomputable def vecR : List A → Option ℝ → Res (Option ℝ × List B)
  | [], r0 => .ok (r0, [])
  | u :: us, r0 => do
    let r ← funcRGc P u
    let t := P.absLbound r
    let r0 := match r0 with
      | none => t
      | some s => if t < s then t else s
    let rest ← vecR us (some r0)
    .ok (rest.1, r :: rest.2)

/-- product and count of `maj_yr` (gc_params.c 62-72) -/
def majLoop (r : B) (mid : ℝ) : List B → B → Nat → B × Nat
  | [], m, K => (m, K)
  | v :: vr, m, K => if P.overlaps r v then majLoop r mid vr m (K + 1) else majLoop r mid vr (P.mul m (P.subArf v mid)) K

/-- `maj_yr` (gc_params.c 51-83): the new `m` and the count `K` -/
def majYr (m0 r : B) (vr : List B) : Res (B × Nat) :=
  if P.isFinite r then
    let (m, K) := majLoop P r (P.mid r) vr P.one 0
    if P.isFinite m then .ok (P.sub m0 (P.mul2exp (P.log m) (-1)), K) else .abort "maj_yr"
  else .abort "maj_yr"

/-- `choose_r` (gc_params.c 85-103, the branch compiled); NaN and infinities are stored in `r` and make `maj_yr` abort. -/
noncomputable def chooseR (r0 : ℝ) (m : B) (K : Nat) : Res B :=
  match (do
    let R ← D.acosh r0
    let A ← D.affine (P.mid m) K
    let eps ← D.eps A R
    D.coshMul R eps) with
  | some R => if R < 1 then .abort "choose_r" else .ok (P.ball R 0)
  | none => .abort "maj_yr"

/-- the loop of `gc_params` (gc_params.c 188-195); the first argument bounds the number of rounds in the model. -/
noncomputable def gcParLoop (r0 : ℝ) (m0 : B) (vr : List B) : (fuel : Nat) → B → Res (B × B)
  | 0, _ => .diverge
  | fuel + 1, r => do
    let (m, K) ← majYr P m0 r vr
    if K = 0 then .ok (r, m)
    else do
      let r ← chooseR P D r0 m K
      gcParLoop r0 m0 vr fuel r

/-- result of `gc_params`: number of points, error, and (not returned by the code) the parameters `r` and `r0` of the ellipses -/
structure GcPar where
  n : Int
  e : Option ℝ
  r : ℝ
  r0 : ℝ

/-- `arf_get_si (t, ARF_RND_CEIL)` (gc_params.c 206); nothing stands for an infinite or undefined argument. -/
noncomputable def arfGetSi : Option ℝ → Res Int
  | some t => if FitsSlong ⌈t⌉ then .ok ⌈t⌉ else .abort "arf_get_si"
  | none => .abort "arf_get_si"

/-- `gc_params` (gc_params.c 144-237). With no point (`len = 0`) `r0` stays at zero. -/
noncomputable def gcParams (fuel : Nat) (u : List A) (d prec : Int) : Res GcPar := do
  let (r0, vr) ← vecR P u none
  let r0 := r0.getD 0
  let m0 := P.mul2exp P.logSqrt2pi 1
  let m0 := P.add m0 (P.mulSi (P.log (P.ball r0 0)) d)
  let m0 := P.add m0 (P.mulSi P.log2 prec)
  let (r, m) ← gcParLoop P D r0 m0 vr fuel (P.ball r0 (2 / prec))
  let a := P.acosh r
  let n ← arfGetSi (P.ubound (P.mul2exp (P.div m a) (-1)))
  let num := P.mul2exp (P.exp m) (-prec)
  let n2 ← chk (2 * n)
  let e := P.mag (P.div num (P.sub1 (P.exp (P.mulSi a n2))))
  .ok { n := n, e := e, r := P.mid r, r0 := r0 }

end Hcp
