import Verif.Basic
import Mathlib.Data.Real.Basic

/-!
# Model of `arb/mag_func.c`

Balls have real midpoint and radius (Arb's are dyadic).  Roundings are parameters.
-/

namespace Hcp

/-- `arb_t` -/
structure RBall where
  mid : ℝ
  rad : ℝ

/-- roundings and ball operations called by `mag_func.c` -/
structure BoundOps (M : Type) where
  /-- result of an operation on doubles -/
  rndD : ℝ → ℝ
  /-- `ARF_RND_NEAR` at the working precision -/
  rndA : ℝ → ℝ
  /-- `mag_set_d` -/
  up : ℝ → ℝ
  /-- `mag_is_special`: zero or infinite radius -/
  special : ℝ → Bool
  /-- `arb_add_arf` -/
  addArf : RBall → ℝ → RBall
  /-- the function `f` on a ball: `none` when it returns 0, its result is not finite, or the test of lines 73-75 rejects it -/
  f : RBall → Option M
  /-- `arb_union` (or `mag_max`) -/
  union : M → M → M

variable {M : Type} (S : BoundOps M)

/-- `arb_subdivide` (mag_func.c 9-38): first ball and step -/
noncomputable def arbSubdivide (b : RBall) (n : Nat) : RBall × ℝ :=
  let r := S.rndD (b.rad / n)
  let mt := S.rndA (S.rndD (r * (-(n : ℝ) + 1)) + b.mid)
  (⟨mt, S.up r⟩, 2 * r)

/-- body of the loop of `arb_bound_func_arb` (mag_func.c 68-88), `k` being the index and `cnt` the remaining rounds; `rec` is the recursive
call on a rejected ball. -/
def boundLoop (rec : RBall → Res M) (step : ℝ) : (cnt k : Nat) → RBall → M → Res M
  | 0, _, _, m => .ok m
  | cnt + 1, k, t, m => do
    let abs ← match S.f t with
      | some a => .ok a
      | none => rec t
    let m := if k = 0 then abs else S.union m abs
    boundLoop rec step cnt (k + 1) (S.addArf t step) m

/-- `arb_bound_func_arb` (mag_func.c 40-99); the first argument is `depth`, `m` the former content of the result. -/
noncomputable def boundFunc : (depth : Nat) → RBall → (n : Nat) → M → Res M
  | 0, _, _, _ => .abort "illegal ball or limit depth"
  | depth + 1, b, n, m =>
    if S.special b.rad then .abort "illegal ball"
    else
      let (t, step) := arbSubdivide S b n
      boundLoop S (fun t => boundFunc depth t 3 m) step n 0 t m

/-- `mag_func_arb` (mag_func.c 117-171): no depth, but balls of radius below `tiny` (`.00001`) abort.  The value counted (number of evaluations) is dropped; `depth`
bounds the recursion and is a parameter of the model only. -/
noncomputable def magFunc (tiny : ℝ → Bool) : (depth : Nat) → RBall → (n : Nat) → M → Res M
  | 0, _, _, _ => .diverge
  | depth + 1, b, n, m =>
    if S.special b.rad || tiny b.rad then .abort "flint_abort"
    else
      let (t, step) := arbSubdivide S b n
      boundLoop S (fun t => magFunc tiny depth t 5 m) step n 0 t m

end Hcp
