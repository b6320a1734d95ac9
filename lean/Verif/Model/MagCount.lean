import Verif.Model.Bound

/-!
# Model of the number returned by `mag_func_arb`, and of the functions taking an interval (`arb/mag_func.c`)
-/

namespace Hcp

variable {M : Type} (S : BoundOps M)

/-- loop of `mag_func_arb` (mag_func.c 131-163) with the variable `count`; `rec` is the recursive call on a rejected ball.  The list of the balls on which `f` has been
called is kept beside the state (it is not a variable of the program). -/
def countLoop (rec : RBall → Res (M × Nat × List RBall)) (step : ℝ) : (cnt k : Nat) → RBall → M → Nat → List RBall → Res (M × Nat × List RBall)
  | 0, _, _, m, count, log => .ok (m, count, log)
  | cnt + 1, k, t, m, count, log =>
    match S.f t with
    | some a => countLoop rec step cnt (k + 1) (S.addArf t step) (if k = 0 then a else S.union m a) count (log ++ [t])
    | none => do
      let (a, c, l) ← rec t
      countLoop rec step cnt (k + 1) (S.addArf t step) (if k = 0 then a else S.union m a) (count + c) (log ++ t :: l)

/-- `mag_func_arb` (mag_func.c 113-170): bound and number returned.  `tiny` is the test `mag_get_d(rad) < .00001`; `depth` bounds the recursion and is a parameter of the
model only.  Simplification: `count` does not overflow. -/
noncomputable def magFuncCount (tiny : ℝ → Bool) : (depth : Nat) → RBall → (n : Nat) → M → Res (M × Nat × List RBall)
  | 0, _, _, _ => .diverge
  | depth + 1, b, n, m =>
    if S.special b.rad || tiny b.rad then .abort "flint_abort"
    else
      let (t, step) := arbSubdivide S b n
      countLoop S (fun t => magFuncCount tiny depth t 5 m) step n 0 t m n []

/-- `mag_func_arf` (mag_func.c 172-182); `ball` is `arb_set_interval_arf` (Arb). -/
noncomputable def magFuncArf (ball : ℝ → ℝ → RBall) (tiny : ℝ → Bool) (depth : Nat) (tmin tmax : ℝ) (n : Nat) (m : M) : Res (M × Nat × List RBall) :=
  magFuncCount S tiny depth (ball tmin tmax) n m

/-- `arb_bound_func_arf` (mag_func.c 99-111) -/
noncomputable def boundFuncArf (ball : ℝ → ℝ → RBall) (depth : Nat) (tmin tmax : ℝ) (n : Nat) (m : M) : Res M :=
  boundFunc S depth (ball tmin tmax) n m

end Hcp
