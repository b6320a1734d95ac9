import Mathlib.Analysis.SpecialFunctions.Pow.Real
import Mathlib.Analysis.SpecialFunctions.Sqrt

/-!
# Search of extrema by golden section (`arb/mag_func_d.c`)

The `double` operations are replaced by exact operations on reals.
-/

namespace Hcp

/-- `eps`, `mag_func_d.c` 8 -/
noncomputable def gsEps : ℝ := 1 / 100000

/-- `phi`, `mag_func_d.c` 9 -/
noncomputable def gsPhi : ℝ := (1 + Real.sqrt 5) / 2

/-- `c`, `mag_func_d.c` 11 and 20 -/
noncomputable def gsC (a b : ℝ) : ℝ := b - (b - a) / gsPhi

/-- `d`, `mag_func_d.c` 12 and 21 -/
noncomputable def gsD (a b : ℝ) : ℝ := a + (b - a) / gsPhi

open scoped Classical in
/-- `golden_search`, `mag_func_d.c` 5-24: the loop with at most `fuel` rounds; `none` when it is not finished.
The list is the list of arguments of the calls to `f`. -/
noncomputable def goldenLoop (f : ℝ → ℝ) : Nat → ℝ → ℝ → List ℝ → Option (ℝ × List ℝ)
  | 0, _, _, _ => none
  | fuel + 1, a, b, evals =>
    if |gsC a b - gsD a b| > gsEps then
      if f (gsC a b) < f (gsD a b) then goldenLoop f fuel a (gsD a b) (evals ++ [gsC a b, gsD a b])
      else goldenLoop f fuel (gsC a b) b (evals ++ [gsC a b, gsD a b])
    else some ((b + a) / 2, evals)

/-- `golden_search` returns `r` after calls of `f` on `evals` -/
def GoldenSearch (f : ℝ → ℝ) (a b r : ℝ) (evals : List ℝ) : Prop := ∃ fuel, goldenLoop f fuel a b [] = some (r, evals)

/-- loop of `max_func_d_gs`, `mag_func_d.c` 36-42, from round `k` on; `a` and `h` do not change.
The first argument gives the results of the calls of `golden_search`. -/
noncomputable def maxLoop (gs : ℝ → ℝ → ℝ) (a h : ℝ) (steps k : Nat) (r : ℝ) : ℝ :=
  if k < steps then
    let m := gs a (a + h)
    maxLoop gs a h steps (k + 1) (if k = 0 ∨ m > r then m else r)
  else r
termination_by steps - k

/-- `max_func_d_gs`, `mag_func_d.c` 26-44, for `steps > 0` -/
noncomputable def maxFuncGs (gs : ℝ → ℝ → ℝ) (a b : ℝ) (steps : Nat) : ℝ := maxLoop gs a ((b - a) / steps) steps 0 (-1)

end Hcp
