import Mathlib.Analysis.SpecialFunctions.Trigonometric.Deriv
import Mathlib.Analysis.SpecialFunctions.Pow.Real

/-!
# Model of `arb_tanh_cosh2` (`arb/de_int.c` 9-30)

On exact reals.  The function is called in a branch of `de_int_init` which is not compiled (de_int.c 79, `#if 1`).
-/

namespace Hcp

/-- `arb_tanh_cosh2`, de_int.c 9-30: the numbers written in `t` and `c` -/
noncomputable def tanhCosh2 (x : ℝ) : ℝ × ℝ :=
  -- 16-18
  let e2x := Real.exp (2 * x)
  let p := e2x + 1
  -- 20-22
  let e2x := e2x⁻¹
  let m := 1 - e2x
  -- 24-25
  (m / p, p + m)

/-- one round of the loop of `de_int_init` in the branch which is not compiled (de_int.c 76-78, 86-88): `x`, `dx`, `ch2m` of node `k` -/
noncomputable def deNodeAlt (h lam : ℝ) (m k : Nat) : ℝ × ℝ × ℝ :=
  let kh := h * k
  let sh := Real.sinh kh * lam
  let tc := tanhCosh2 sh
  (tc.1, Real.cosh kh / tc.2, tc.2 ^ ((m : ℝ)⁻¹))

end Hcp
