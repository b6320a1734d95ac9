import Verif.Model.DeBound
import Verif.Spec.Segment
import Mathlib.Analysis.SpecialFunctions.Arsinh
import Mathlib.Analysis.SpecialFunctions.Log.Basic
import Mathlib.Analysis.SpecialFunctions.Trigonometric.DerivHyp

/-!
# Model of the parameters and of the error of the double-exponential rule (`arb/de_params.c`, `arb/de_params_d.c`)

The formulas are evaluated exactly: the roundings of the `double` computations and the radii of the balls of `de_error` are not modelled. `lam` is the value of the
macro `LAMBDA` (complex_extras.h 12: `acos(0.)`, the `double` nearest to `pi/2`).
-/

namespace Hcp

/-- the imaginary part `rk` computed for one point (de_params_d.c 68) -/
noncomputable def deHeight (lam : ℝ) (w : ℂ) : ℝ := |(Spec.casinh (Spec.catanh w / lam)).im|

/-- the loop of `de_params_d` on the points (de_params_d.c 66-77): minimum of `r` and of the `rk`, abort when an `rk` is not positive -/
noncomputable def deHeightLoop (lam : ℝ) : List ℂ → ℝ → Res ℝ
  | [], r => .ok r
  | w :: ws, r => if deHeight lam w ≤ 0 then .abort "r <= 0" else deHeightLoop lam ws (if deHeight lam w < r then deHeight lam w else r)

/-- the value of `r` in `de_params_d` (de_params_d.c 62-82), which `de_params` always calls with `r = 0` (de_params.c 309) -/
noncomputable def deRadius (lam : ℝ) (ws : List ℂ) : Res ℝ :=
  match deHeightLoop lam ws (14 / 10) with
  | .ok r => .ok (r * (9 / 10))
  | .abort s => .abort s
  | .ub s => .ub s
  | .diverge => .diverge

/-- `de_constant_b` of `de_params_d.c` 37-48 -/
noncomputable def deConstantBd (lam r alpha : ℝ) : ℝ :=
  let a2 := 2 * alpha
  let y0 := lam * Real.sin r
  let cr := Real.cos r
  let xr := cr * Real.sqrt (lam / y0 - 1)
  2 / cr * (xr / 2 * (Real.cos y0 ^ (-a2) + xr ^ (-a2)) + Real.sinh xr ^ (-a2) / a2)

/-- `alpha` (de_params_d.c 59) -/
noncomputable def deAlpha (m : Nat) : ℝ := (m - 1) / m

/-- the step (de_params_d.c 58-61, 83-85) for a radius `r`: `M2 = 1`, `D = prec log 2` -/
noncomputable def deStep1 (lam r : ℝ) (m prec : Nat) : ℝ :=
  2 * Real.pi * r / (prec * Real.log 2 + Real.log (2 * 1 * deConstantBd lam r (deAlpha m) + 1))

/-- the number of points (de_params_d.c 86) for a step `h`: `M1 = 1` -/
noncomputable def deCount (lam h : ℝ) (m prec : Nat) : Nat :=
  ⌈Real.arsinh ((prec * Real.log 2 + Real.log (32 * 1 / deAlpha m)) / (2 * deAlpha m * lam)) / h⌉₊

/-- `de_constant_b` of `de_params.c` 190-249: `cr = cos r`, `y0 = l sin r`, `xr = cos r sqrt (pi/2/y0 - 1)` -/
noncomputable def deConstantB (l r : ℝ) (j m : Nat) : ℝ :=
  let a2 : ℝ := 2 * (m - j) / m
  let y0 := l * Real.sin r
  let cr := Real.cos r
  let xr := cr * Real.sqrt (Real.pi / 2 / y0 - 1)
  (((xr ^ a2)⁻¹ + (Real.cos y0 ^ a2)⁻¹) * xr + (Real.sinh xr ^ a2 * (m - j) / m)⁻¹ * 2) / cr

/-- first part of `de_error` (de_params.c 261-273); `m2` is the result of `de_constant_m2` -/
noncomputable def deErrorQ (m2 h l r : ℝ) (j m : Nat) : ℝ := m2 * deConstantB l r j m / (Real.exp (2 * (Real.pi * r) / h) - 1)

/-- second part of `de_error` (de_params.c 275-291); `m1` is the result of `de_constant_m1` -/
noncomputable def deErrorT (m1 h l : ℝ) (n j m : Nat) : ℝ :=
  m1 / (Real.exp ((l * Real.sinh (h * n) - Real.log 2) * (2 * (m - j)) / m) * (m - j) / m * l)

/-- `de_error` (de_params.c 251-302) -/
noncomputable def deError (m1 m2 h l : ℝ) (n : Nat) (r : ℝ) (j m : Nat) : ℝ := deErrorT m1 h l n j m + deErrorQ m2 h l r j m

/-- the results of `de_params` -/
structure DeOut where
  n : Nat
  h : ℝ
  l : ℝ
  r : ℝ
  e : ℝ

open Classical in
/-- `de_params` (de_params.c 304-331). `m2` is the bound found by `de_constant_m2` for the radius it is given. The argument `r` of the C function is not used there. -/
noncomputable def deParams (lam : ℝ) (m2 : ℝ → ℝ) (u : List ℂ) (j m prec : Nat) : Res DeOut :=
  if ∃ w ∈ u, |w.re| ≤ 1 ∧ w.im = 0 then .abort "point on edge" else
  match deRadius lam u with
  | .ok r =>
    let h := deStep1 lam r m prec
    let n := deCount lam h m prec
    .ok ⟨n, h, lam, r, deError (deConstantM1 u m) (m2 r) h lam n r j m⟩
  | .abort s => .abort s
  | .ub s => .ub s
  | .diverge => .diverge

end Hcp
