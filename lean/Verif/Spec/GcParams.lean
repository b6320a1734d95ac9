import Verif.Model.GcParams
import Mathlib.Analysis.SpecialFunctions.Arcosh
import Mathlib.Analysis.SpecialFunctions.Trigonometric.Basic
import Mathlib.Analysis.Complex.Norm

/-!
# Specification for the error bound of the Gauss-Chebyshev integrals (C45)
-/

namespace Hcp.Spec

/-- what the operations of Arb guarantee: `RA a z`, `RB b x` say that the ball contains the number.  Functions are only constrained on their domains. -/
structure ParSound {A B : Type} (P : ParOps A B) (RA : A → ℂ → Prop) (RB : B → ℝ → Prop) : Prop where
  addSi : ∀ {a z} (k : Int), RA a z → RA (P.addSi a k) (z + k)
  abs : ∀ {a z}, RA a z → RB (P.abs a) ‖z‖
  add : ∀ {a b x y}, RB a x → RB b y → RB (P.add a b) (x + y)
  sub : ∀ {a b x y}, RB a x → RB b y → RB (P.sub a b) (x - y)
  mul : ∀ {a b x y}, RB a x → RB b y → RB (P.mul a b) (x * y)
  div : ∀ {a b x y}, RB a x → RB b y → y ≠ 0 → RB (P.div a b) (x / y)
  mulSi : ∀ {a x} (k : Int), RB a x → RB (P.mulSi a k) (x * k)
  mul2exp : ∀ {a x} (k : Int), RB a x → RB (P.mul2exp a k) (x * 2 ^ k)
  sub1 : ∀ {a x}, RB a x → RB (P.sub1 a) (x - 1)
  subArf : ∀ {a x} (t : ℝ), RB a x → RB (P.subArf a t) (x - t)
  log : ∀ {a x}, RB a x → 0 < x → RB (P.log a) (Real.log x)
  exp : ∀ {a x}, RB a x → RB (P.exp a) (Real.exp x)
  acosh : ∀ {a x}, RB a x → 1 ≤ x → RB (P.acosh a) (Real.arcosh x)
  logSqrt2pi : RB P.logSqrt2pi (Real.log (Real.sqrt (2 * Real.pi)))
  log2 : RB P.log2 (Real.log 2)
  one : RB P.one 1
  isPositive : ∀ {a x}, P.isPositive a = true → RB a x → 0 < x
  overlaps : ∀ {a b x}, P.overlaps a b = false → RB a x → ¬RB b x
  ball : ∀ t s, 0 ≤ s → RB (P.ball t s) t
  mid : ∀ b, RB b (P.mid b)
  mid_ball : ∀ t s, P.mid (P.ball t s) = t
  absLbound : ∀ {b x}, RB b x → P.absLbound b ≤ |x|
  ubound : ∀ {b x t}, P.ubound b = some t → RB b x → x ≤ t
  mag : ∀ {b x e}, P.mag b = some e → RB b x → |x| ≤ e

/-- half the sum of the distances to the ends of the path -/
noncomputable def rOf (u : ℂ) : ℝ := (‖u - 1‖ + ‖u + 1‖) / 2

end Hcp.Spec

namespace Hcp

open Classical in
/-- exact arithmetic -/
noncomputable def exactPar : ParOps ℂ ℝ where
  addSi z k := z + k
  abs z := ‖z‖
  add := (· + ·)
  sub := (· - ·)
  mul := (· * ·)
  div := (· / ·)
  mulSi x k := x * k
  mul2exp x k := x * 2 ^ k
  sub1 x := x - 1
  subArf x t := x - t
  log := Real.log
  exp := Real.exp
  acosh := Real.arcosh
  logSqrt2pi := Real.log (Real.sqrt (2 * Real.pi))
  log2 := Real.log 2
  one := 1
  isPositive x := decide (0 < x)
  isFinite _ := true
  overlaps x y := decide (x = y)
  ball t _ := t
  mid x := x
  absLbound x := |x|
  ubound x := some x
  mag x := some |x|

/-- The double precision functions without rounding.  An infinite or undefined value anywhere ends in an infinite or undefined result, except that `log 0 = -inf` gives `eps = 0` when
`A = 0`, and `A / 0 = inf` gives `eps = 0` when `R = 0 < A`. -/
noncomputable def exactDbl : DblOps where
  acosh r := if 1 ≤ r then some (Real.arcosh r) else none
  affine M K := some (1 + 2 * M / K)
  eps A R :=
    if A < 0 then none
    else if R = 0 then (if A = 0 then none else some 0)
    else if A = 0 then some 0
    else if A + Real.log (A / R) = 0 then none
    else some (R / (A + Real.log (A / R)))
  coshMul R eps := some (Real.cosh (R * (1 - eps)))

end Hcp
