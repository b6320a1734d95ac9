import Verif.Model.Integrate
import Verif.Spec.Tests
import Verif.Spec.Edge
import Mathlib.Analysis.SpecialFunctions.Gamma.Basic

/-!
# Exact values of the further functions of Arb, and their enclosure property
-/

namespace Hcp

/-- mathematical values -/
noncomputable def exactFns : Fns ℂ where
  re z := (z.re : ℂ)
  im z := (z.im : ℂ)
  sinh := Complex.sinh
  cosh := Complex.cosh
  gammaQ p q := Complex.Gamma ((p : ℂ) / q)
  sqrtPi := (Real.sqrt Real.pi : ℂ)

/-- inclusion property of these functions -/
structure EnclosesFns {A B : Type} (F : Fns A) (G : Fns B) (R : A → B → Prop) : Prop where
  re : ∀ {a b}, R a b → R (F.re a) (G.re b)
  im : ∀ {a b}, R a b → R (F.im a) (G.im b)
  sinh : ∀ {a b}, R a b → R (F.sinh a) (G.sinh b)
  cosh : ∀ {a b}, R a b → R (F.cosh a) (G.cosh b)
  gammaQ : ∀ p q, R (F.gammaQ p q) (G.gammaQ p q)
  sqrtPi : R F.sqrtPi G.sqrtPi

theorem exactFns_encloses : EnclosesFns exactFns exactFns Eq where
  re := by rintro _ _ rfl; rfl
  im := by rintro _ _ rfl; rfl
  sinh := by rintro _ _ rfl; rfl
  cosh := by rintro _ _ rfl; rfl
  gammaQ _ _ := rfl
  sqrtPi := rfl

namespace Spec

/-- the Chebyshev node number `k` among `n` -/
noncomputable def chebNode (n k : Nat) : ℝ := Real.cos ((2 * k + 1) / (2 * n) * Real.pi)

/-- the double-exponential change of variable `x = tanh(lam sinh t)` -/
noncomputable def dePhi (lam t : ℝ) : ℝ := Real.sinh (lam * Real.sinh t) / Real.cosh (lam * Real.sinh t)

/-- the integrand `x^i dx / (y(x) (1 - x^2)^(1/m))^j` of an edge, pulled back by the change of variable -/
noncomputable def deTerm (m d1 d : Nat) (u : Nat → ℂ) (lam : ℝ) (i j : Nat) (t : ℝ) : ℂ :=
  ((deriv (dePhi lam) t : ℝ) : ℂ) * (dePhi lam t : ℂ) ^ i /
    (edgeY m d1 d u (dePhi lam t) * ((1 - dePhi lam t ^ 2 : ℝ) : ℂ) ^ ((m : ℂ)⁻¹)) ^ j

end Spec

end Hcp
