import Mathlib.Data.Complex.Basic
import Mathlib.LinearAlgebra.Matrix.NonsingularInverse
import Mathlib.Data.Complex.BigOperators

/-!
# Riemann matrices (C61)
-/

namespace Hcp.Spec

/-- `tau` is a Riemann matrix: it is symmetric and its imaginary part is positive definite -/
structure IsRiemannMatrix {g : Nat} (tau : Matrix (Fin g) (Fin g) ℂ) : Prop where
  symm : ∀ i j, tau i j = tau j i
  pos : ∀ v : Fin g → ℝ, v ≠ 0 → 0 < ∑ i, ∑ j, v i * (tau i j).im * v j

/-- Riemann's bilinear relations for the periods `W` of `g` holomorphic differentials (row `r`: the integrals of the differential number `r` over `N` closed paths) and the intersection numbers `K` of these paths.
The row `r` of `V` is a combination of the paths dual to the differential `r`: the integral of this differential over a path is the intersection number of the combination with the path.  The intersection numbers of
the dual combinations are then `∫ ω ∧ ω' = 0`, and `i ∫ ω ∧ conj ω > 0` for `ω ≠ 0`. -/
def RiemannRelations {g N : Nat} (W : Matrix (Fin g) (Fin N) ℂ) (K : Matrix (Fin N) (Fin N) ℤ) : Prop :=
  ∃ V : Matrix (Fin g) (Fin N) ℂ, (∀ r b, ∑ a, V r a * K a b = W r b) ∧ (∀ r s, ∑ a, ∑ b, V r a * K a b * V s b = 0) ∧
    ∀ v : Fin g → ℂ, v ≠ 0 → 0 < (Complex.I * ∑ a, ∑ b, (∑ r, v r * V r a) * K a b * (starRingEnd ℂ) (∑ r, v r * V r b)).re

end Hcp.Spec
