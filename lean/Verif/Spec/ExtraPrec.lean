import Verif.Model.ExtraPrec
import Verif.Spec.Exact
import Verif.Spec.Edge
import Mathlib.Analysis.SpecialFunctions.Pow.Real

/-!
# What the extra precision is for
-/

namespace Hcp.Spec

/-- Inclusion for the routines on real balls of `mag_constants_edge`; `arb_get_mag` returns an upper bound, and `mag_get_d_log2_approx` an upper bound of the logarithm, up to the truncation by `(long)`.
For an infinite magnitude it returns a very large number. -/
structure MagSound {A B : Type} (M : MagOps A B) (R : A → ℂ → Prop) (RB : B → ℝ → Prop) : Prop where
  abs : ∀ {v z}, R v z → RB (M.abs v) ‖z‖
  div : ∀ {v w s t}, RB v s → RB w t → t ≠ 0 → RB (M.div v w) (s / t)
  mul : ∀ {v w s t}, RB v s → RB w t → RB (M.mul v w) (s * t)
  mul2exp : ∀ {v s} (k : Int), RB v s → RB (M.mul2exp v k) (s * 2 ^ k)
  pow : ∀ {v s} (k : Nat), RB v s → RB (M.pow v k) (s ^ k)
  root : ∀ {v s} (k : Nat), 0 < k → 0 ≤ s → RB v s → RB (M.root v k) (s ^ (1 / k : ℝ))
  inv : ∀ {v s}, s ≠ 0 → RB v s → RB (M.inv v) s⁻¹
  bin : ∀ i l : Nat, RB (M.bin i l) (i.choose l : ℝ)
  mag : ∀ {v s t}, RB v s → M.mag v = some t → |s| ≤ t
  log2 : ∀ s, M.log2 s < 2 ^ 61 → ∃ t, s = some t ∧ t ≤ 2 ^ (M.log2 s + 1)

/-- the coefficient of `∫ t^l y^-j` in the integral of `x^i dx / y^j` over an edge, without the factor `1 - ζ^-j`: `C^-j ((b-a)/2)^(i+1) binomial(i,l) ((b+a)/(b-a))^(i-l)` (see C19) -/
noncomputable def rowCoeff (n : Nat) (u : Nat → ℂ) (i j l : Nat) : ℂ := u (n - 2) ^ (i + 1) / u n ^ j * ((i.choose l : ℂ) * u (n - 1) ^ (i - l))

end Hcp.Spec
