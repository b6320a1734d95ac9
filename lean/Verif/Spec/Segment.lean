import Verif.Spec.Edge

/-!
# Points on a segment
-/

namespace Hcp.Spec

/-- `c` is on the closed segment from `a` to `b` -/
def OnSeg (a b c : ℂ) : Prop := ∃ t : ℝ, -1 ≤ t ∧ t ≤ 1 ∧ c = edgePt a b t

/-- the segment from `x_i` to `x_j` passes through a third point among `x_0, …, x_{len-1}` -/
def Blocked (x : Nat → ℂ) (len i j : Nat) : Prop := ∃ k < len, k ≠ i ∧ k ≠ j ∧ OnSeg (x i) (x j) (x k)

/-- `(|c - a| + |c - b|) / |b - a|` -/
noncomputable def ellipseParam (a b c : ℂ) : ℝ := (‖c - a‖ + ‖c - b‖) / ‖b - a‖

/-- principal value of the inverse hyperbolic tangent -/
noncomputable def catanh (z : ℂ) : ℂ := (Complex.log (1 + z) - Complex.log (1 - z)) / 2

/-- principal value of the inverse hyperbolic sine -/
noncomputable def casinh (z : ℂ) : ℂ := Complex.log (z + (z ^ 2 + 1) ^ ((2 : ℂ)⁻¹))

/-- height of the preimage of `c` under `t ↦ tanh(l sinh t)` mapped to the edge from `a` to `b` -/
noncomputable def stripParam (l : ℝ) (a b c : ℂ) : ℝ := |(casinh (catanh ((2 * c - a - b) / (b - a)) / l)).im|

end Hcp.Spec
