import Mathlib.LinearAlgebra.Matrix.NonsingularInverse
import Mathlib.LinearAlgebra.Matrix.Rank
import Mathlib.Data.Rat.Cast.Defs

/-!
# Specification of the symplectic reduction

Independent of the model: plain statements about integer matrices.
-/

namespace Hcp.Spec

variable {r : Nat}

/-- `M` is antisymmetric. -/
def Antisymm (M : Matrix (Fin r) (Fin r) ℤ) : Prop := ∀ a b, M a b = - M b a

/-- rank over the rational numbers -/
noncomputable def rankQ (M : Matrix (Fin r) (Fin r) ℤ) : Nat :=
  (M.map (Int.cast : ℤ → ℚ)).rank

/-- `P` is unimodular: it has an integral inverse. -/
def Unimodular (P : Matrix (Fin r) (Fin r) ℤ) : Prop :=
  ∃ Q : Matrix (Fin r) (Fin r) ℤ, P * Q = 1 ∧ Q * P = 1

/-- `N` is the congruence transform of `M` by `P`. -/
def IsCongruence (P M N : Matrix (Fin r) (Fin r) ℤ) : Prop := N = P * M * P.transpose

/-- index of the partner of `a` in the pairing `(0,1), (2,3), ...` -/
def partner (a : Nat) : Nat := if a % 2 = 0 then a + 1 else a - 1

/-- The first `h` pairs of rows (and columns) of `N` are hyperbolic blocks:
row `a < 2h` vanishes except at its partner, where it does not vanish. -/
def BlockForm (h : Nat) (N : Matrix (Fin r) (Fin r) ℤ) : Prop :=
  2 * h ≤ r ∧ ∀ a b : Fin r, a.val < 2 * h → (N a b ≠ 0 ↔ b.val = partner a.val)

/-- All rows from `2h` on are zero. -/
def ZeroTail (h : Nat) (N : Matrix (Fin r) (Fin r) ℤ) : Prop :=
  ∀ a b : Fin r, 2 * h ≤ a.val → N a b = 0

/-- the matrix `J_h ⊕ 0`: `h` blocks `[[0,1],[-1,0]]`, zero elsewhere -/
def stdJ (r h : Nat) : Matrix (Fin r) (Fin r) ℤ := fun a b =>
  if a.val < 2 * h ∧ a.val % 2 = 0 ∧ b.val = a.val + 1 then 1
  else if b.val < 2 * h ∧ b.val % 2 = 0 ∧ a.val = b.val + 1 then -1
  else 0

end Hcp.Spec
