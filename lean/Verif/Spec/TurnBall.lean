import Verif.Model.YData
import Verif.Spec.Tests

/-!
# When the turning number of a product of balls is decided
-/

namespace Hcp.Spec

variable {A : Type}

/-- `arb_contains_zero` is exact: a ball whose imaginary part contains zero contains a real number. -/
def RealPoint (T : Tests A) (R : A → ℂ → Prop) : Prop := ∀ a, T.imHasZero a = true → ∃ z, R a z ∧ z.im = 0

/-- the ball computed for `u_k - x`, or `x - u_k` in the second group -/
def ballFactor (X : Arith A) (u : Nat → A) (d1 : Nat) (x : A) (k : Nat) : A :=
  if k < d1 then X.sub (u k) x else X.neg (X.sub (u k) x)

/-- the ball computed for the product of the factors `0, …, k` -/
def ballProd (X : Arith A) (u : Nat → A) (d1 : Nat) (x : A) : Nat → A
  | 0 => ballFactor X u d1 x 0
  | k + 1 => X.mul (ballProd X u d1 x k) (ballFactor X u d1 x (k + 1))

/-- The position of the balls decides the turning number: there is one factor, or the last product avoids the negative axis in the sense that its imaginary part excludes
zero or its real part is nonnegative; and a product of two balls in the same open half plane (upper or lower) is never
a ball which meets the real axis and lies in the right half plane. -/
structure TurnDecided (X : Arith A) (T : Tests A) (u : Nat → A) (d1 d : Nat) (x : A) : Prop where
  last : d = 1 ∨ T.imHasZero (ballProd X u d1 x (d - 1)) = false ∨ T.reNonneg (ballProd X u d1 x (d - 1)) = true
  step : ∀ k, k + 1 < d → T.imHasZero (ballProd X u d1 x k) = false → T.imHasZero (ballFactor X u d1 x (k + 1)) = false →
    T.imSgn (ballProd X u d1 x k) = T.imSgn (ballFactor X u d1 x (k + 1)) →
    T.imHasZero (ballProd X u d1 x (k + 1)) = true → T.reNonneg (ballProd X u d1 x (k + 1)) = false

end Hcp.Spec
