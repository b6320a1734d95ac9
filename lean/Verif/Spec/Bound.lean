import Verif.Model.Bound
import Mathlib.Algebra.Order.Group.Unbundled.Abs

/-!
# Specification for bounds by subdivision (C38)
-/

namespace Hcp.Spec

/-- `x` belongs to the ball -/
def In (x : ℝ) (b : RBall) : Prop := |x - b.mid| ≤ b.rad

/-- The operations are correct for the function `F`: `RM m v` says that the enclosure (or upper bound) `m` is valid for the value `v`. -/
structure BoundSound {M V : Type} (S : BoundOps M) (F : ℝ → V) (RM : M → V → Prop) : Prop where
  f : ∀ {t m x}, S.f t = some m → In x t → RM m (F x)
  unionL : ∀ {a b v}, RM a v → RM (S.union a b) v
  unionR : ∀ {a b v}, RM b v → RM (S.union a b) v
  addArf : ∀ {t s x}, In x t → In (x + s) (S.addArf t s)

/-- The roundings of a subdivision in `n` parts are covered by the upward rounding of the radius: `r` is the rounded part of the radius, the error on the first
midpoint plus the part of the radius lost is at most `up r - r`. -/
def RoundOk {M : Type} (S : BoundOps M) (b : RBall) (n : Nat) : Prop :=
  let r := S.rndD (b.rad / n)
  0 < r ∧ |S.rndA (S.rndD (r * (-(n : ℝ) + 1)) + b.mid) - (b.mid - (n - 1) * r)| + max 0 (b.rad - n * r) ≤ S.up r - r

/-- the ball of index `k` in the loop over a subdivision: `k` steps after the first one -/
def ballAt {M : Type} (S : BoundOps M) (t : RBall) (step : ℝ) : Nat → RBall
  | 0 => t
  | k + 1 => ballAt S (S.addArf t step) step k

/-- `Reached S p b0 n0 b n`: starting with `b0` cut in `n0` parts and cutting rejected parts in `p`, the ball `b` is met at some level and is to be cut in `n` parts -/
inductive Reached {M : Type} (S : BoundOps M) (p : Nat) (b0 : RBall) (n0 : Nat) : RBall → Nat → Prop
  | start : Reached S p b0 n0 b0 n0
  | part {b : RBall} {n k : Nat} : Reached S p b0 n0 b n → S.special b.rad = false → k < n →
      S.f (ballAt S (arbSubdivide S b n).1 (arbSubdivide S b n).2 k) = none →
      Reached S p b0 n0 (ballAt S (arbSubdivide S b n).1 (arbSubdivide S b n).2 k) p

end Hcp.Spec
