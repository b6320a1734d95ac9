import Verif.Basic
import Mathlib.Data.Real.Basic

/-!
# Model of the random vectors of `arb/utils.c` (lines 11-54)

The generator of FLINT is a parameter: `draw` gives a ball and the next state.
-/

namespace Hcp

/-- the calls of Arb: `Z` is `acb_t`, `B` is `arb_t`, `G` the state of the generator -/
structure RandOps (Z B G : Type) where
  /-- `acb_randtest_precise` -/
  draw : G → Z × G
  /-- `arb_randtest_precise` -/
  drawR : G → B × G
  /-- `acb_overlaps` -/
  overlaps : Z → Z → Bool
  /-- `arb_contains_zero` -/
  hasZero : B → Bool
  /-- the ball around 0 with these radii (real and imaginary part), after `mag_set_d` -/
  box : ℝ → ℝ → Z
  /-- the sum of two doubles -/
  addD : ℝ → ℝ → ℝ

variable {Z B G : Type} (R : RandOps Z B G)

/-- `acb_randtest_exclude` (utils.c 27-33); the first argument is the number of rounds allowed -/
def randExclude (b : Z) : Nat → G → Res (Z × G)
  | 0, _ => .diverge
  | fuel + 1, s => if R.overlaps (R.draw s).1 b then randExclude b fuel (R.draw s).2 else .ok (R.draw s)

/-- the loop of `acb_vec_set_random_u` (utils.c 44-45): `len` cells remain -/
def randVecU (b : Z) (fuel : Nat) : (len : Nat) → G → Res (List Z × G)
  | 0, s => .ok ([], s)
  | len + 1, s => do
    let (z, s) ← randExclude R b fuel s
    let (zs, s) ← randVecU b fuel len s
    .ok (z :: zs, s)

/-- `acb_vec_set_random_u` (utils.c 35-47) -/
def setRandomU (eps : ℝ) (fuel len : Nat) (s : G) : Res (List Z × G) := randVecU R (R.box (R.addD 1 eps) eps) fuel len s

/-- the inner loop of `arb_vec_set_random_nonzero` (utils.c 18-23): the cells and `allzero` -/
def drawVec : (len : Nat) → G → Bool → (List B × Bool) × G
  | 0, s, allzero => (([], allzero), s)
  | len + 1, s, allzero =>
    let (u, s) := R.drawR s
    let r := drawVec len s (if R.hasZero u then allzero else false)
    ((u :: r.1.1, r.1.2), r.2)

/-- `arb_vec_set_random_nonzero` (utils.c 11-25); the first argument is the number of rounds allowed -/
def setRandomNonzero (len : Nat) : Nat → G → Res (List B × G)
  | 0, _ => .diverge
  | fuel + 1, s =>
    let r := drawVec R len s true
    if r.1.2 then setRandomNonzero len fuel r.2 else .ok (r.1.1, r.2)

end Hcp
