import Verif.Model.DeRough
import Verif.Spec.DeRough

/-!
# C88: the rough estimate `de_constant_m_d`
-/

namespace Hcp

open Spec

theorem roughLoop_eq (w : Nat → ℂ) (r : ℝ) : ∀ (todo k : Nat) (p : ℝ), roughLoop w r todo k p = p * ((List.range' k todo).map fun i => roughFactor r (deDistanceD (w i).re (w i).im r)).prod
  | 0, _, p => by simp [roughLoop]
  | todo + 1, k, p => by
    rw [roughLoop, roughLoop_eq w r todo (k + 1), List.range'_succ, List.map_cons, List.prod_cons, mul_assoc]
    rfl

/-- the distances of the points as the program computes them -/
noncomputable def dists (w : Nat → ℂ) (len : Nat) (r : ℝ) : List ℝ := (List.range len).map fun i => deDistanceD (w i).re (w i).im r

theorem roughLoop_dists (w : Nat → ℂ) (len : Nat) (r : ℝ) : roughLoop w r len 0 1 = ((dists w len r).map (roughFactor r)).prod := by
  rw [roughLoop_eq, one_mul, dists, List.map_map, List.range_eq_range']
  rfl

/-- **C88 (part).** For `m = 1` the number returned is the estimate. Missing: larger `m`, where it is false (`C88_ignores_points`, `C88_fails`). -/
theorem C88_one_partial (w : Nat → ℂ) (len : Nat) (r : ℝ) (d : Int) : deConstantMD w len r d 1 = .ok (roughConstant r d 1 (dists w len r)) := by
  unfold deConstantMD roughConstant
  rw [if_neg (by decide), roughLoop_dists]
  simp

/-- **C88, negation.** For every `m ≥ 2` the number returned is `r^d`, whatever the points are: the exponent `1/m` is a division of integers. -/
theorem C88_ignores_points (w : Nat → ℂ) (len : Nat) (r : ℝ) (d : Int) {m : Nat} (hm : 2 ≤ m) : deConstantMD w len r d m = .ok (r ^ (d : ℝ)) := by
  unfold deConstantMD
  rw [if_neg (by omega), show Int.tdiv 1 (m : Int) = 0 from Int.tdiv_eq_zero_of_lt (by norm_num) (by omega)]
  simp

/-- **C88, negation.** For every `m ≥ 2` and `r > 0`, and all points whose factors have a positive product other than 1, the number returned is not the estimate. -/
theorem C88_fails (w : Nat → ℂ) (len : Nat) {r : ℝ} (hr : 0 < r) (d : Int) {m : Nat} (hm : 2 ≤ m) (h0 : 0 < ((dists w len r).map (roughFactor r)).prod) (h1 : ((dists w len r).map (roughFactor r)).prod ≠ 1) :
    ∃ v, deConstantMD w len r d m = .ok v ∧ v ≠ roughConstant r d m (dists w len r) := by
  refine ⟨_, C88_ignores_points w len r d hm, fun h => ?_⟩
  unfold roughConstant at h
  have hp := Real.rpow_pos_of_pos h0 (1 / (m : ℝ))
  have hrd := Real.rpow_pos_of_pos hr (d : ℝ)
  rw [eq_div_iff hp.ne'] at h
  have h2 : ((dists w len r).map (roughFactor r)).prod ^ (1 / (m : ℝ)) = 1 := by
    have := mul_left_cancel₀ hrd.ne' (h.trans (mul_one _).symm)
    exact this
  have hm0 : (1 / (m : ℝ)) ≠ 0 := by positivity
  exact h1 ((Real.rpow_left_inj h0.le zero_le_one hm0).1 (h2.trans (Real.one_rpow _).symm))

/-- **C88.** With `m = 0` the program divides by zero. -/
theorem C88_zero (w : Nat → ℂ) (len : Nat) (r : ℝ) (d : Int) : deConstantMD w len r d 0 = .ub "division by zero" := if_pos rfl

/-- one point at `0`, which is in the domain, `r = 1/2`, `m = 2`, `d = 0`: the estimate is `√2`, the program gives `1` -/
example : deConstantMD (fun _ => 0) 1 (1 / 2) 0 2 = .ok 1 ∧ roughConstant (1 / 2) 0 2 (dists (fun _ => 0) 1 (1 / 2)) = √2 ∧ ∃ v, deConstantMD (fun _ => 0) 1 (1 / 2) 0 (2 : Nat) = .ok v ∧ v ≠ roughConstant (1 / 2) 0 2 (dists (fun _ => 0) 1 (1 / 2)) := by
  have hd : deDistanceD 0 0 (1 / 2) < 1 / 100000 := by
    unfold deDistanceD catanh casinh lambdaD
    simp
    have := Real.pi_pos
    nlinarith
  have hp : ((dists (fun _ => 0) 1 (1 / 2)).map (roughFactor (1 / 2))).prod = 1 / 2 := by
    simp only [dists, List.range_one, List.map_cons, List.map_nil, List.prod_cons, List.prod_nil, mul_one, roughFactor, Complex.zero_re, Complex.zero_im]
    rw [if_pos hd]
  refine ⟨?_, ?_, C88_fails _ _ (by norm_num) _ le_rfl (by rw [hp]; norm_num) (by rw [hp]; norm_num)⟩
  · have := C88_ignores_points (fun _ => 0) 1 (1 / 2) 0 (le_refl 2)
    simpa using this
  · unfold roughConstant
    rw [hp]
    simp [Real.sqrt_eq_rpow, Real.inv_rpow]

end Hcp
