import Verif.Model.TanhCosh
import Mathlib.Analysis.SpecialFunctions.Trigonometric.DerivHyp
import Mathlib.Analysis.SpecialFunctions.Pow.Real
import Mathlib.Tactic.FieldSimp
import Mathlib.Tactic.Linarith

/-!
# C90: `arb_tanh_cosh2`
-/

namespace Hcp

theorem tanhCosh2_fst (x : ℝ) : (tanhCosh2 x).1 = Real.exp (-(2 * x)) * Real.tanh x := by
  unfold tanhCosh2
  have h1 := Real.exp_pos x
  have h2 : Real.exp (2 * x) = Real.exp x * Real.exp x := by rw [← Real.exp_add]; ring_nf
  dsimp only
  rw [Real.tanh_eq_sinh_div_cosh, Real.sinh_eq, Real.cosh_eq, Real.exp_neg, Real.exp_neg, h2]
  field_simp

theorem tanhCosh2_snd (x : ℝ) : (tanhCosh2 x).2 = 4 * Real.cosh x ^ 2 - 2 * Real.exp (-(2 * x)) := by
  unfold tanhCosh2
  have h1 := Real.exp_pos x
  have h2 : Real.exp (2 * x) = Real.exp x * Real.exp x := by rw [← Real.exp_add]; ring_nf
  dsimp only
  rw [Real.cosh_eq, Real.exp_neg, Real.exp_neg, h2]
  field_simp
  ring

/-- **C90 (part).** At `0` the first number is right. Missing: every other place (`C90_fails`). -/
theorem C90_zero_partial : (tanhCosh2 0).1 = Real.tanh 0 := by
  rw [tanhCosh2_fst]
  simp

/-- **C90, negation.** For every `x ≠ 0` the first number is not `tanh x` (it is `e^(-2x) tanh x`), and for every `x` the second one is smaller than `4 cosh² x` and, for `x ≥ 0`, larger than `cosh² x`: `arb_tanh_cosh2` computes `tanh` at no place but `0`,
and neither `cosh²` nor `4 cosh²`. -/
theorem C90_fails (x : ℝ) : (x ≠ 0 → (tanhCosh2 x).1 ≠ Real.tanh x) ∧ (tanhCosh2 x).2 < 4 * Real.cosh x ^ 2 ∧ (0 ≤ x → Real.cosh x ^ 2 < (tanhCosh2 x).2) := by
  refine ⟨fun hx h => ?_, ?_, fun hx => ?_⟩
  · rw [tanhCosh2_fst] at h
    have ht : Real.tanh x ≠ 0 := by
      rw [Real.tanh_eq_sinh_div_cosh]
      exact div_ne_zero (Real.sinh_ne_zero.2 hx) (Real.cosh_pos x).ne'
    have h1 := mul_right_cancel₀ ht (h.trans (one_mul _).symm)
    rw [Real.exp_eq_one_iff] at h1
    exact hx (by linarith)
  · rw [tanhCosh2_snd]
    have := Real.exp_pos (-(2 * x))
    linarith
  · rw [tanhCosh2_snd]
    have h1 : Real.exp (-(2 * x)) ≤ 1 := Real.exp_le_one_iff.2 (by linarith)
    have h2 := Real.one_le_cosh x
    nlinarith

/-- **C90, negation.** With that branch no node but the first would be right: for every step `h > 0`, `λ > 0` and `k ≥ 1` the abscissa is not `tanh(λ sinh(k h))` and the weight is smaller than `cosh(k h) / cosh²(λ sinh(k h))`. -/
theorem C90_nodes_fail {h lam : ℝ} (hh : 0 < h) (hl : 0 < lam) (m : Nat) {k : Nat} (hk : 1 ≤ k) :
    (deNodeAlt h lam m k).1 ≠ Real.tanh (lam * Real.sinh (k * h)) ∧ (deNodeAlt h lam m k).2.1 < Real.cosh (k * h) / Real.cosh (lam * Real.sinh (k * h)) ^ 2 := by
  have hk' : (0 : ℝ) < k := by exact_mod_cast hk
  have hs : 0 < lam * Real.sinh (k * h) := mul_pos hl (Real.sinh_pos_iff.2 (mul_pos hk' hh))
  have e1 : Real.sinh (h * k) * lam = lam * Real.sinh (k * h) := by rw [mul_comm h, mul_comm]
  unfold deNodeAlt
  dsimp only
  rw [e1, mul_comm h]
  obtain ⟨c1, -, c3⟩ := C90_fails (lam * Real.sinh (k * h))
  exact ⟨c1 hs.ne', div_lt_div_of_pos_left (Real.cosh_pos _) (pow_pos (Real.cosh_pos _) 2) (c3 hs.le)⟩

example : (deNodeAlt (1 / 10) (Real.pi / 2) 3 1).1 ≠ Real.tanh (Real.pi / 2 * Real.sinh ((1 : Nat) * (1 / 10))) := (C90_nodes_fail (by norm_num) (by positivity) 3 le_rfl).1

end Hcp
