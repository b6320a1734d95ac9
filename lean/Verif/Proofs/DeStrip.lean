import Verif.Proofs.Trapezoid
import Verif.Proofs.HoloLog
import Mathlib.Analysis.SpecialFunctions.Trigonometric.DerivHyp
import Mathlib.Analysis.SpecialFunctions.Pow.Deriv

/-!
# The weight of the double-exponential change of variable in a strip
-/

namespace Hcp

open MeasureTheory Set Filter Topology

theorem cosh_norm_sq (a b : ℝ) : ‖Complex.cosh (a + b * Complex.I)‖ ^ 2 = Real.sinh a ^ 2 + Real.cos b ^ 2 := by
  have ec : Complex.cosh (a + b * Complex.I) = ⟨Real.cosh a * Real.cos b, Real.sinh a * Real.sin b⟩ := by
    rw [Complex.cosh_add, Complex.sinh_mul_I, Complex.cosh_mul_I, ← Complex.ofReal_sinh, ← Complex.ofReal_cosh, ← Complex.ofReal_sin,
      ← Complex.ofReal_cos]
    apply Complex.ext <;> simp only [Complex.add_re, Complex.add_im, Complex.mul_re, Complex.mul_im, Complex.ofReal_re, Complex.ofReal_im, Complex.I_re,
      Complex.I_im] <;> ring
  rw [ec, Complex.sq_norm, Complex.normSq_mk]
  have h1 := Real.cosh_sq a
  have h2 := Real.sin_sq_add_cos_sq b
  have h3 : Real.sin b ^ 2 = 1 - Real.cos b ^ 2 := by linarith
  calc Real.cosh a * Real.cos b * (Real.cosh a * Real.cos b) + Real.sinh a * Real.sin b * (Real.sinh a * Real.sin b)
      = Real.cosh a ^ 2 * Real.cos b ^ 2 + Real.sinh a ^ 2 * Real.sin b ^ 2 := by ring
    _ = _ := by rw [h1, h3]; ring

theorem cosh_norm_le (x y : ℝ) : ‖Complex.cosh (x + y * Complex.I)‖ ≤ Real.cosh x := by
  refine abs_le_of_sq_le_sq' ?_ (Real.cosh_pos x).le |>.2
  rw [cosh_norm_sq, Real.cosh_sq]
  linarith [Real.cos_sq_le_one y]

theorem cosh_norm_ge (x y : ℝ) : |Real.sinh x| ≤ ‖Complex.cosh (x + y * Complex.I)‖ := by
  refine abs_le_of_sq_le_sq ?_ (norm_nonneg _)
  rw [cosh_norm_sq]
  linarith [sq_nonneg (Real.cos y)]

theorem de_arg (l x y : ℝ) : (l : ℂ) * Complex.sinh (x + y * Complex.I) =
    ((l * Real.cos y * Real.sinh x : ℝ) : ℂ) + ((l * Real.sin y * Real.cosh x : ℝ) : ℂ) * Complex.I := by
  rw [Complex.sinh_add, Complex.sinh_mul_I, Complex.cosh_mul_I]
  push_cast
  ring

/-- `λ |cosh t| / |cosh (λ sinh t)|^(2α)` -/
noncomputable def deWeight (l a : ℝ) (t : ℂ) : ℝ := l * ‖Complex.cosh t‖ * ‖Complex.cosh (l * Complex.sinh t)‖ ^ (-(2 * a))

theorem deWeight_nonneg {l : ℝ} (hl : 0 ≤ l) (a : ℝ) (t : ℂ) : 0 ≤ deWeight l a t := by
  unfold deWeight
  positivity

/-- the change of variable has no pole in the strip -/
theorem de_cosh_ne {l : ℝ} (hl : 0 < l) (hl2 : l ≤ Real.pi / 2) {x y : ℝ} (hy : |y| < Real.pi / 2) : Complex.cosh (l * Complex.sinh (x + y * Complex.I)) ≠ 0 := by
  intro h0
  have h1 := cosh_norm_sq (l * Real.cos y * Real.sinh x) (l * Real.sin y * Real.cosh x)
  rw [← de_arg, h0, norm_zero] at h1
  have hcos : 0 < Real.cos y := Real.cos_pos_of_mem_Ioo (abs_lt.1 hy)
  have hs : Real.sinh (l * Real.cos y * Real.sinh x) = 0 := by nlinarith [sq_nonneg (Real.sinh (l * Real.cos y * Real.sinh x)), sq_nonneg (Real.cos (l * Real.sin y * Real.cosh x))]
  rw [Real.sinh_eq_zero] at hs
  have hx : x = 0 := by
    rcases mul_eq_zero.1 hs with h | h
    · exact absurd h (mul_pos hl hcos).ne'
    · exact Real.sinh_eq_zero.1 h
  subst hx
  simp only [Real.sinh_zero, mul_zero, Real.cosh_zero, mul_one] at h1
  have hsin : |Real.sin y| < 1 := by
    rw [abs_lt]
    have := Real.sin_sq_add_cos_sq y
    constructor <;> nlinarith [sq_nonneg (Real.sin y)]
  have : |l * Real.sin y| < Real.pi / 2 := by
    rw [abs_mul, abs_of_pos hl]
    nlinarith [abs_nonneg (Real.sin y)]
  have hc : 0 < Real.cos (l * Real.sin y) := Real.cos_pos_of_mem_Ioo (abs_lt.1 this)
  have : 0 < Real.cos (l * Real.sin y) ^ 2 := by positivity
  nlinarith

theorem sinh_abs_ge {z : ℝ} (h : 1 ≤ |z|) : Real.exp |z| / 4 ≤ |Real.sinh z| := by
  rw [Real.abs_sinh, Real.sinh_eq]
  have h1 : Real.exp (-|z|) ≤ 1 := Real.exp_le_one_iff.2 (by linarith)
  have h2 : 2 ≤ Real.exp |z| := by
    have := Real.add_one_le_exp |z|
    linarith
  linarith

/-- `(1 + s)^3 e^(-As)` is bounded -/
theorem poly_exp_bound {A : ℝ} (hA : 0 < A) : ∃ C : ℝ, 0 < C ∧ ∀ s : ℝ, 0 ≤ s → (1 + s) ^ 3 * Real.exp (-(A * s)) ≤ C := by
  set a := min 1 (A / 3) with ha
  have ha0 : 0 < a := lt_min one_pos (by linarith)
  have ha1 : a ≤ 1 := min_le_left _ _
  have ha3 : 3 * a ≤ A := by have := min_le_right 1 (A / 3); rw [← ha] at this; linarith
  refine ⟨(a⁻¹) ^ 3, by positivity, fun s hs => ?_⟩
  have h1 : 1 + s ≤ a⁻¹ * Real.exp (a * s) := by
    have := Real.add_one_le_exp (a * s)
    rw [← div_eq_inv_mul, le_div_iff₀ ha0]
    nlinarith
  calc (1 + s) ^ 3 * Real.exp (-(A * s)) ≤ (a⁻¹ * Real.exp (a * s)) ^ 3 * Real.exp (-(A * s)) := by gcongr
    _ = a⁻¹ ^ 3 * Real.exp ((3 * a - A) * s) := by
      rw [mul_pow, mul_assoc, ← Real.exp_nat_mul, ← Real.exp_add]
      congr 2
      push_cast
      ring
    _ ≤ a⁻¹ ^ 3 * 1 := by
      gcongr
      rw [Real.exp_le_one_iff]
      nlinarith
    _ = _ := mul_one _

/-- the weight decays in the strip -/
theorem deWeight_decay {l a r : ℝ} (hl : 0 < l) (ha : 0 < a) (hr : 0 ≤ r) (hr2 : r < Real.pi / 2) :
    ∃ C X0 : ℝ, 0 < C ∧ ∀ x y : ℝ, X0 ≤ |x| → |y| ≤ r → deWeight l a (x + y * Complex.I) ≤ C / (1 + x ^ 2) := by
  have hcr : 0 < Real.cos r := Real.cos_pos_of_mem_Ioo ⟨by linarith, hr2⟩
  set κ := l * Real.cos r with hκ
  have hκ0 : 0 < κ := mul_pos hl hcr
  obtain ⟨C, hC0, hC⟩ := poly_exp_bound (A := 2 * a * κ) (by positivity)
  refine ⟨l * 4 ^ (2 * a) * C, κ⁻¹, by positivity, fun x y hx hy => ?_⟩
  have hs : |x| ≤ Real.sinh |x| := Real.self_le_sinh_iff.2 (abs_nonneg x)
  have hs0 : 0 ≤ Real.sinh |x| := le_trans (abs_nonneg _) hs
  have hcy : Real.cos r ≤ Real.cos y := by
    rw [← Real.cos_abs y]
    exact Real.cos_le_cos_of_nonneg_of_le_pi (abs_nonneg _) (by linarith) hy
  have hre : κ * Real.sinh |x| ≤ |l * Real.cos y * Real.sinh x| := by
    rw [abs_mul, abs_mul, abs_of_pos hl, Real.abs_sinh, abs_of_pos (lt_of_lt_of_le hcr hcy), hκ]
    gcongr
  have h1 : 1 ≤ κ * Real.sinh |x| := by
    have : κ * κ⁻¹ ≤ κ * Real.sinh |x| := mul_le_mul_of_nonneg_left (hx.trans hs) hκ0.le
    rwa [mul_inv_cancel₀ hκ0.ne'] at this
  have hlow : Real.exp (κ * Real.sinh |x|) / 4 ≤ ‖Complex.cosh (l * Complex.sinh (x + y * Complex.I))‖ := by
    rw [de_arg]
    refine le_trans ?_ (cosh_norm_ge _ _)
    refine le_trans ?_ (sinh_abs_ge (h1.trans hre))
    gcongr
  have hx2 : 1 + x ^ 2 ≤ (1 + Real.sinh |x|) ^ 2 := by
    rw [← sq_abs x]
    nlinarith [abs_nonneg x]
  have hcx : Real.cosh x ≤ 1 + Real.sinh |x| := by
    rw [← Real.cosh_abs]
    refine abs_le_of_sq_le_sq' ?_ (by linarith) |>.2
    rw [Real.cosh_sq]
    nlinarith
  rw [le_div_iff₀ (by positivity)]
  unfold deWeight
  have h2 : ‖Complex.cosh (l * Complex.sinh (x + y * Complex.I))‖ ^ (-(2 * a)) ≤ 4 ^ (2 * a) * Real.exp (-(2 * a * κ * Real.sinh |x|)) := by
    refine (Real.rpow_le_rpow_of_nonpos (by positivity) hlow (by linarith)).trans (le_of_eq ?_)
    rw [Real.div_rpow (Real.exp_pos _).le (by norm_num), ← Real.exp_mul, Real.rpow_neg (by norm_num), div_inv_eq_mul, mul_comm]
    congr 2
    ring
  calc l * ‖Complex.cosh (x + y * Complex.I)‖ * ‖Complex.cosh (l * Complex.sinh (x + y * Complex.I))‖ ^ (-(2 * a)) * (1 + x ^ 2)
      ≤ l * (1 + Real.sinh |x|) * (4 ^ (2 * a) * Real.exp (-(2 * a * κ * Real.sinh |x|))) * (1 + Real.sinh |x|) ^ 2 := by
        gcongr
        exact (cosh_norm_le x y).trans hcx
    _ = l * 4 ^ (2 * a) * ((1 + Real.sinh |x|) ^ 3 * Real.exp (-(2 * a * κ * Real.sinh |x|))) := by ring
    _ ≤ _ := by
      gcongr
      exact hC _ hs0

theorem deWeight_continuous {l : ℝ} (hl : 0 < l) (hl2 : l ≤ Real.pi / 2) (a : ℝ) {y : ℝ} (hy : |y| < Real.pi / 2) : Continuous fun x : ℝ => deWeight l a (x + y * Complex.I) := by
  unfold deWeight
  refine Continuous.mul (by fun_prop) ?_
  refine Continuous.rpow_const (by fun_prop) fun x => Or.inl ?_
  exact norm_ne_zero_iff.2 (de_cosh_ne hl hl2 hy)

theorem deWeight_integrable {l a y : ℝ} (hl : 0 < l) (hl2 : l ≤ Real.pi / 2) (ha : 0 < a) (hy : |y| < Real.pi / 2) : Integrable fun x : ℝ => deWeight l a (x + y * Complex.I) := by
  obtain ⟨C, X0, hC0, hC⟩ := deWeight_decay hl ha (abs_nonneg y) hy
  have hb := decay_isBigO (f := fun x : ℝ => ((deWeight l a (x + y * Complex.I) : ℝ) : ℂ)) (C := C) (X0 := X0) fun x hx => by
    rw [Complex.norm_real, Real.norm_of_nonneg (deWeight_nonneg hl.le _ _)]
    exact hC x y hx le_rfl
  refine (deWeight_continuous hl hl2 a hy).locallyIntegrable.integrable_of_isBigO_cocompact (g := fun x : ℝ => (1 + x ^ 2)⁻¹) ?_ (integrable_inv_one_add_sq.integrableAtFilter _)
  refine (Asymptotics.isBigO_norm_left.1 ?_)
  refine (Asymptotics.isBigO_norm_left.2 hb).congr_left fun x => ?_
  rw [Complex.norm_real]

/-- symmetry of the weight -/
theorem deWeight_abs {l a : ℝ} (x y : ℝ) : deWeight l a (x + y * Complex.I) = deWeight l a ((|x| : ℝ) + (|y| : ℝ) * Complex.I) := by
  unfold deWeight
  have h1 : ‖Complex.cosh (x + y * Complex.I)‖ = ‖Complex.cosh ((|x| : ℝ) + (|y| : ℝ) * Complex.I)‖ := by
    rw [← sq_eq_sq₀ (norm_nonneg _) (norm_nonneg _), cosh_norm_sq, cosh_norm_sq, Real.cos_abs, ← Real.abs_sinh, sq_abs]
  have h2 : ‖Complex.cosh (l * Complex.sinh (x + y * Complex.I))‖ = ‖Complex.cosh (l * Complex.sinh ((|x| : ℝ) + (|y| : ℝ) * Complex.I))‖ := by
    rw [← sq_eq_sq₀ (norm_nonneg _) (norm_nonneg _), de_arg, de_arg, cosh_norm_sq, cosh_norm_sq, Real.cos_abs, Real.cosh_abs]
    congr 1
    · rcases le_total 0 x with h | h
      · rw [abs_of_nonneg h]
      · rw [abs_of_nonpos h, Real.sinh_neg, mul_neg, Real.sinh_neg, neg_sq]
    · rcases le_total 0 y with h | h
      · rw [abs_of_nonneg h]
      · rw [abs_of_nonpos h, Real.sin_neg, mul_neg, neg_mul, Real.cos_neg]
  rw [h1, h2]

end Hcp
