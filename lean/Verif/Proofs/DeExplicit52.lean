import Verif.Proofs.DeExplicit
import Mathlib.Analysis.Real.Pi.Bounds

/-!
# The double-exponential sums for `y^5 = x^2 - 1`: explicit constants
-/

namespace Hcp

open MeasureTheory Set Filter Topology Spec

/-- the radius `de_params` chooses when there is no other point -/
noncomputable def r52 : ℝ := 14 / 10 * (9 / 10)

theorem r52_val : r52 = 63 / 50 := by unfold r52; norm_num

theorem r52_sin : 4 / 5 ≤ Real.sin r52 ∧ Real.sin r52 ≤ 24 / 25 := by
  have p1 := Real.pi_gt_d4
  have p2 := Real.pi_lt_d4
  rw [r52_val]
  constructor
  · have h := Real.mul_le_sin (x := 63 / 50) (by norm_num) (by linarith)
    refine le_trans ?_ h
    rw [div_mul_eq_mul_div, le_div_iff₀ Real.pi_pos]
    linarith
  · rw [← Real.cos_pi_div_two_sub]
    have h1 : Real.cos (Real.pi / 2 - 63 / 50) ≤ Real.cos (31 / 100) := Real.cos_le_cos_of_nonneg_of_le_pi (by norm_num) (by linarith) (by linarith)
    have h2 := Real.cos_bound (x := 31 / 100) (by norm_num [abs_of_pos])
    rw [abs_le] at h2
    have h3 := h2.2
    rw [abs_of_pos (by norm_num : (0 : ℝ) < 31 / 100)] at h3
    norm_num at h3 ⊢
    linarith

theorem r52_cos : 3 / 10 ≤ Real.cos r52 ∧ Real.cos r52 ≤ 1 := by
  have p1 := Real.pi_gt_d4
  have p2 := Real.pi_lt_d4
  refine ⟨?_, Real.cos_le_one _⟩
  rw [r52_val, ← Real.sin_pi_div_two_sub]
  have h1 : Real.sin (31 / 100) ≤ Real.sin (Real.pi / 2 - 63 / 50) := Real.sin_le_sin_of_le_of_le_pi_div_two (by linarith) (by linarith) (by linarith)
  have h2 := Real.sin_gt_sub_cube (x := 31 / 100) (by norm_num)
  norm_num at h2
  linarith

theorem y52_cos : 1 / 25 ≤ Real.cos (Real.pi / 2 * Real.sin r52) ∧ Real.cos (Real.pi / 2 * Real.sin r52) ≤ 1 := by
  obtain ⟨s1, s2⟩ := r52_sin
  have hpi := Real.pi_pos
  refine ⟨?_, Real.cos_le_one _⟩
  rw [← Real.sin_pi_div_two_sub]
  have h := Real.mul_le_sin (x := Real.pi / 2 - Real.pi / 2 * Real.sin r52) (by nlinarith) (by nlinarith)
  have e : 2 / Real.pi * (Real.pi / 2 - Real.pi / 2 * Real.sin r52) = 1 - Real.sin r52 := by field_simp
  rw [e] at h
  linarith

/-- `xr` -/
theorem x52 : 3 / 50 ≤ Real.cos r52 * Real.sqrt (Real.pi / 2 / (Real.pi / 2 * Real.sin r52) - 1) ∧ Real.cos r52 * Real.sqrt (Real.pi / 2 / (Real.pi / 2 * Real.sin r52) - 1) ≤ 1 / 2 := by
  obtain ⟨s1, s2⟩ := r52_sin
  obtain ⟨c1, c2⟩ := r52_cos
  have hpi := Real.pi_pos
  have e : Real.pi / 2 / (Real.pi / 2 * Real.sin r52) - 1 = 1 / Real.sin r52 - 1 := by field_simp
  rw [e]
  have q1 : 1 / 25 ≤ 1 / Real.sin r52 - 1 := by
    have : 26 / 25 ≤ 1 / Real.sin r52 := by rw [le_div_iff₀ (by linarith)]; linarith
    linarith
  have q2 : 1 / Real.sin r52 - 1 ≤ 1 / 4 := by
    have : 1 / Real.sin r52 ≤ 5 / 4 := by rw [div_le_iff₀ (by linarith)]; linarith
    linarith
  have r1 : 1 / 5 ≤ Real.sqrt (1 / Real.sin r52 - 1) := Real.le_sqrt_of_sq_le (by rw [show (1 / 5 : ℝ) ^ 2 = 1 / 25 by norm_num]; exact q1)
  have r2 : Real.sqrt (1 / Real.sin r52 - 1) ≤ 1 / 2 := by
    rw [Real.sqrt_le_left (by norm_num)]
    rw [show (1 / 2 : ℝ) ^ 2 = 1 / 4 by norm_num]
    exact q2
  constructor <;> nlinarith

theorem rpow_neg_le {x c e : ℝ} {k : Nat} (hc : 0 < c) (hc1 : c ≤ 1) (hx : c ≤ x) (he : 0 ≤ e) (hek : e ≤ k) : x ^ (-e) ≤ (c ^ k)⁻¹ := by
  calc x ^ (-e) ≤ c ^ (-e) := Real.rpow_le_rpow_of_nonpos hc hx (by linarith)
    _ ≤ c ^ (-(k : ℝ)) := Real.rpow_le_rpow_of_exponent_ge hc hc1 (by linarith)
    _ = _ := by rw [Real.rpow_neg hc.le, Real.rpow_natCast]

theorem deConstantBd52 : deConstantBd (Real.pi / 2) r52 (deAlpha 5) ≤ 3000 := by
  obtain ⟨c1, c2⟩ := r52_cos
  obtain ⟨y1, y2⟩ := y52_cos
  obtain ⟨x1, x2⟩ := x52
  have ea : deAlpha 5 = 4 / 5 := by unfold deAlpha; norm_num
  unfold deConstantBd
  simp only
  rw [ea]
  set xr := Real.cos r52 * Real.sqrt (Real.pi / 2 / (Real.pi / 2 * Real.sin r52) - 1) with hxr
  have hsx : 3 / 50 ≤ Real.sinh xr := x1.trans (Real.self_le_sinh_iff.2 (by linarith))
  have b1 := rpow_neg_le (k := 2) (e := 2 * (4 / 5)) (by norm_num) (by norm_num) y1 (by norm_num) (by norm_num)
  have b2 := rpow_neg_le (k := 2) (e := 2 * (4 / 5)) (by norm_num) (by norm_num) x1 (by norm_num) (by norm_num)
  have b3 := rpow_neg_le (k := 2) (e := 2 * (4 / 5)) (by norm_num) (by norm_num) hsx (by norm_num) (by norm_num)
  have n1 : 0 ≤ Real.cos (Real.pi / 2 * Real.sin r52) ^ (-(2 * (4 / 5) : ℝ)) := Real.rpow_nonneg (by linarith) _
  have n2 : 0 ≤ xr ^ (-(2 * (4 / 5) : ℝ)) := Real.rpow_nonneg (by linarith) _
  have n3 : 0 ≤ Real.sinh xr ^ (-(2 * (4 / 5) : ℝ)) := Real.rpow_nonneg (by linarith) _
  set A := Real.cos (Real.pi / 2 * Real.sin r52) ^ (-(2 * (4 / 5) : ℝ))
  set B := xr ^ (-(2 * (4 / 5) : ℝ))
  set D := Real.sinh xr ^ (-(2 * (4 / 5) : ℝ))
  norm_num at b1 b2 b3
  have h2c : 2 / Real.cos r52 ≤ 20 / 3 := by rw [div_le_iff₀ (by linarith)]; linarith
  have h2c0 : 0 ≤ 2 / Real.cos r52 := by positivity
  have hin : xr / 2 * (A + B) + D / (2 * (4 / 5)) ≤ 1 / 4 * (A + B) + D * (5 / 8) := by
    have h1 : xr / 2 * (A + B) ≤ 1 / 4 * (A + B) := mul_le_mul_of_nonneg_right (by linarith) (by linarith)
    have h2 : D / (2 * (4 / 5)) = D * (5 / 8) := by ring
    linarith
  have hin0 : 0 ≤ xr / 2 * (A + B) + D / (2 * (4 / 5)) := by
    have : 0 ≤ xr := by linarith
    positivity
  calc _ ≤ 20 / 3 * (1 / 4 * (A + B) + D * (5 / 8)) := mul_le_mul h2c hin hin0 (by norm_num)
    _ ≤ 3000 := by linarith

theorem deConstantB52 : 0 ≤ deConstantB (Real.pi / 2) r52 3 5 ∧ deConstantB (Real.pi / 2) r52 3 5 ≤ 400 := by
  obtain ⟨c1, c2⟩ := r52_cos
  obtain ⟨y1, y2⟩ := y52_cos
  obtain ⟨x1, x2⟩ := x52
  unfold deConstantB
  simp only
  set xr := Real.cos r52 * Real.sqrt (Real.pi / 2 / (Real.pi / 2 * Real.sin r52) - 1) with hxr
  have hsx : 3 / 50 ≤ Real.sinh xr := x1.trans (Real.self_le_sinh_iff.2 (by linarith))
  have e1 : (2 * (((5 : ℕ) : ℝ) - ((3 : ℕ) : ℝ)) / ((5 : ℕ) : ℝ)) = 4 / 5 := by norm_num
  rw [e1]
  have b1 := rpow_neg_le (k := 1) (e := 4 / 5) (by norm_num) (by norm_num) y1 (by norm_num) (by norm_num)
  have b2 := rpow_neg_le (k := 1) (e := 4 / 5) (by norm_num) (by norm_num) x1 (by norm_num) (by norm_num)
  have b3 := rpow_neg_le (k := 1) (e := 4 / 5) (by norm_num) (by norm_num) hsx (by norm_num) (by norm_num)
  rw [Real.rpow_neg (by linarith)] at b1 b2 b3
  have n1 : 0 ≤ (Real.cos (Real.pi / 2 * Real.sin r52) ^ (4 / 5 : ℝ))⁻¹ := inv_nonneg.2 (Real.rpow_nonneg (by linarith) _)
  have n2 : 0 ≤ (xr ^ (4 / 5 : ℝ))⁻¹ := inv_nonneg.2 (Real.rpow_nonneg (by linarith) _)
  have n3 : 0 ≤ (Real.sinh xr ^ (4 / 5 : ℝ))⁻¹ := inv_nonneg.2 (Real.rpow_nonneg (by linarith) _)
  have e2 : (Real.sinh xr ^ (4 / 5 : ℝ) * (((5 : ℕ) : ℝ) - ((3 : ℕ) : ℝ)) / ((5 : ℕ) : ℝ))⁻¹ = (Real.sinh xr ^ (4 / 5 : ℝ))⁻¹ * (5 / 2) := by
    rw [mul_div_assoc, mul_inv]
    norm_num
  rw [e2]
  set A := (Real.cos (Real.pi / 2 * Real.sin r52) ^ (4 / 5 : ℝ))⁻¹
  set B := (xr ^ (4 / 5 : ℝ))⁻¹
  set D := (Real.sinh xr ^ (4 / 5 : ℝ))⁻¹
  norm_num at b1 b2 b3
  have hx0 : 0 ≤ xr := by linarith
  constructor
  · apply div_nonneg _ (by linarith)
    positivity
  · rw [div_le_iff₀ (by linarith)]
    nlinarith

/-- the integral on the sides of the strip -/
theorem line52 {y : ℝ} (hy : |y| = r52) : ∫ x : ℝ, deWeight (Real.pi / 2) (1 - (4 : ℕ) / (5 : ℕ)) (x + y * Complex.I) ≤ 300 := by
  have p1 := Real.pi_gt_d4
  have p2 := Real.pi_lt_d4
  obtain ⟨s1, s2⟩ := r52_sin
  obtain ⟨c1, c2⟩ := r52_cos
  obtain ⟨y1, y2⟩ := y52_cos
  have ea : (1 - (4 : ℕ) / (5 : ℕ) : ℝ) = 1 / 5 := by norm_num
  rw [ea]
  have hcosh : Real.cosh (1 / 5) ≤ 25 / 24 := by
    have h := Real.add_one_le_exp (-(1 / 5 : ℝ))
    have h4 := Real.cosh_sq (1 / 5)
    have h5 : Real.sinh (1 / 5) ≤ 9 / 40 := by
      rw [Real.sinh_eq]
      have h0 := Real.exp_pos (1 / 5 : ℝ)
      rw [Real.exp_neg] at h ⊢
      have h1 := mul_le_mul_of_nonneg_right h h0.le
      rw [inv_mul_cancel₀ h0.ne'] at h1
      have h2 : Real.exp (1 / 5) ≤ 5 / 4 := by linarith
      have h3 : 4 / 5 ≤ (Real.exp (1 / 5))⁻¹ := by linarith
      linarith
    have h6 : 0 ≤ Real.sinh (1 / 5) := Real.sinh_nonneg_iff.2 (by norm_num)
    have h7 : Real.sinh (1 / 5) ^ 2 ≤ (9 / 40) ^ 2 := pow_le_pow_left₀ h6 h5 2
    by_contra h8
    push Not at h8
    have h9 : (25 / 24) ^ 2 < Real.cosh (1 / 5) ^ 2 := pow_lt_pow_left₀ h8 (by norm_num) (by norm_num)
    rw [h4] at h9
    norm_num at h9 h7
    linarith
  have hstrip : Real.sin r52 * Real.sin (2 * (Real.pi / 2 * Real.sin r52)) ≤ 2 * (Real.pi / 2) * Real.cos r52 ^ 2 := by
    rw [Real.cos_sq', ← Real.sin_pi_sub (2 * (Real.pi / 2 * Real.sin r52))]
    have h := Real.sin_le (x := Real.pi - 2 * (Real.pi / 2 * Real.sin r52)) (by nlinarith)
    nlinarith
  have h := deWeight_line (l := Real.pi / 2) (a := 1 / 5) (r := r52) (T := 1 / 5) (by linarith) le_rfl (by norm_num) (by rw [r52_val]; norm_num) (by rw [r52_val]; linarith) hy hstrip (by norm_num)
    (by
      have h1 : Real.sin r52 * Real.cosh (1 / 5) ≤ 24 / 25 * (25 / 24) := mul_le_mul s2 hcosh (Real.cosh_pos _).le (by norm_num)
      rw [mul_assoc]
      nlinarith)
  refine h.trans ?_
  have hs1 : 1 / 5 ≤ Real.sinh (1 / 5) := Real.self_le_sinh_iff.2 (by norm_num)
  have hs2 : Real.sinh (1 / 5) ≤ 1 / 2 := by
    have h3 := Real.cosh_sq (1 / 5)
    have h4 := Real.cosh_pos (1 / 5)
    by_contra h5
    push Not at h5
    nlinarith
  have hw : 9 / 100 ≤ Real.sinh (Real.pi / 2 * Real.cos r52 * Real.sinh (1 / 5)) := by
    refine le_trans ?_ (Real.self_le_sinh_iff.2 (by positivity))
    have : 3 / 10 * (1 / 5) ≤ Real.cos r52 * Real.sinh (1 / 5) := mul_le_mul c1 hs1 (by norm_num) (by linarith)
    nlinarith
  have b1 := rpow_neg_le (k := 1) (e := 2 * (1 / 5)) (by norm_num) (by norm_num) y1 (by norm_num) (by norm_num)
  have b2 := rpow_neg_le (k := 1) (e := 2 * (1 / 5)) (by norm_num) (by norm_num) hw (by norm_num) (by norm_num)
  have n1 : 0 ≤ Real.cos (Real.pi / 2 * Real.sin r52) ^ (-(2 * (1 / 5) : ℝ)) := Real.rpow_nonneg (by linarith) _
  have n2 : 0 ≤ Real.sinh (Real.pi / 2 * Real.cos r52 * Real.sinh (1 / 5)) ^ (-(2 * (1 / 5) : ℝ)) := Real.rpow_nonneg (by linarith) _
  set A := Real.cos (Real.pi / 2 * Real.sin r52) ^ (-(2 * (1 / 5) : ℝ))
  set B := Real.sinh (Real.pi / 2 * Real.cos r52 * Real.sinh (1 / 5)) ^ (-(2 * (1 / 5) : ℝ))
  norm_num at b1 b2
  have q1 : Real.pi / 2 * Real.sinh (1 / 5) * A ≤ 4 / 5 * 25 := by
    refine mul_le_mul ?_ b1 n1 (by norm_num)
    nlinarith
  have q2 : (2 * (1 / 5) * Real.cos r52)⁻¹ * B ≤ 25 / 3 * (100 / 9) := by
    refine mul_le_mul ?_ b2 n2 (by norm_num)
    rw [inv_le_comm₀ (by positivity) (by norm_num)]
    linarith
  linarith

theorem edgeSize_nil (m j : Nat) (u : Nat → ℂ) (z : ℂ) : edgeSize m 0 0 j u z = 1 := by
  unfold edgeSize
  simp

theorem exp_wins {D : ℝ} (hD : 693 ≤ D) : 2 ^ 111 * (D + 10) * Real.exp (-(D / 4)) < 10 * Real.exp (-5) := by
  have hl2 := Real.log_two_lt_d9
  set X := Real.exp (-(D / 8)) with hX
  have hX0 : 0 < X := Real.exp_pos _
  have h8 : (2 : ℝ) ^ 111 * X < Real.exp (-5) := by
    have : (2 : ℝ) ^ 111 = Real.exp (111 * Real.log 2) := by
      rw [show (111 : ℝ) * Real.log 2 = Real.log (2 ^ 111) by rw [Real.log_pow]; norm_num, Real.exp_log (by positivity)]
    rw [this, hX, ← Real.exp_add]
    exact Real.exp_lt_exp.2 (by linarith)
  have h2 : (D / 8 + 1) * X ≤ 1 := by
    have := mul_le_mul_of_nonneg_right (Real.add_one_le_exp (D / 8)) hX0.le
    rwa [hX, ← Real.exp_add, add_neg_cancel, Real.exp_zero] at this
  have e5 : Real.exp (-(D / 4)) = X * X := by rw [hX, ← Real.exp_add]; congr 1; ring
  have h3 : (D + 10) * X ≤ 10 := by nlinarith
  have h4 : 0 < (D + 10) * X := by
    have : 0 < D + 10 := by linarith
    positivity
  rw [e5]
  generalize (2 : ℝ) ^ 111 = M at h8 ⊢
  have h5 : 0 < Real.exp (-5 : ℝ) := Real.exp_pos _
  calc M * (D + 10) * (X * X) = (M * X) * ((D + 10) * X) := by ring
    _ < Real.exp (-5) * ((D + 10) * X) := mul_lt_mul_of_pos_right h8 h4
    _ ≤ Real.exp (-5) * 10 := mul_le_mul_of_nonneg_left h3 h5.le
    _ = _ := by ring

theorem deL0_52 : deL0 (Real.pi / 2) r52 5 ≤ 10 := by
  have hl2 := Real.log_two_lt_d9
  have ea : deAlpha 5 = 4 / 5 := by unfold deAlpha; norm_num
  have : deL0 (Real.pi / 2) r52 5 ≤ 13 * Real.log 2 := by
    unfold deL0
    rw [show 13 * Real.log 2 = Real.log (2 ^ 13) by rw [Real.log_pow]; norm_num]
    have h1 := deConstantBd52
    refine Real.log_le_log ?_ (by norm_num; linarith)
    by_contra h2
    have h3 : 0 ≤ deConstantBd (Real.pi / 2) r52 (deAlpha 5) := by
      unfold deConstantBd
      simp only
      obtain ⟨c1, c2⟩ := r52_cos
      obtain ⟨y1, y2⟩ := y52_cos
      obtain ⟨x1, x2⟩ := x52
      have z1 : 0 ≤ Real.cos (Real.pi / 2 * Real.sin r52) := by linarith
      have z2 : 0 ≤ Real.cos r52 * Real.sqrt (Real.pi / 2 / (Real.pi / 2 * Real.sin r52) - 1) := by linarith
      have z3 := Real.sinh_nonneg_iff.2 z2
      have := Real.rpow_nonneg z1 (-(2 * deAlpha 5))
      have := Real.rpow_nonneg z2 (-(2 * deAlpha 5))
      have := Real.rpow_nonneg z3 (-(2 * deAlpha 5))
      rw [ea] at *
      positivity
    linarith
  linarith

theorem radius52_const {m2 : ℝ → ℝ} (hm2 : |m2 r52| ≤ 2 ^ 100) :
    |deConstantM1 [] 5| * Real.exp (2 * ((((5 : ℕ) : ℝ) - ((3 : ℕ) : ℝ)) / ((5 : ℕ) : ℝ)) * Real.log 2) / ((((5 : ℕ) : ℝ) - ((3 : ℕ) : ℝ)) / ((5 : ℕ) : ℝ) * (Real.pi / 2)) + 2 * |m2 r52 * deConstantB (Real.pi / 2) r52 3 5| ≤ 2 ^ 110 := by
  have p1 := Real.pi_gt_d4
  have hl1 := Real.log_two_gt_d9
  have hm1 : |deConstantM1 [] 5| ≤ 1 := by
    unfold deConstantM1
    simp
  obtain ⟨b1, b2⟩ := deConstantB52
  have h1 : Real.exp (2 * ((((5 : ℕ) : ℝ) - ((3 : ℕ) : ℝ)) / ((5 : ℕ) : ℝ)) * Real.log 2) ≤ 2 := by
    calc _ ≤ Real.exp (Real.log 2) := Real.exp_le_exp.2 (by push_cast; linarith)
      _ = 2 := Real.exp_log two_pos
  have h2 : |deConstantM1 [] 5| * Real.exp (2 * ((((5 : ℕ) : ℝ) - ((3 : ℕ) : ℝ)) / ((5 : ℕ) : ℝ)) * Real.log 2) ≤ 1 * 2 := mul_le_mul hm1 h1 (Real.exp_pos _).le (by norm_num)
  have h3 : |deConstantM1 [] 5| * Real.exp (2 * ((((5 : ℕ) : ℝ) - ((3 : ℕ) : ℝ)) / ((5 : ℕ) : ℝ)) * Real.log 2) / ((((5 : ℕ) : ℝ) - ((3 : ℕ) : ℝ)) / ((5 : ℕ) : ℝ) * (Real.pi / 2)) ≤ 4 := by
    rw [div_le_iff₀ (by push_cast; linarith)]
    push_cast at h2 ⊢
    linarith
  have h4 : |m2 r52 * deConstantB (Real.pi / 2) r52 3 5| ≤ 2 ^ 100 * 400 := by
    rw [abs_mul, abs_of_nonneg b1]
    exact mul_le_mul hm2 b2 b1 (by norm_num)
  calc _ ≤ (4 : ℝ) + 2 * (2 ^ 100 * 400) := by linarith
    _ ≤ _ := by norm_num

/-- **the radius is too small at every precision from 1000 on** -/
theorem radius52 {m2 : ℝ → ℝ} (hm2 : |m2 r52| ≤ 2 ^ 100) {prec : Nat} (hp : 1000 ≤ prec) : ∃ o, deParams (Real.pi / 2) m2 [] 3 5 prec = .ok o ∧
    o.e < ‖trapSum 5 0 0 (fun _ => ((0 : ℝ) : ℂ)) o.l 0 4 o.h o.n - edgeIntegral 5 0 0 (fun _ => ((0 : ℝ) : ℂ)) 0 4‖ := by
  have p1 := Real.pi_gt_d4
  have p2 := Real.pi_lt_d4
  have hl1 := Real.log_two_gt_d9
  have hl2 := Real.log_two_lt_d9
  have hr0 : 0 < r52 := by rw [r52_val]; norm_num
  have hr2 : r52 < Real.pi / 2 := by rw [r52_val]; linarith
  have hpi : 0 < Real.pi / 2 := by linarith
  have hout : deParams (Real.pi / 2) m2 [] 3 5 prec = .ok ⟨deCount (Real.pi / 2) (deStep1 (Real.pi / 2) r52 5 prec) 5 prec, deStep1 (Real.pi / 2) r52 5 prec, Real.pi / 2, r52,
      deError (deConstantM1 [] 5) (m2 r52) (deStep1 (Real.pi / 2) r52 5 prec) (Real.pi / 2) (deCount (Real.pi / 2) (deStep1 (Real.pi / 2) r52 5 prec) 5 prec) r52 3 5⟩ := by
    unfold deParams
    rw [if_neg (by simp)]
    rfl
  refine ⟨_, hout, ?_⟩
  dsimp only
  -- the constants
  have ea : deAlpha 5 = 4 / 5 := by unfold deAlpha; norm_num
  have hC0 : deC0 5 ≤ 6 * Real.log 2 := by
    unfold deC0
    rw [ea, show 6 * Real.log 2 = Real.log (2 ^ 6) by rw [Real.log_pow]; norm_num]
    exact Real.log_le_log (by norm_num) (by norm_num)
  have hC1 := deC0_pos (m := 5) (by norm_num)
  have hL1 := deL0_nonneg (m := 5) (by norm_num) hpi le_rfl hr0 hr2
  have hL0 := deL0_52
  set D := prec * Real.log 2 with hD
  have hpR : (1000 : ℝ) ≤ prec := by exact_mod_cast hp
  have hDge : 693 ≤ D := by nlinarith
  have hstep : deStep1 (Real.pi / 2) r52 5 prec = 2 * Real.pi * r52 / (D + deL0 (Real.pi / 2) r52 5) := rfl
  have hden : 0 < D + deL0 (Real.pi / 2) r52 5 := by linarith
  have hnum : 7 ≤ 2 * Real.pi * r52 ∧ 2 * Real.pi * r52 ≤ 8 := by rw [r52_val]; constructor <;> linarith
  have hh1 : deStep1 (Real.pi / 2) r52 5 prec ≤ 1 / 50 := by
    rw [hstep, div_le_iff₀ hden]
    linarith
  have hh2 : 7 / (D + 10) ≤ deStep1 (Real.pi / 2) r52 5 prec := by
    rw [hstep]
    exact div_le_div₀ (by linarith) hnum.1 hden (by linarith)
  have hvh : (prec * Real.log 2 + deC0 5) / (2 * deAlpha 5 * (Real.pi / 2)) * deStep1 (Real.pi / 2) r52 5 prec ≤ 4 := by
    rw [hstep, ea, div_mul_div_comm, div_le_iff₀ (by positivity)]
    have h1 : prec * Real.log 2 + deC0 5 ≤ 101 / 100 * (D + deL0 (Real.pi / 2) r52 5) := by linarith
    have h2 := mul_le_mul_of_nonneg_right h1 (by positivity : 0 ≤ 2 * Real.pi * r52)
    refine h2.trans ?_
    rw [r52_val] at *
    nlinarith [mul_pos Real.pi_pos hden]
  have hK := deCount_at (m := 5) (by norm_num) hpi le_rfl hr0 hr2 (by omega : 1 ≤ prec) hh1 hvh
  have hE : Real.exp (1 / 50) ≤ 50 / 49 := by
    have h := Real.add_one_le_exp (-(1 / 50 : ℝ))
    rw [Real.exp_neg] at h
    have h0 := Real.exp_pos (1 / 50 : ℝ)
    have h1 := mul_le_mul_of_nonneg_right h h0.le
    rw [inv_mul_cancel₀ h0.ne'] at h1
    norm_num at h1 ⊢
    linarith
  have hS : Real.sinh (1 / 50) ≤ 1 / 10 := by
    rw [Real.sinh_eq]
    have := Real.add_one_le_exp (-(1 / 50 : ℝ))
    linarith
  have hK5 : 4 * Real.exp (1 / 50) + Real.sinh (1 / 50) ≤ 5 := by linarith
  have hK' := hK.trans (add_le_add_right hK5 _)
  have hlow := de_lower_at (m := 5) (n1 := 0) (d := 0) (j := 4) (u := fun _ => 0) (by norm_num) (by norm_num) le_rfl hpi le_rfl hr0 hr2 le_rfl (by intro k hk; omega) (by simp) (by simp)
    (s := 1) (B := 300) one_pos (fun x _ _ => by rw [edgeSize_nil]) (by norm_num) (fun y hy => by simpa only [edgeSize_nil, mul_one] using line52 hy) (by omega : 1 ≤ prec) hK'
  refine lt_of_le_of_lt (deError_at (m := 5) (j := 3) (by norm_num) (by norm_num) (by norm_num) hpi le_rfl hr0 hr2 _ _ (by omega : 1 ≤ prec)) (lt_of_lt_of_le ?_ hlow)
  rw [← hD]
  have e1 : -(2 * (1 - ((4 : ℕ) : ℝ) / ((5 : ℕ) : ℝ)) * (Real.pi / 2) * 5) - (((5 : ℕ) : ℝ) - ((4 : ℕ) : ℝ)) / (((5 : ℕ) : ℝ) - 1) * deC0 5 + -((((5 : ℕ) : ℝ) - ((4 : ℕ) : ℝ)) / (((5 : ℕ) : ℝ) - 1) * D) = -Real.pi - deC0 5 / 4 - D / 4 := by
    push_cast
    ring
  have e2 : -((((5 : ℕ) : ℝ) - ((3 : ℕ) : ℝ)) / (((5 : ℕ) : ℝ) - 1) * D) = -(D / 2) := by push_cast; ring
  rw [e1, e2]
  have hA := radius52_const hm2
  set E := Real.exp (-(D / 4)) with hEdef
  have e3 : Real.exp (-(D / 2)) = E * E := by rw [hEdef, ← Real.exp_add]; congr 1; ring
  have e4 : Real.exp (-D) ≤ E * E := by rw [hEdef, ← Real.exp_add]; exact Real.exp_le_exp.2 (by linarith)
  have hE0 : 0 < E := Real.exp_pos _
  have hG : Real.exp (-5) * E ≤ Real.exp (-Real.pi - deC0 5 / 4 - D / 4) := by
    rw [hEdef, ← Real.exp_add]
    exact Real.exp_le_exp.2 (by linarith)
  have hbig := exp_wins hDge
  rw [← hEdef] at hbig
  have hM : (2 ^ 110 + 4 * 300 : ℝ) ≤ 2 ^ 111 := by norm_num
  have hA' := hA
  generalize (2 : ℝ) ^ 110 = M0 at hA hM
  generalize (2 : ℝ) ^ 111 = M1 at hbig hM
  clear hA'
  have hfin : (M0 * (E * E) + 4 * 300 * (E * E)) * (D + 10) < 7 * (Real.pi / 2 * 1 * (Real.exp (-5) * E)) := by
    have h1 : M1 * (D + 10) * E * E < 10 * Real.exp (-5) * E := mul_lt_mul_of_pos_right hbig hE0
    have h3 : (M0 + 4 * 300) * ((D + 10) * E * E) ≤ M1 * ((D + 10) * E * E) := mul_le_mul_of_nonneg_right hM (by positivity)
    have h4 : 0 < Real.exp (-5) * E := by positivity
    nlinarith
  have hX : 7 / (D + 10) * (Real.pi / 2 * 1 * (Real.exp (-5) * E)) ≤ deStep1 (Real.pi / 2) r52 5 prec * (Real.pi / 2 * 1 * Real.exp (-Real.pi - deC0 5 / 4 - D / 4)) := by
    gcongr
    exact le_trans (by positivity) hh2
  have hY : M0 * (E * E) + 4 * 300 * (E * E) < 7 / (D + 10) * (Real.pi / 2 * 1 * (Real.exp (-5) * E)) := by
    rw [div_mul_eq_mul_div, lt_div_iff₀ (by linarith)]
    exact hfin
  have hZ := mul_le_mul_of_nonneg_right hA (Real.exp_pos (-(D / 2))).le
  rw [e3] at hZ ⊢
  linarith

end Hcp
