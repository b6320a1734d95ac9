import Verif.Proofs.DeLine
import Verif.Proofs.DoubleExp
import Verif.Proofs.EdgeAnalytic
import Verif.Props.Segment
import Verif.Spec.DeBound
import Mathlib.Analysis.SpecialFunctions.Artanh
import Mathlib.Analysis.SpecialFunctions.Arsinh
import Mathlib.MeasureTheory.Function.JacobianOneDim

/-!
# The integrand of the double-exponential rule in a strip
-/

namespace Hcp

open MeasureTheory Set Filter Topology

/-- the change of variable `t ↦ tanh (λ sinh t)` -/
noncomputable def deMap (l : ℝ) (t : ℂ) : ℂ := Complex.tanh (l * Complex.sinh t)

theorem deMap_real (l x : ℝ) : deMap l x = (Spec.dePhi l x : ℂ) := by
  unfold deMap Spec.dePhi
  rw [Complex.tanh_eq_sinh_div_cosh]
  push_cast
  rfl

theorem dePhi_eq_tanh (l x : ℝ) : Spec.dePhi l x = Real.tanh (l * Real.sinh x) := by
  unfold Spec.dePhi
  rw [Real.tanh_eq_sinh_div_cosh]

theorem dePhi_mem (l x : ℝ) : Spec.dePhi l x ∈ Ioo (-1 : ℝ) 1 := by
  rw [dePhi_eq_tanh]
  exact Real.tanh_bijOn.mapsTo (mem_univ _)

theorem dePhi_injective {l : ℝ} (hl : l ≠ 0) : Function.Injective (Spec.dePhi l) := by
  intro x y h
  rw [dePhi_eq_tanh, dePhi_eq_tanh] at h
  exact Real.sinh_injective (mul_left_cancel₀ hl (Real.tanh_injective h))

theorem dePhi_image {l : ℝ} (hl : l ≠ 0) : Spec.dePhi l '' univ = Ioo (-1 : ℝ) 1 := by
  refine Subset.antisymm (by rintro _ ⟨x, _, rfl⟩; exact dePhi_mem l x) fun s hs => ?_
  obtain ⟨y, _, hy⟩ := Real.tanh_surjOn hs
  refine ⟨Real.arsinh (y / l), mem_univ _, ?_⟩
  rw [dePhi_eq_tanh, Real.sinh_arsinh, mul_div_cancel₀ _ hl, hy]

/-- points off the image of the strip and different from `± 1` are off the segment -/
theorem one_lt_rOf {l ρ : ℝ} (hl : l ≠ 0) (hρ : 0 < ρ) {u : ℂ} (h : ∀ t ∈ openStrip ρ, deMap l t ≠ u) (h1 : u ≠ 1) (h2 : u ≠ -1) : 1 < Spec.rOf u := by
  have h0 : (-1 : ℂ) ≠ 1 := by norm_num
  have e : Spec.rOf u = Spec.ellipseParam (-1) 1 u := by
    unfold Spec.rOf Spec.ellipseParam
    rw [show (1 : ℂ) - -1 = 2 by norm_num, Complex.norm_ofNat, sub_neg_eq_add, add_comm]
  rw [e]
  refine lt_of_le_of_ne (ellipseParam_ge _ _ _ h0) fun h3 => ?_
  obtain ⟨s, s1, s2, hs⟩ := (ellipseParam_eq _ _ _ h0).1 h3.symm
  have hu : u = s := by
    rw [hs]
    unfold Spec.edgePt
    ring
  have hs' : s ∈ Ioo (-1 : ℝ) 1 := by
    refine ⟨lt_of_le_of_ne s1 fun h4 => ?_, lt_of_le_of_ne s2 fun h4 => ?_⟩
    · exact h2 (by rw [hu, ← h4]; push_cast; rfl)
    · exact h1 (by rw [hu, h4]; push_cast; rfl)
  rw [← dePhi_image hl] at hs'
  obtain ⟨x, _, hx⟩ := hs'
  refine h x (by simp [openStrip, hρ]) ?_
  rw [deMap_real, hx, hu]

theorem deMap_differentiable {l ρ : ℝ} (hl : 0 < l) (hl2 : l ≤ Real.pi / 2) (hρ : ρ ≤ Real.pi / 2) : DifferentiableOn ℂ (deMap l) (openStrip ρ) := by
  have : deMap l = fun t => Complex.sinh (l * Complex.sinh t) / Complex.cosh (l * Complex.sinh t) := by
    ext t
    unfold deMap
    rw [Complex.tanh_eq_sinh_div_cosh]
  rw [this]
  refine DifferentiableOn.div (by fun_prop) (by fun_prop) fun t ht => ?_
  have := de_cosh_ne hl hl2 (x := t.re) (y := t.im) (lt_of_lt_of_le ht hρ)
  rwa [Complex.re_add_im] at this

theorem convex_openStrip (ρ : ℝ) : Convex ℝ (openStrip ρ) := by
  have : openStrip ρ = Complex.imCLM ⁻¹' Metric.ball 0 ρ := by
    ext t
    simp [openStrip]
  rw [this]
  exact (convex_ball (0 : ℝ) ρ).is_linear_preimage Complex.imCLM.toLinearMap.isLinear

/-- size of the curve dependent part of the integrand -/
noncomputable def deSize (m d i j : Nat) (u : Nat → ℂ) (z : ℂ) : ℝ := ‖z‖ ^ i / (∏ k ∈ Finset.range d, ‖z - u k‖) ^ (j / m : ℝ)

/-- the integrand extends to the strip -/
theorem de_extends {m n1 d : Nat} (i j : Nat) {u : Nat → ℂ} {l ρ : ℝ} (hl : 0 < l) (hl2 : l ≤ Real.pi / 2) (hρ0 : 0 < ρ) (hρ : ρ ≤ Real.pi / 2) (h1 : n1 ≤ d) (hm : 0 < m)
    (hne : ∀ k < d, ∀ t ∈ openStrip ρ, deMap l t ≠ u k) (hpm : ∀ k < d, u k ≠ 1 ∧ u k ≠ -1) :
    ∃ F : ℂ → ℂ, DifferentiableOn ℂ F (openStrip ρ) ∧ (∀ x : ℝ, F x = Spec.deTerm m n1 d u l i j x) ∧
      ∀ t ∈ openStrip ρ, ‖F t‖ = deWeight l (1 - j / m) t * deSize m d i j u (deMap l t) := by
  have hmC : (m : ℂ) ≠ 0 := by exact_mod_cast hm.ne'
  have hmR : (m : ℝ) ≠ 0 := by exact_mod_cast hm.ne'
  have hcosh : ∀ t ∈ openStrip ρ, Complex.cosh (l * Complex.sinh t) ≠ 0 := by
    intro t ht
    have := de_cosh_ne hl hl2 (x := t.re) (y := t.im) (lt_of_lt_of_le ht hρ)
    rwa [Complex.re_add_im] at this
  have hmap := deMap_differentiable hl hl2 hρ
  let Q : ℂ → ℂ := fun t => ((∏ k ∈ Finset.range n1, (u k - deMap l t)) * ∏ k ∈ Finset.Ico n1 d, (deMap l t - u k)) * (Complex.cosh (l * Complex.sinh t) ^ 2)⁻¹
  have hQd : DifferentiableOn ℂ Q (openStrip ρ) := by
    refine DifferentiableOn.mul (DifferentiableOn.mul ?_ ?_) ?_
    · exact DifferentiableOn.fun_finsetProd fun k _ => (differentiableOn_const _).sub hmap
    · exact DifferentiableOn.fun_finsetProd fun k _ => hmap.sub (differentiableOn_const _)
    · exact DifferentiableOn.inv (by fun_prop) fun t ht => pow_ne_zero 2 (hcosh t ht)
  have hQ0 : ∀ t ∈ openStrip ρ, Q t ≠ 0 := by
    intro t ht
    refine mul_ne_zero (mul_ne_zero ?_ ?_) (inv_ne_zero (pow_ne_zero 2 (hcosh t ht)))
    · rw [Finset.prod_ne_zero_iff]
      exact fun k hk => sub_ne_zero.2 (hne k (lt_of_lt_of_le (Finset.mem_range.1 hk) h1) t ht).symm
    · rw [Finset.prod_ne_zero_iff]
      exact fun k hk => sub_ne_zero.2 (hne k (Finset.mem_Ico.1 hk).2 t ht)
  have h0mem : (0 : ℂ) ∈ openStrip ρ := by simp [openStrip, hρ0]
  obtain ⟨L, hLd, hL⟩ := exists_holo_log (isOpen_openStrip ρ) (convex_openStrip ρ) ⟨0, h0mem⟩ hQd hQ0
  have hreal : ∀ x : ℝ, (x : ℂ) ∈ openStrip ρ := fun x => by simp [openStrip, hρ0]
  -- the root on the real axis
  let Y : ℝ → ℂ := fun x => Spec.edgeY m n1 d u (Spec.dePhi l x) * ((1 - Spec.dePhi l x ^ 2 : ℝ) : ℂ) ^ ((m : ℂ)⁻¹)
  have hpos : ∀ x : ℝ, 0 < 1 - Spec.dePhi l x ^ 2 := by
    intro x
    have := dePhi_mem l x
    nlinarith [this.1, this.2]
  have hphic : Continuous (Spec.dePhi l) := continuous_iff_continuousAt.2 fun x => (hasDerivAt_dePhi l x).continuousAt
  have hreg := edgeY_regular (m := m) le_rfl h1 (u := u) fun k hk => one_lt_rOf hl.ne' hρ0 (hne k hk) (hpm k hk).1 (hpm k hk).2
  have hYc : Continuous Y := by
    refine Continuous.mul ?_ ?_
    · rw [continuous_iff_continuousAt]
      intro x
      have h2 : ContinuousAt (fun t : ℝ => Spec.edgeY m n1 d u t) (Spec.dePhi l x) := hreg.1.continuousAt (Icc_mem_nhds (dePhi_mem l x).1 (dePhi_mem l x).2)
      exact ContinuousAt.comp (f := Spec.dePhi l) h2 hphic.continuousAt
    · rw [continuous_iff_continuousAt]
      intro x
      refine ContinuousAt.cpow (by fun_prop) continuousAt_const ?_
      exact Complex.ofReal_mem_slitPlane.2 (hpos x)
  have hYm : ∀ x : ℝ, Y x ^ m = Q x := by
    intro x
    simp only [Y, Q, Spec.edgeY]
    rw [mul_pow, mul_pow, ← Finset.prod_pow, ← Finset.prod_pow]
    simp only [Complex.cpow_nat_inv_pow _ hm.ne', deMap_real]
    congr 1
    rw [one_sub_dePhi_sq]
    push_cast
    rfl
  let f : ℝ → ℂ := fun x => Y x * Complex.exp (-(L x / m))
  have hfc : Continuous f := by
    refine hYc.mul (Complex.continuous_exp.comp (Continuous.neg (Continuous.div_const ?_ _)))
    have := strip_line_continuous hLd (y := 0) (by rw [abs_zero]; exact hρ0)
    simpa using this
  have hfm : ∀ x, f x ^ m = 1 := by
    intro x
    simp only [f]
    rw [mul_pow, hYm, ← Complex.exp_nat_mul, ← hL x (hreal x), ← Complex.exp_add]
    rw [show L x + m * -(L x / m) = 0 by field_simp; ring, Complex.exp_zero]
  have hf := const_of_pow_eq_one hfc hm hfm
  have hKm := hfm 0
  generalize f 0 = K at hf hKm
  have hK1 : ‖K‖ = 1 := by
    have := congrArg norm hKm
    rw [norm_pow, norm_one] at this
    exact (pow_eq_one_iff_of_nonneg (norm_nonneg _) hm.ne').1 this
  have hYK : ∀ x : ℝ, Y x = K * Complex.exp (L x / m) := by
    intro x
    rw [← hf x]
    simp only [f]
    rw [mul_assoc, ← Complex.exp_add, neg_add_cancel, Complex.exp_zero, mul_one]
  refine ⟨fun t => (K ^ j)⁻¹ * (l * Complex.cosh t * (Complex.cosh (l * Complex.sinh t) ^ 2)⁻¹ * deMap l t ^ i * Complex.exp (-(j / m * L t))), ?_, fun x => ?_, fun t ht => ?_⟩
  · refine (differentiableOn_const _).mul (((DifferentiableOn.mul (by fun_prop) ?_).mul (hmap.pow i)).mul ?_)
    · exact DifferentiableOn.inv (by fun_prop) fun t ht => pow_ne_zero 2 (hcosh t ht)
    · exact ((hLd.const_mul _).neg).cexp
  · unfold Spec.deTerm
    rw [(hasDerivAt_dePhi l x).deriv]
    have e1 : Spec.edgeY m n1 d u (Spec.dePhi l x) * ((1 - Spec.dePhi l x ^ 2 : ℝ) : ℂ) ^ ((m : ℂ)⁻¹) = Y x := rfl
    beta_reduce
    rw [e1, hYK, mul_pow, ← Complex.exp_nat_mul, deMap_real, Complex.exp_neg]
    push_cast
    rw [show (j : ℂ) * (L x / m) = j / m * L x by ring]
    simp only [div_eq_mul_inv, mul_inv]
    ring
  · have hLn : ‖Complex.exp (-(j / m * L t))‖ = ‖Q t‖ ^ (-(j / m : ℝ)) := by
      rw [← hL t ht, Complex.norm_exp, Complex.norm_exp, ← Real.exp_mul]
      congr 1
      rw [show -((j : ℂ) / m * L t) = ((-(j / m : ℝ) : ℝ) : ℂ) * L t by push_cast; ring, Complex.re_ofReal_mul]
      ring
    have hQn : ‖Q t‖ = (∏ k ∈ Finset.range d, ‖deMap l t - u k‖) * (‖Complex.cosh (l * Complex.sinh t)‖ ^ 2)⁻¹ := by
      simp only [Q]
      rw [norm_mul, norm_mul, norm_inv, norm_pow, norm_prod, norm_prod, ← Finset.prod_range_mul_prod_Ico _ h1]
      simp only [norm_sub_rev (deMap l t)]
    have hC : 0 < ‖Complex.cosh (l * Complex.sinh t)‖ := norm_pos_iff.2 (hcosh t ht)
    have hP : 0 < ∏ k ∈ Finset.range d, ‖deMap l t - u k‖ := Finset.prod_pos fun k hk => norm_pos_iff.2 (sub_ne_zero.2 (hne k (Finset.mem_range.1 hk) t ht))
    beta_reduce
    rw [norm_mul, norm_inv, norm_pow, hK1, one_pow, inv_one, one_mul, norm_mul, hLn, hQn, norm_mul, norm_mul, norm_mul, norm_pow, norm_inv, norm_pow, Complex.norm_real,
      Real.norm_of_nonneg hl.le]
    unfold deWeight deSize
    generalize ‖Complex.cosh (l * Complex.sinh t)‖ = C at hC
    generalize (∏ k ∈ Finset.range d, ‖deMap l t - u k‖) = P at hP
    have e1 : (P * (C ^ 2)⁻¹) ^ (-(j / m : ℝ)) = (P ^ (j / m : ℝ))⁻¹ * C ^ (2 * (j / m : ℝ)) := by
      rw [Real.mul_rpow hP.le (by positivity), Real.rpow_neg hP.le, Real.rpow_neg (by positivity), Real.inv_rpow (by positivity), inv_inv, ← Real.rpow_natCast, ← Real.rpow_mul hC.le]
      norm_num
    have e2 : C ^ (-(2 * (1 - j / m : ℝ))) = (C ^ 2)⁻¹ * C ^ (2 * (j / m : ℝ)) := by
      rw [show -(2 * (1 - (j : ℝ) / m)) = -((2 : ℕ) : ℝ) + 2 * (j / m) by push_cast; ring, Real.rpow_add hC, Real.rpow_neg hC.le, Real.rpow_natCast]
    rw [e1, e2]
    simp only [div_eq_mul_inv]
    ring

/-- the points at infinity of the strip are mapped near `± 1` -/
theorem deMap_near {l r : ℝ} (hl : 0 < l) (hr : 0 ≤ r) (hr2 : r < Real.pi / 2) {δ : ℝ} (hδ : 0 < δ) :
    ∃ X0 : ℝ, ∀ x y : ℝ, X0 ≤ |x| → |y| ≤ r → ‖deMap l (x + y * Complex.I) - 1‖ ≤ δ ∨ ‖deMap l (x + y * Complex.I) + 1‖ ≤ δ := by
  have hcr : 0 < Real.cos r := Real.cos_pos_of_mem_Ioo ⟨by linarith, hr2⟩
  set κ := l * Real.cos r with hκ
  have hκ0 : 0 < κ := mul_pos hl hcr
  refine ⟨κ⁻¹ * (1 + 4 / δ), fun x y hx hy => ?_⟩
  have hcy : Real.cos r ≤ Real.cos y := by
    rw [← Real.cos_abs y]
    exact Real.cos_le_cos_of_nonneg_of_le_pi (abs_nonneg _) (by linarith) hy
  have hs : |x| ≤ Real.sinh |x| := Real.self_le_sinh_iff.2 (abs_nonneg x)
  set A := l * Real.cos y * Real.sinh x with hA
  set B := l * Real.sin y * Real.cosh x with hB
  have hre : 1 + 4 / δ ≤ |A| := by
    rw [hA, abs_mul, abs_mul, abs_of_pos hl, Real.abs_sinh, abs_of_pos (lt_of_lt_of_le hcr hcy)]
    calc 1 + 4 / δ = κ * (κ⁻¹ * (1 + 4 / δ)) := by field_simp
      _ ≤ κ * Real.sinh |x| := mul_le_mul_of_nonneg_left (hx.trans hs) hκ0.le
      _ ≤ _ := by
        have : 0 ≤ Real.sinh |x| := le_trans (abs_nonneg _) hs
        rw [hκ]
        gcongr
  have hA1 : 1 ≤ |A| := le_trans (by have : 0 < 4 / δ := by positivity
                                     linarith) hre
  have hlow : Real.exp |A| / 4 ≤ ‖Complex.cosh (l * Complex.sinh (x + y * Complex.I))‖ := by
    rw [de_arg]
    exact (sinh_abs_ge hA1).trans (cosh_norm_ge _ _)
  have hC : 0 < ‖Complex.cosh (l * Complex.sinh (x + y * Complex.I))‖ := lt_of_lt_of_le (by positivity) hlow
  have hC0 := norm_pos_iff.1 hC
  have hexp : 4 / δ ≤ Real.exp |A| := by
    have := Real.add_one_le_exp |A|
    linarith
  have hfin : Real.exp (-|A|) / ‖Complex.cosh (l * Complex.sinh (x + y * Complex.I))‖ ≤ δ := by
    rw [div_le_iff₀ hC]
    have h1 : Real.exp (-|A|) ≤ 1 := Real.exp_le_one_iff.2 (by linarith)
    have h2 : 1 ≤ δ * (Real.exp |A| / 4) := by
      rw [div_le_iff₀ hδ] at hexp
      linarith
    have h3 : δ * (Real.exp |A| / 4) ≤ δ * ‖Complex.cosh (l * Complex.sinh (x + y * Complex.I))‖ := by gcongr
    linarith
  have hnorm : ∀ z : ℂ, ‖Complex.exp z‖ = Real.exp z.re := Complex.norm_exp
  have hwre : ((l : ℂ) * Complex.sinh (x + y * Complex.I)).re = A := by
    rw [de_arg, Complex.add_re, Complex.re_ofReal_mul, Complex.I_re, mul_zero, add_zero, Complex.ofReal_re]
  rcases le_total 0 A with h | h
  · left
    unfold deMap
    rw [Complex.tanh_eq_sinh_div_cosh, div_sub_one hC0, norm_div]
    have : Complex.sinh (l * Complex.sinh (x + y * Complex.I)) - Complex.cosh (l * Complex.sinh (x + y * Complex.I)) = -Complex.exp (-(l * Complex.sinh (x + y * Complex.I))) := by
      rw [← Complex.cosh_sub_sinh]
      ring
    rw [this, norm_neg, hnorm, Complex.neg_re, hwre]
    rwa [abs_of_nonneg h] at hfin
  · right
    unfold deMap
    rw [Complex.tanh_eq_sinh_div_cosh, div_add_one hC0, norm_div, add_comm, Complex.cosh_add_sinh, hnorm, hwre]
    rwa [abs_of_nonpos h, neg_neg] at hfin

/-- the curve dependent part is bounded near the ends -/
theorem deSize_bounded (m d i j : Nat) {u : Nat → ℂ} (hpm : ∀ k < d, u k ≠ 1 ∧ u k ≠ -1) :
    ∃ δ C : ℝ, 0 < δ ∧ 0 ≤ C ∧ ∀ z : ℂ, ‖z - 1‖ ≤ δ ∨ ‖z + 1‖ ≤ δ → deSize m d i j u z ≤ C := by
  obtain ⟨δ, hδ, hδk⟩ : ∃ δ : ℝ, 0 < δ ∧ ∀ k < d, 2 * δ ≤ ‖1 - u k‖ ∧ 2 * δ ≤ ‖1 + u k‖ := by
    induction d with
    | zero => exact ⟨1, one_pos, fun k hk => absurd hk (by omega)⟩
    | succ d ih =>
      obtain ⟨δ, h1, h2⟩ := ih fun k hk => hpm k (by omega)
      have p1 : 0 < ‖1 - u d‖ := norm_pos_iff.2 (sub_ne_zero.2 (hpm d (by omega)).1.symm)
      have p2 : 0 < ‖1 + u d‖ := norm_pos_iff.2 fun h => (hpm d (by omega)).2 (by linear_combination h)
      refine ⟨min δ (min (‖1 - u d‖ / 2) (‖1 + u d‖ / 2)), lt_min h1 (lt_min (by linarith) (by linarith)), fun k hk => ?_⟩
      have l1 := min_le_left δ (min (‖1 - u d‖ / 2) (‖1 + u d‖ / 2))
      have l2 := min_le_right δ (min (‖1 - u d‖ / 2) (‖1 + u d‖ / 2))
      have l3 := min_le_left (‖1 - u d‖ / 2) (‖1 + u d‖ / 2)
      have l4 := min_le_right (‖1 - u d‖ / 2) (‖1 + u d‖ / 2)
      rcases Nat.lt_succ_iff_lt_or_eq.1 hk with h | rfl
      · have := h2 k h
        constructor <;> linarith
      · constructor <;> linarith
  refine ⟨δ, (1 + δ) ^ i / (δ ^ d) ^ (j / m : ℝ), hδ, by positivity, fun z hz => ?_⟩
  have hz1 : ‖z‖ ≤ 1 + δ := by
    rcases hz with h | h
    · calc ‖z‖ = ‖1 + (z - 1)‖ := by congr 1; ring
        _ ≤ ‖(1 : ℂ)‖ + ‖z - 1‖ := norm_add_le _ _
        _ ≤ _ := by rw [norm_one]; linarith
    · calc ‖z‖ = ‖(z + 1) - 1‖ := by congr 1; ring
        _ ≤ ‖z + 1‖ + ‖(1 : ℂ)‖ := norm_sub_le _ _
        _ ≤ _ := by rw [norm_one]; linarith
  have hk : ∀ k < d, δ ≤ ‖z - u k‖ := by
    intro k hk
    obtain ⟨a1, a2⟩ := hδk k hk
    rcases hz with h | h
    · have : ‖1 - u k‖ ≤ ‖z - u k‖ + ‖z - 1‖ := by
        calc ‖1 - u k‖ = ‖(z - u k) - (z - 1)‖ := by congr 1; ring
          _ ≤ _ := norm_sub_le _ _
      linarith
    · have : ‖1 + u k‖ ≤ ‖z + 1‖ + ‖z - u k‖ := by
        calc ‖1 + u k‖ = ‖(z + 1) - (z - u k)‖ := by congr 1; ring
          _ ≤ _ := norm_sub_le _ _
      linarith
  unfold deSize
  have hprod : δ ^ d ≤ ∏ k ∈ Finset.range d, ‖z - u k‖ := by
    calc δ ^ d = ∏ k ∈ Finset.range d, δ := by simp
      _ ≤ _ := Finset.prod_le_prod (fun _ _ => hδ.le) fun k hk' => hk k (Finset.mem_range.1 hk')
  have := Real.rpow_le_rpow (by positivity) hprod (by positivity : (0 : ℝ) ≤ j / m)
  have : 0 < (δ ^ d) ^ (j / m : ℝ) := by positivity
  gcongr

/-- decay of the extended integrand -/
theorem de_decay {m d i j : Nat} (hm : 0 < m) (hj : j < m) {u : Nat → ℂ} {l r ρ : ℝ} (hl : 0 < l) (hr : 0 ≤ r) (hrρ : r < ρ) (hρ : ρ ≤ Real.pi / 2)
    (hpm : ∀ k < d, u k ≠ 1 ∧ u k ≠ -1) {F : ℂ → ℂ} (hF : ∀ t ∈ openStrip ρ, ‖F t‖ = deWeight l (1 - j / m) t * deSize m d i j u (deMap l t)) : StripDecay F r := by
  have ha : 0 < (1 - j / m : ℝ) := by
    rw [sub_pos, div_lt_one (by exact_mod_cast hm)]
    exact_mod_cast hj
  obtain ⟨C, X0, hC0, hC⟩ := deWeight_decay hl ha hr (by linarith)
  obtain ⟨δ, C', hδ, hC'0, hC'⟩ := deSize_bounded m d i j hpm
  obtain ⟨X1, hX1⟩ := deMap_near hl hr (by linarith : r < Real.pi / 2) hδ
  refine ⟨C * C', max X0 X1, fun x y hx hy => ?_⟩
  rw [hF _ (mem_openStrip (lt_of_le_of_lt hy hrρ)), mul_div_right_comm]
  refine mul_le_mul (hC x y ((le_max_left _ _).trans hx) hy) (hC' _ (hX1 x y ((le_max_right _ _).trans hx) hy)) ?_ (by positivity)
  unfold deSize
  positivity

/-- the integral over the segment -/
theorem de_integral (m n1 d i j : Nat) (u : Nat → ℂ) {l : ℝ} (hl : 0 < l) :
    ∫ t in (-1 : ℝ)..1, (t : ℂ) ^ i / (Spec.edgeY m n1 d u t * ((1 - t ^ 2 : ℝ) : ℂ) ^ ((m : ℂ)⁻¹)) ^ j = ∫ x : ℝ, Spec.deTerm m n1 d u l i j x := by
  rw [intervalIntegral.integral_of_le (by norm_num), integral_Ioc_eq_integral_Ioo, ← dePhi_image hl.ne',
    integral_image_eq_integral_abs_deriv_smul MeasurableSet.univ (fun x _ => (hasDerivAt_dePhi l x).hasDerivWithinAt) (dePhi_injective hl.ne').injOn, setIntegral_univ]
  congr 1
  ext x
  unfold Spec.deTerm
  rw [(hasDerivAt_dePhi l x).deriv, abs_of_pos (by have := Real.cosh_pos x; have := Real.cosh_pos (l * Real.sinh x); positivity), Complex.real_smul, mul_div_assoc]

end Hcp
