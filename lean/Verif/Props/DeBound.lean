import Verif.Spec.DeBound
import Verif.Props.Bound
import Mathlib.Analysis.SpecialFunctions.Trigonometric.DerivHyp
import Mathlib.Tactic.LinearCombination
import Mathlib.Topology.Order.Compact
import Mathlib.Analysis.Real.Pi.Bounds
import Mathlib.Analysis.SpecialFunctions.Pow.Continuity

/-!
# C41: folding into the first quadrant; C43, C44: the constants of the double-exponential error bound
-/

namespace Hcp

open Spec

theorem foldQ_dist (z u : ℂ) : ‖foldQ z - foldQ u‖ ≤ ‖z - u‖ := by
  rw [Complex.norm_def, Complex.norm_def]
  apply Real.sqrt_le_sqrt
  simp only [Complex.normSq_apply, Complex.sub_re, Complex.sub_im, foldQ]
  have h1 : (|z.re| - |u.re|) ^ 2 ≤ (z.re - u.re) ^ 2 := sq_le_sq.2 (abs_abs_sub_abs_le _ _)
  have h2 : (|z.im| - |u.im|) ^ 2 ≤ (z.im - u.im) ^ 2 := sq_le_sq.2 (abs_abs_sub_abs_le _ _)
  nlinarith

theorem foldQ_neg (z : ℂ) : foldQ (-z) = foldQ z := by
  simp [foldQ, abs_neg]

theorem foldQ_conj (z : ℂ) : foldQ (starRingEnd ℂ z) = foldQ z := by
  simp [foldQ, abs_neg]

theorem foldQ_norm (z : ℂ) : ‖foldQ z‖ = ‖z‖ := by
  rw [Complex.norm_def, Complex.norm_def]
  congr 1
  simp [Complex.normSq_apply, foldQ]

theorem foldQ_self {z : ℂ} (h1 : 0 ≤ z.re) (h2 : 0 ≤ z.im) : foldQ z = z := by
  simp [foldQ, abs_of_nonneg h1, abs_of_nonneg h2]

theorem deCurve_conj (l r t : ℝ) : deCurve l (-r) t = starRingEnd ℂ (deCurve l r t) := by
  unfold deCurve
  rw [← Complex.tanh_conj, map_mul, Complex.conj_ofReal, ← Complex.sinh_conj, map_add, map_mul, Complex.conj_ofReal, Complex.conj_ofReal,
    Complex.conj_I]
  congr 3
  push_cast
  ring

theorem deCurve_neg (l r t : ℝ) : deCurve l r (-t) = -starRingEnd ℂ (deCurve l r t) := by
  rw [← deCurve_conj]
  unfold deCurve
  rw [← Complex.tanh_neg, ← mul_neg, ← Complex.sinh_neg]
  congr 3
  push_cast
  ring

theorem foldQ_deCurve (l r t : ℝ) {s : ℝ} (hs : s = r ∨ s = -r) : foldQ (deCurve l s t) = foldQ (deCurve l r |t|) := by
  have h1 : foldQ (deCurve l s t) = foldQ (deCurve l r t) := by
    rcases hs with rfl | rfl
    · rfl
    · rw [deCurve_conj, foldQ_conj]
  rw [h1]
  rcases abs_choice t with h | h
  · rw [h]
  · rw [h, deCurve_neg, foldQ_neg, foldQ_conj]

/-- the curve stays in the closed first quadrant up to `tmax` -/
theorem deCurve_quadrant {l r t : ℝ} (hl : 0 ≤ l) (ht : 0 ≤ t) (hc : 0 ≤ Real.cos r) (hs : 0 ≤ Real.sin r)
    (hb : l * (Real.cosh t * Real.sin r) ≤ Real.pi / 2) : 0 ≤ (deCurve l r t).re ∧ 0 ≤ (deCurve l r t).im := by
  have e1 : (l : ℂ) * Complex.sinh (t + r * Complex.I) = ((l * (Real.sinh t * Real.cos r) : ℝ) : ℂ) + ((l * (Real.cosh t * Real.sin r) : ℝ) : ℂ) * Complex.I := by
    rw [Complex.sinh_add, Complex.sinh_mul_I, Complex.cosh_mul_I]
    push_cast
    ring
  unfold deCurve
  rw [e1]
  have ha : 0 ≤ l * (Real.sinh t * Real.cos r) := mul_nonneg hl (mul_nonneg (Real.sinh_nonneg_iff.2 ht) hc)
  have hb0 : 0 ≤ l * (Real.cosh t * Real.sin r) := mul_nonneg hl (mul_nonneg (Real.cosh_pos t).le hs)
  generalize l * (Real.sinh t * Real.cos r) = a at *
  generalize l * (Real.cosh t * Real.sin r) = b at *
  have hsb : 0 ≤ Real.sin b := Real.sin_nonneg_of_nonneg_of_le_pi hb0 (by linarith [Real.pi_pos])
  have hcb : 0 ≤ Real.cos b := Real.cos_nonneg_of_neg_pi_div_two_le_of_le (by linarith [Real.pi_pos]) hb
  have es : Complex.sinh (a + b * Complex.I) = ⟨Real.sinh a * Real.cos b, Real.cosh a * Real.sin b⟩ := by
    rw [Complex.sinh_add, Complex.sinh_mul_I, Complex.cosh_mul_I, ← Complex.ofReal_sinh, ← Complex.ofReal_cosh, ← Complex.ofReal_sin,
      ← Complex.ofReal_cos]
    apply Complex.ext <;> simp only [Complex.add_re, Complex.add_im, Complex.mul_re, Complex.mul_im, Complex.ofReal_re, Complex.ofReal_im, Complex.I_re,
      Complex.I_im] <;> ring
  have ec : Complex.cosh (a + b * Complex.I) = ⟨Real.cosh a * Real.cos b, Real.sinh a * Real.sin b⟩ := by
    rw [Complex.cosh_add, Complex.sinh_mul_I, Complex.cosh_mul_I, ← Complex.ofReal_sinh, ← Complex.ofReal_cosh, ← Complex.ofReal_sin,
      ← Complex.ofReal_cos]
    apply Complex.ext <;> simp only [Complex.add_re, Complex.add_im, Complex.mul_re, Complex.mul_im, Complex.ofReal_re, Complex.ofReal_im, Complex.I_re,
      Complex.I_im] <;> ring
  rw [Complex.tanh_eq_sinh_div_cosh, es, ec, Complex.div_re, Complex.div_im]
  simp only
  have hn := Complex.normSq_nonneg ⟨Real.cosh a * Real.cos b, Real.sinh a * Real.sin b⟩
  have hsa : 0 ≤ Real.sinh a := Real.sinh_nonneg_iff.2 ha
  have hca := (Real.cosh_pos a).le
  constructor
  · rw [← add_div]
    apply div_nonneg _ hn
    have := mul_nonneg hsa hca
    nlinarith [mul_nonneg this (sq_nonneg (Real.cos b)), mul_nonneg this (sq_nonneg (Real.sin b))]
  · rw [← sub_div]
    apply div_nonneg _ hn
    have h1 := Real.cosh_sq a
    have : Real.cosh a * Real.sin b * (Real.cosh a * Real.cos b) - Real.sinh a * Real.cos b * (Real.sinh a * Real.sin b) = Real.sin b * Real.cos b := by
      linear_combination Real.sin b * Real.cos b * h1
    rw [this]
    exact mul_nonneg hsb hcb

theorem prod_fold_le (z w : ℂ) (hw : foldQ z = w) : ∀ u : List ℂ, ((u.map foldQ).map fun x => ‖w - x‖).prod ≤ (u.map fun x => ‖z - x‖).prod ∧
    0 ≤ ((u.map foldQ).map fun x => ‖w - x‖).prod
  | [] => by simp
  | x :: u => by
    obtain ⟨h1, h2⟩ := prod_fold_le z w hw u
    simp only [List.map_cons, List.prod_cons]
    refine ⟨mul_le_mul ?_ h1 h2 (norm_nonneg _), mul_nonneg (norm_nonneg _) h2⟩
    rw [← hw]
    exact foldQ_dist z x

/-- **C41.** The bound computed by `de_constant_m2` from the folded points on the quarter `[0, tmax]` of one curve is a bound for the true points on both curves
`tanh (lambda sinh (t ± i r))`, `|t| ≤ tmax`: there no branch point is on the curves and `|z|^d / (prod |z - u_k|)^(1/m) ≤ B`. -/
theorem C41_folded_bound {S : BoundOps ℝ} {lambda r tmax : ℝ} {u : List ℂ} {d m : Nat}
    (hl : 0 < lambda) (hr : 0 < r) (hr2 : r < Real.pi / 2) (htm : IsTmax lambda r tmax)
    (H : BoundSound S (maxF lambda r (u.map foldQ) d) (UpperBound m))
    {b : RBall} (hround : ∀ b' n', Reached S 3 b 30 b' n' → S.special b'.rad = false → RoundOk S b' n')
    (hb : ∀ t, 0 ≤ t → t ≤ tmax → In t b) {m0 B : ℝ} (hB : deConstantM2 S b m0 = .ok B)
    (t s : ℝ) (ht : |t| ≤ tmax) (hs : s = r ∨ s = -r) :
    (∀ x ∈ u, deCurve lambda s t ≠ x) ∧ ‖deCurve lambda s t‖ ^ d / ptDist u (deCurve lambda s t) ^ (1 / m : ℝ) ≤ B := by
  have hval := C38_sound H 20 b 30 m0 B (by omega) hround hB |t| (hb _ (abs_nonneg t) ht)
  obtain ⟨hpos, hle⟩ := hval
  simp only [maxF] at hpos hle
  have hsin : 0 < Real.sin r := Real.sin_pos_of_pos_of_lt_pi hr (by linarith [Real.pi_pos])
  have hcos : 0 ≤ Real.cos r := Real.cos_nonneg_of_neg_pi_div_two_le_of_le (by linarith [Real.pi_pos]) hr2.le
  have hcosh : Real.cosh |t| ≤ Real.cosh tmax := by
    rw [Real.cosh_le_cosh, abs_abs, abs_of_nonneg htm.1]
    exact ht
  have hq := deCurve_quadrant (l := lambda) (r := r) (t := |t|) hl.le (abs_nonneg t) hcos hsin.le (by
    have h2 := htm.2
    have h3 : 0 ≤ lambda * Real.sin r := mul_nonneg hl.le hsin.le
    have h4 := mul_le_mul_of_nonneg_right hcosh h3
    nlinarith)
  have hfold : foldQ (deCurve lambda s t) = deCurve lambda r |t| := by
    rw [foldQ_deCurve lambda r t hs, foldQ_self hq.1 hq.2]
  obtain ⟨h1, h2⟩ := prod_fold_le _ _ hfold u
  have hdist : 0 < ptDist u (deCurve lambda s t) := lt_of_lt_of_le hpos h1
  constructor
  · intro x hx h0
    have : ptDist u (deCurve lambda s t) = 0 := by
      unfold ptDist
      apply List.prod_eq_zero
      rw [List.mem_map]
      exact ⟨x, hx, by rw [h0, sub_self, norm_zero]⟩
    rw [this] at hdist
    exact lt_irrefl _ hdist
  · have hnorm : ‖deCurve lambda s t‖ = ‖deCurve lambda r |t|‖ := by rw [← foldQ_norm, hfold]
    have hpw : 0 < ptDist u (deCurve lambda s t) ^ (1 / m : ℝ) := Real.rpow_pos_of_pos hdist _
    rw [div_le_iff₀ hpw, hnorm]
    refine hle.trans ?_
    have hB0 : 0 ≤ B := by
      have hp := Real.rpow_pos_of_pos hpos (1 / m : ℝ)
      by_contra hneg
      have := mul_neg_of_neg_of_pos (not_le.1 hneg) hp
      have h3 : 0 ≤ ‖deCurve lambda r |t|‖ ^ d := by positivity
      linarith
    exact mul_le_mul_of_nonneg_left (Real.rpow_le_rpow h2 h1 (by positivity)) hB0

/-! ## C43: the constant M1 -/

/-- **C43 (partial).** When the real parts of all the points lie in `[-1, 1]`, `de_constant_m1` bounds `1 / (prod |x - u_k|)^(1/m)` on the whole integration path. -/
theorem C43_m1_partial {u : List ℂ} {m : Nat} (hu : ∀ z ∈ u, |z.re| ≤ 1 ∧ z.im ≠ 0) (x : ℝ) :
    (ptDist u x ^ (1 / m : ℝ))⁻¹ ≤ deConstantM1 u m := by
  have key : 0 < (u.map fun x => if |x.re| ≤ 1 then |x.im| else ‖x‖).prod ∧
      (u.map fun x => if |x.re| ≤ 1 then |x.im| else ‖x‖).prod ≤ ptDist u x := by
    unfold ptDist
    induction u with
    | nil => simp
    | cons z u ih =>
      obtain ⟨h1, h2⟩ := hu z (by simp)
      obtain ⟨i1, i2⟩ := ih fun w hw => hu w (by simp [hw])
      simp only [List.map_cons, List.prod_cons, if_pos h1]
      have h3 : 0 < |z.im| := abs_pos.2 h2
      refine ⟨mul_pos h3 i1, mul_le_mul ?_ i2 i1.le (norm_nonneg _)⟩
      have := Complex.abs_im_le_norm ((x : ℂ) - z)
      simpa [abs_neg] using this
  unfold deConstantM1
  have h1 := Real.rpow_pos_of_pos key.1 (1 / m : ℝ)
  exact inv_anti₀ h1 (Real.rpow_le_rpow key.1.le key.2 (by positivity))

/-- **C43 (negation).** As soon as all the points are to the right of the path (`Re u > 1`), `de_constant_m1` is smaller than the value at the end point `1`, where it
should bound `1 / (prod |x - u_k|)^(1/m)`: it uses the distance to `0`. -/
theorem C43_m1_fails {u : List ℂ} {m : Nat} (hm : 0 < m) (h0 : u ≠ []) (hu : ∀ z ∈ u, 1 < z.re) :
    deConstantM1 u m < (ptDist u 1 ^ (1 / m : ℝ))⁻¹ := by
  have key : 0 < ptDist u 1 ∧ ptDist u 1 < (u.map fun x => if |x.re| ≤ 1 then |x.im| else ‖x‖).prod := by
    unfold ptDist
    have step : ∀ z : ℂ, 1 < z.re → 0 < ‖1 - z‖ ∧ ‖1 - z‖ < (if |z.re| ≤ 1 then |z.im| else ‖z‖) := by
      intro z hz
      rw [if_neg (by rw [abs_of_pos (by linarith)]; linarith)]
      constructor
      · rw [norm_pos_iff, sub_ne_zero]
        rintro rfl
        simp at hz
      · rw [Complex.norm_def, Complex.norm_def]
        apply Real.sqrt_lt_sqrt (Complex.normSq_nonneg _)
        simp only [Complex.normSq_apply, Complex.sub_re, Complex.sub_im, Complex.one_re, Complex.one_im]
        nlinarith
    induction u with
    | nil => exact absurd rfl h0
    | cons z u ih =>
      obtain ⟨h1, h2⟩ := step z (hu z (by simp))
      simp only [List.map_cons, List.prod_cons]
      by_cases hu0 : u = []
      · subst hu0
        simp only [List.map_nil, List.prod_nil, mul_one]
        exact ⟨h1, h2⟩
      · obtain ⟨i1, i2⟩ := ih hu0 fun w hw => hu w (by simp [hw])
        exact ⟨mul_pos h1 i1, mul_lt_mul'' h2 i2 h1.le i1.le⟩
  unfold deConstantM1
  have h1 := Real.rpow_pos_of_pos key.1 (1 / m : ℝ)
  exact inv_strictAnti₀ h1 (Real.rpow_lt_rpow key.1.le key.2 (by positivity))

example : ∀ z ∈ [(⟨2, 0⟩ : ℂ), ⟨3, 1⟩], 1 < z.re := by
  intro z hz
  simp only [List.mem_cons, List.not_mem_nil, or_false] at hz
  rcases hz with rfl | rfl <;> norm_num

/-! ## C44: the constant M2 -/

theorem cosh_ne_zero_of {a b : ℝ} (h : a ≠ 0 ∨ Real.cos b ≠ 0) : Complex.cosh (a + b * Complex.I) ≠ 0 := by
  intro h0
  have ec : Complex.cosh (a + b * Complex.I) = ⟨Real.cosh a * Real.cos b, Real.sinh a * Real.sin b⟩ := by
    rw [Complex.cosh_add, Complex.sinh_mul_I, Complex.cosh_mul_I, ← Complex.ofReal_sinh, ← Complex.ofReal_cosh, ← Complex.ofReal_sin,
      ← Complex.ofReal_cos]
    apply Complex.ext <;> simp only [Complex.add_re, Complex.add_im, Complex.mul_re, Complex.mul_im, Complex.ofReal_re, Complex.ofReal_im, Complex.I_re,
      Complex.I_im] <;> ring
  rw [ec, Complex.ext_iff] at h0
  obtain ⟨h1, h2⟩ := h0
  simp only [Complex.zero_re, Complex.zero_im] at h1 h2
  have hc : Real.cos b = 0 := (mul_eq_zero.1 h1).resolve_left (Real.cosh_pos a).ne'
  rcases h with h | h
  · have hs : Real.sin b = 0 := (mul_eq_zero.1 h2).resolve_left (Real.sinh_ne_zero.2 h)
    have := Real.sin_sq_add_cos_sq b
    rw [hs, hc] at this
    norm_num at this
  · exact h hc

theorem deCurve_arg (l r t : ℝ) : (l : ℂ) * Complex.sinh (t + r * Complex.I) =
    ((l * (Real.sinh t * Real.cos r) : ℝ) : ℂ) + ((l * (Real.cosh t * Real.sin r) : ℝ) : ℂ) * Complex.I := by
  rw [Complex.sinh_add, Complex.sinh_mul_I, Complex.cosh_mul_I]
  push_cast
  ring

theorem deCurve_continuous {l r : ℝ} (hl : 0 < l) (hr : 0 < r) (hr2 : r < Real.pi / 2) (hlr : l * Real.sin r < Real.pi / 2) : Continuous (deCurve l r) := by
  have hsin : 0 < Real.sin r := Real.sin_pos_of_pos_of_lt_pi hr (by linarith [Real.pi_pos])
  have hcos : 0 < Real.cos r := Real.cos_pos_of_mem_Ioo ⟨by linarith, hr2⟩
  unfold deCurve
  simp only [Complex.tanh_eq_sinh_div_cosh]
  apply Continuous.div
  · fun_prop
  · fun_prop
  · intro t
    rw [deCurve_arg]
    apply cosh_ne_zero_of
    by_cases ht : t = 0
    · right
      subst ht
      rw [Real.cosh_zero, one_mul]
      exact (Real.cos_pos_of_mem_Ioo ⟨by have := mul_pos hl hsin; linarith, hlr⟩).ne'
    · left
      exact mul_ne_zero hl.ne' (mul_ne_zero (Real.sinh_ne_zero.2 ht) hcos.ne')

/-- **C44 (negation).** The constant computed by `de_constant_m2` (even as the exact maximum of `max_f`, with its fixed exponents `d` and `1/m`) does not bound the
integrands of all the differentials: as soon as some branch point is close enough to the curve, the integrand `(1, j)` with `j ≥ 2` is larger, at a point of the curve. -/
theorem C44_exponent_fails {lambda r tmax : ℝ} (hl : 0 < lambda) (hr : 0 < r) (hr2 : r < Real.pi / 2) (hlr : lambda * Real.sin r < Real.pi / 2)
    (htm : 0 ≤ tmax) (d m j : Nat) (hm : 0 < m) (hj : 2 ≤ j) :
    ∃ δ > 0, ∀ w : ℂ, (∀ t, 0 ≤ t → t ≤ tmax → deCurve lambda r t ≠ w) → (∃ t, 0 ≤ t ∧ t ≤ tmax ∧ ‖deCurve lambda r t - w‖ < δ) →
      ∃ t1, 0 ≤ t1 ∧ t1 ≤ tmax ∧ ∀ t, 0 ≤ t → t ≤ tmax →
        (maxF lambda r [w] d t).1 / (maxF lambda r [w] d t).2 ^ (1 / m : ℝ) < integrandSize [w] m 1 j (deCurve lambda r t1) := by
  have hcont := deCurve_continuous hl hr hr2 hlr
  have hcomp : IsCompact (Set.Icc 0 tmax) := isCompact_Icc
  have hne : (Set.Icc 0 tmax).Nonempty := ⟨0, le_refl _, htm⟩
  obtain ⟨tC, _, hC⟩ := hcomp.exists_isMaxOn hne (hcont.norm.continuousOn (s := Set.Icc 0 tmax))
  have hm' : (0 : ℝ) < m := by exact_mod_cast hm
  set C := ‖deCurve lambda r tC‖ ^ d + 1 with hCdef
  have hC1 : 1 ≤ C := by
    have : 0 ≤ ‖deCurve lambda r tC‖ ^ d := by positivity
    linarith
  refine ⟨(C⁻¹) ^ (m : ℝ), Real.rpow_pos_of_pos (by positivity) _, ?_⟩
  intro w hw ⟨t0, h0, h0', hd⟩
  obtain ⟨t1, ht1, hmin⟩ := hcomp.exists_isMinOn hne ((hcont.sub continuous_const).norm.continuousOn (s := Set.Icc 0 tmax) (f := fun t => ‖deCurve lambda r t - w‖))
  refine ⟨t1, ht1.1, ht1.2, fun t ht ht' => ?_⟩
  have hδ : ‖deCurve lambda r t1 - w‖ < (C⁻¹) ^ (m : ℝ) := lt_of_le_of_lt (hmin (Set.mem_Icc.2 ⟨h0, h0'⟩)) hd
  have hδ0 : 0 < ‖deCurve lambda r t1 - w‖ := norm_pos_iff.2 (sub_ne_zero.2 (hw t1 ht1.1 ht1.2))
  have hle : ‖deCurve lambda r t1 - w‖ ≤ ‖deCurve lambda r t - w‖ := hmin (Set.mem_Icc.2 ⟨ht, ht'⟩)
  have hz : ‖deCurve lambda r t‖ ≤ ‖deCurve lambda r tC‖ := hC (Set.mem_Icc.2 ⟨ht, ht'⟩)
  simp only [maxF, integrandSize, ptDist, List.map_cons, List.map_nil, List.prod_cons, List.prod_nil, mul_one, Nat.sub_self, pow_zero]
  generalize ‖deCurve lambda r t1 - w‖ = x at *
  have hx1 : x < 1 := by
    refine hδ.trans_le ?_
    exact Real.rpow_le_one (by positivity) (inv_le_one_of_one_le₀ hC1) hm'.le
  have hxm : x ^ (1 / m : ℝ) < C⁻¹ := by
    have := Real.rpow_lt_rpow hδ0.le hδ (by positivity : (0 : ℝ) < 1 / m)
    rwa [← Real.rpow_mul (by positivity), mul_one_div_cancel hm'.ne', Real.rpow_one] at this
  have hpos : 0 < x ^ (1 / m : ℝ) := Real.rpow_pos_of_pos hδ0 _
  have hj2 : x ^ (j / m : ℝ) ≤ x ^ (1 / m : ℝ) * x ^ (1 / m : ℝ) := by
    rw [← Real.rpow_add hδ0]
    apply Real.rpow_le_rpow_of_exponent_ge hδ0 hx1.le
    rw [← add_div]
    have : (2 : ℝ) ≤ j := by exact_mod_cast hj
    gcongr
    linarith
  have hpj : 0 < x ^ (j / m : ℝ) := Real.rpow_pos_of_pos hδ0 _
  calc ‖deCurve lambda r t‖ ^ d / ‖deCurve lambda r t - w‖ ^ (1 / m : ℝ) ≤ ‖deCurve lambda r tC‖ ^ d / x ^ (1 / m : ℝ) := by
        gcongr
    _ < C / x ^ (1 / m : ℝ) := by
        gcongr
        rw [hCdef]
        linarith
    _ < 1 / x ^ (j / m : ℝ) := by
        rw [div_lt_div_iff₀ hpos hpj]
        have h3 : C * x ^ (1 / m : ℝ) < 1 := by
          have := mul_lt_mul_of_pos_left hxm (by linarith : 0 < C)
          rwa [mul_inv_cancel₀ (by linarith)] at this
        nlinarith

/-- **C44 (negation).** Even for `j = 1` the numerator is wrong: when the curve has a point of modulus less than 1 and a branch point is close to it, the integrand
`(1, 1)` exceeds the maximum of `max_f`, which has `|z|^d` in the numerator. -/
theorem C44_numerator_fails {lambda r tmax t0 : ℝ} (hl : 0 < lambda) (hr : 0 < r) (hr2 : r < Real.pi / 2) (hlr : lambda * Real.sin r < Real.pi / 2)
    (h0 : 0 ≤ t0) (h0' : t0 ≤ tmax) (hz0 : ‖deCurve lambda r t0‖ < 1) (d m : Nat) (hm : 0 < m) (hd : 1 ≤ d) :
    ∃ δ > 0, ∀ w : ℂ, (∀ t, 0 ≤ t → t ≤ tmax → deCurve lambda r t ≠ w) → ‖deCurve lambda r t0 - w‖ < δ →
      ∃ t1, 0 ≤ t1 ∧ t1 ≤ tmax ∧ ∀ t, 0 ≤ t → t ≤ tmax →
        (maxF lambda r [w] d t).1 / (maxF lambda r [w] d t).2 ^ (1 / m : ℝ) < integrandSize [w] m 1 1 (deCurve lambda r t1) := by
  have hcont := deCurve_continuous hl hr hr2 hlr
  have hcomp : IsCompact (Set.Icc 0 tmax) := isCompact_Icc
  have hne : (Set.Icc 0 tmax).Nonempty := ⟨t0, h0, h0'⟩
  obtain ⟨tC, _, hC⟩ := hcomp.exists_isMaxOn hne (hcont.norm.continuousOn (s := Set.Icc 0 tmax))
  have hm' : (0 : ℝ) < m := by exact_mod_cast hm
  have hm1 : (0 : ℝ) < 1 / m := by positivity
  obtain ⟨ρ, hρ1, hρ2⟩ := exists_between hz0
  have hρ0 : 0 ≤ ρ := (norm_nonneg _).trans hρ1.le
  set c := (ρ - ‖deCurve lambda r t0‖) / 2 with hc
  have hc0 : 0 < c := by rw [hc]; linarith
  set C := ‖deCurve lambda r tC‖ ^ d + 1 with hCdef
  have hC1 : 1 ≤ C := by
    have : 0 ≤ ‖deCurve lambda r tC‖ ^ d := by positivity
    linarith
  refine ⟨c * (C⁻¹) ^ (m : ℝ), mul_pos hc0 (Real.rpow_pos_of_pos (by positivity) _), ?_⟩
  intro w hw hd0
  obtain ⟨t1, ht1, hmin⟩ := hcomp.exists_isMinOn hne ((hcont.sub continuous_const).norm.continuousOn (s := Set.Icc 0 tmax) (f := fun t => ‖deCurve lambda r t - w‖))
  refine ⟨t1, ht1.1, ht1.2, fun t ht ht' => ?_⟩
  have hδ : ‖deCurve lambda r t1 - w‖ < c * (C⁻¹) ^ (m : ℝ) := lt_of_le_of_lt (hmin (Set.mem_Icc.2 ⟨h0, h0'⟩)) hd0
  have hδ0 : 0 < ‖deCurve lambda r t1 - w‖ := norm_pos_iff.2 (sub_ne_zero.2 (hw t1 ht1.1 ht1.2))
  have hle : ‖deCurve lambda r t1 - w‖ ≤ ‖deCurve lambda r t - w‖ := hmin (Set.mem_Icc.2 ⟨ht, ht'⟩)
  have hz : ‖deCurve lambda r t‖ ≤ ‖deCurve lambda r tC‖ := hC (Set.mem_Icc.2 ⟨ht, ht'⟩)
  have hδc : c * (C⁻¹) ^ (m : ℝ) ≤ c := by
    have : (C⁻¹) ^ (m : ℝ) ≤ 1 := Real.rpow_le_one (by positivity) (inv_le_one_of_one_le₀ hC1) hm'.le
    nlinarith
  have hfar : ρ < ‖deCurve lambda r t‖ → c ≤ ‖deCurve lambda r t - w‖ := by
    intro h
    have h1 : ‖deCurve lambda r t‖ ≤ ‖deCurve lambda r t - w‖ + ‖w - deCurve lambda r t0‖ + ‖deCurve lambda r t0‖ := by
      have e : deCurve lambda r t = (deCurve lambda r t - w) + (w - deCurve lambda r t0) + deCurve lambda r t0 := by ring
      conv_lhs => rw [e]
      exact (norm_add_le _ _).trans (by linarith [norm_add_le (deCurve lambda r t - w) (w - deCurve lambda r t0)])
    rw [norm_sub_rev w] at h1
    have h2 : ρ - ‖deCurve lambda r t0‖ = 2 * c := by rw [hc]; ring
    linarith
  simp only [maxF, integrandSize, ptDist, List.map_cons, List.map_nil, List.prod_cons, List.prod_nil, mul_one, Nat.sub_self, pow_zero, Nat.cast_one]
  generalize ‖deCurve lambda r t1 - w‖ = x at *
  have hxm : x ^ (1 / m : ℝ) < c ^ (1 / m : ℝ) * C⁻¹ := by
    have := Real.rpow_lt_rpow hδ0.le hδ hm1
    rwa [Real.mul_rpow hc0.le (by positivity), ← Real.rpow_mul (by positivity), mul_one_div_cancel hm'.ne', Real.rpow_one] at this
  have hpos : 0 < x ^ (1 / m : ℝ) := Real.rpow_pos_of_pos hδ0 _
  have hcp : 0 < c ^ (1 / m : ℝ) := Real.rpow_pos_of_pos hc0 _
  rcases le_or_gt ‖deCurve lambda r t‖ ρ with h | h
  · calc ‖deCurve lambda r t‖ ^ d / ‖deCurve lambda r t - w‖ ^ (1 / m : ℝ) ≤ ρ ^ d / x ^ (1 / m : ℝ) := by
          gcongr
      _ < 1 / x ^ (1 / m : ℝ) := by
          gcongr
          exact pow_lt_one₀ hρ0 hρ2 (by omega)
  · have hcw := hfar h
    calc ‖deCurve lambda r t‖ ^ d / ‖deCurve lambda r t - w‖ ^ (1 / m : ℝ) ≤ ‖deCurve lambda r tC‖ ^ d / c ^ (1 / m : ℝ) := by
          gcongr
      _ < C / c ^ (1 / m : ℝ) := by
          gcongr
          rw [hCdef]
          linarith
      _ < 1 / x ^ (1 / m : ℝ) := by
          rw [div_lt_div_iff₀ hcp hpos]
          have := mul_lt_mul_of_pos_left hxm (by linarith : 0 < C)
          rw [mul_comm (c ^ (1 / m : ℝ)), ← mul_assoc, mul_inv_cancel₀ (by linarith)] at this
          linarith

theorem deCurve_re {l r t : ℝ} (hl : 0 < l) (ht : 0 < t) (hr : 0 < r) (hr2 : r < Real.pi / 2) :
    0 < (deCurve l r t).re := by
  have hcos : 0 < Real.cos r := Real.cos_pos_of_mem_Ioo ⟨by linarith, hr2⟩
  have ha : 0 < l * (Real.sinh t * Real.cos r) := mul_pos hl (mul_pos (Real.sinh_pos_iff.2 ht) hcos)
  have hne := cosh_ne_zero_of (a := l * (Real.sinh t * Real.cos r)) (b := l * (Real.cosh t * Real.sin r)) (Or.inl ha.ne')
  unfold deCurve
  rw [deCurve_arg]
  generalize l * (Real.sinh t * Real.cos r) = a at *
  generalize l * (Real.cosh t * Real.sin r) = b at *
  rw [Complex.tanh_eq_sinh_div_cosh, Complex.div_re, ← add_div]
  apply div_pos _ (Complex.normSq_pos.2 hne)
  rw [Complex.sinh_add, Complex.cosh_add, Complex.sinh_mul_I, Complex.cosh_mul_I, ← Complex.ofReal_sinh, ← Complex.ofReal_cosh, ← Complex.ofReal_sin,
      ← Complex.ofReal_cos]
  simp only [Complex.add_re, Complex.add_im, Complex.mul_re, Complex.mul_im, Complex.ofReal_re, Complex.ofReal_im, Complex.I_re,
      Complex.I_im]
  have hsa : 0 < Real.sinh a := Real.sinh_pos_iff.2 ha
  have := mul_pos hsa (Real.cosh_pos a)
  have h1 := Real.sin_sq_add_cos_sq b
  nlinarith

/-- The hypotheses of the two theorems are met: above the point of the curve on the imaginary axis there are points off the curve as close as wanted. -/
theorem near_curve {l r : ℝ} (hl : 0 < l) (hr : 0 < r) (hr2 : r < Real.pi / 2) {δ : ℝ} (hδ : 0 < δ) :
    ∃ w : ℂ, (∀ t, 0 ≤ t → deCurve l r t ≠ w) ∧ ‖deCurve l r 0 - w‖ < δ := by
  have hre0 : (deCurve l r 0).re = 0 := by
    have h := deCurve_neg l r 0
    rw [neg_zero] at h
    have := congrArg Complex.re h
    simp at this
    linarith
  refine ⟨deCurve l r 0 + (δ / 2 : ℝ) * Complex.I, ?_, ?_⟩
  · intro t ht h
    rcases ht.lt_or_eq with ht | ht
    · have := deCurve_re hl ht hr hr2
      rw [h] at this
      simp [hre0] at this
    · subst ht
      have : (δ / 2 : ℂ) * Complex.I = 0 := by
        have h2 := sub_eq_zero.2 h.symm
        simpa using h2
      simp [hδ.ne'] at this
  · rw [sub_add_cancel_left, norm_neg, norm_mul, Complex.norm_I, mul_one, Complex.norm_real, Real.norm_of_nonneg (by positivity)]
    linarith

example : ∃ δ > 0, ∃ w : ℂ, (∀ t, 0 ≤ t → t ≤ 1 → deCurve 1 1 t ≠ w) ∧ ‖deCurve 1 1 0 - w‖ < δ ∧
    ∃ t1, 0 ≤ t1 ∧ t1 ≤ 1 ∧ ∀ t, 0 ≤ t → t ≤ 1 →
      (maxF 1 1 [w] 2 t).1 / (maxF 1 1 [w] 2 t).2 ^ (1 / (3 : ℕ) : ℝ) < integrandSize [w] 3 1 2 (deCurve 1 1 t1) := by
  have hp := Real.pi_gt_three
  have hlr : (1 : ℝ) * Real.sin 1 < Real.pi / 2 := by linarith [Real.sin_le_one 1]
  obtain ⟨δ, h1, h2⟩ := C44_exponent_fails (lambda := 1) (r := 1) (tmax := 1) one_pos one_pos (by linarith) hlr zero_le_one 2 3 2 (by omega) le_rfl
  obtain ⟨w, hw1, hw2⟩ := near_curve (l := 1) (r := 1) one_pos one_pos (by linarith) h1
  exact ⟨δ, h1, w, fun t ht _ => hw1 t ht, hw2, h2 w (fun t ht _ => hw1 t ht) ⟨0, le_rfl, zero_le_one, hw2⟩⟩

/-! ## Instance of C41 -/

open Classical in
/-- exact arithmetic with the best bound on each ball, whenever there is one -/
noncomputable def bestBound (m : Nat) (F : ℝ → ℝ × ℝ) : BoundOps ℝ where
  rndD := id
  rndA := id
  up := id
  special r := decide (r ≤ 0)
  addArf b s := ⟨b.mid + s, b.rad⟩
  f t := if h : ∃ B, ∀ x, In x t → UpperBound m B (F x) then some h.choose else none
  union a b := max a b

theorem bestBound_sound (m : Nat) (F : ℝ → ℝ × ℝ) : BoundSound (bestBound m F) F (UpperBound m) where
  f := by
    intro t B x h hx
    simp only [bestBound] at h
    split at h
    · rename_i hex
      cases h
      exact hex.choose_spec x hx
    · cases h
  unionL := fun {a b v} h => ⟨h.1, h.2.trans (mul_le_mul_of_nonneg_right (le_max_left a b) (Real.rpow_nonneg h.1.le _))⟩
  unionR := fun {a b v} h => ⟨h.1, h.2.trans (mul_le_mul_of_nonneg_right (le_max_right a b) (Real.rpow_nonneg h.1.le _))⟩
  addArf := by
    intro t s x h
    unfold In at *
    simpa [bestBound] using h

theorem bestBound_round (m : Nat) (F : ℝ → ℝ × ℝ) (b : RBall) (n : Nat) (hn : 0 < n) (hs : (bestBound m F).special b.rad = false) :
    RoundOk (bestBound m F) b n := by
  simp only [bestBound, decide_eq_false_iff_not, not_le] at hs
  have hn1 : (0 : ℝ) < n := by exact_mod_cast hn
  refine ⟨by simp only [bestBound, id]; positivity, ?_⟩
  simp only [bestBound, id]
  rw [show b.rad / n * (-(n : ℝ) + 1) + b.mid - (b.mid - (n - 1) * (b.rad / n)) = 0 by ring, abs_zero, mul_div_cancel₀ _ hn1.ne', sub_self,
    max_self]
  simp

/-- With exact arithmetic `de_constant_m2` succeeds for every point off the curve: C41 applies to it. -/
theorem deConstantM2_exact {lambda r tmax : ℝ} (hl : 0 < lambda) (hr : 0 < r) (hr2 : r < Real.pi / 2) (hlr : lambda * Real.sin r < Real.pi / 2)
    (ht : 0 < tmax) (w : ℂ) (hw : ∀ t, deCurve lambda r t ≠ foldQ w) (d m : Nat) :
    ∃ B, deConstantM2 (bestBound m (maxF lambda r ([w].map foldQ) d)) ⟨tmax / 2, tmax / 2⟩ 0 = .ok B := by
  have hcont := deCurve_continuous hl hr hr2 hlr
  have hf : ∀ t : RBall, ∃ B, (bestBound m (maxF lambda r ([w].map foldQ) d)).f t = some B := by
    intro t
    simp only [bestBound]
    have hex : ∃ B, ∀ x, In x t → UpperBound m B (maxF lambda r ([w].map foldQ) d x) := by
      have hpos : ∀ x, 0 < (maxF lambda r ([w].map foldQ) d x).2 := by
        intro x
        simp only [maxF, List.map_cons, List.map_nil, List.prod_cons, List.prod_nil, mul_one]
        exact norm_pos_iff.2 (sub_ne_zero.2 (hw x))
      have hc2 : Continuous fun x => (maxF lambda r ([w].map foldQ) d x).1 / (maxF lambda r ([w].map foldQ) d x).2 ^ (1 / m : ℝ) := by
        apply Continuous.div
        · simp only [maxF]
          exact hcont.norm.pow d
        · apply Continuous.rpow_const
          · simp only [maxF, List.map_cons, List.map_nil, List.prod_cons, List.prod_nil, mul_one]
            exact (hcont.sub continuous_const).norm
          · intro x
            exact Or.inl (hpos x).ne'
        · intro x
          exact (Real.rpow_pos_of_pos (hpos x) _).ne'
      obtain ⟨B, hB⟩ := (isCompact_Icc (a := t.mid - t.rad) (b := t.mid + t.rad)).bddAbove_image hc2.continuousOn
      refine ⟨B, fun x hx => ⟨hpos x, ?_⟩⟩
      have hx' := abs_le.1 hx
      have := hB ⟨x, ⟨by linarith [hx'.1], by linarith [hx'.2]⟩, rfl⟩
      simp only at this
      rwa [div_le_iff₀ (Real.rpow_pos_of_pos (hpos x) _)] at this
    rw [dif_pos hex]
    exact ⟨_, rfl⟩
  have loop : ∀ (rec : RBall → Res ℝ) (step : ℝ) (cnt k : Nat) (t : RBall) (m0 : ℝ),
      ∃ B, boundLoop (bestBound m (maxF lambda r ([w].map foldQ) d)) rec step cnt k t m0 = .ok B := by
    intro rec step cnt
    induction cnt with
    | zero => intro k t m0; exact ⟨_, rfl⟩
    | succ cnt ih =>
      intro k t m0
      obtain ⟨B, hB⟩ := hf t
      simp only [boundLoop, hB, Res.ok_bind]
      exact ih _ _ _
  unfold deConstantM2
  rw [boundFunc, if_neg (by simp [bestBound]; linarith)]
  exact loop _ _ _ _ _ _

end Hcp
