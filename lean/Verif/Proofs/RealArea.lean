import Verif.Proofs.RealLine

/-!
# The area term is positive
-/

namespace Hcp.HalfPlane
open Complex Set MeasureTheory Filter Topology Interval

section
variable {n g : Nat} {ξ : Nat → ℝ} {a : Fin g → ℝ}

theorem pol_ne (ha : a ≠ 0) : ∃ x : ℝ, pol a (x + 2 * I) ≠ 0 := by
  by_contra hc
  push Not at hc
  set p : Polynomial ℂ := ∑ i, Polynomial.C (a i : ℂ) * Polynomial.X ^ i.val with hp
  have hev : ∀ z, p.eval z = pol a z := by
    intro z
    rw [hp, Polynomial.eval_finsetSum]
    simp [pol]
  have hp0 : p = 0 := by
    refine Polynomial.eq_zero_of_infinite_isRoot p ?_
    refine Set.Infinite.mono (s := range fun x : ℝ => (x : ℂ) + 2 * I) ?_ (infinite_range_of_injective fun x y h => by simpa using h)
    rintro _ ⟨x, rfl⟩
    show p.eval _ = 0
    rw [hev, hc]
  apply ha
  funext i
  have := congrArg (fun q => Polynomial.coeff q i.val) hp0
  simp only [hp, Polynomial.finsetSum_coeff, Polynomial.coeff_C_mul, Polynomial.coeff_X_pow, Polynomial.coeff_zero] at this
  rw [Finset.sum_eq_single i] at this
  · simpa using this
  · intro j _ hj
    rw [if_neg (fun h => hj (Fin.ext h.symm)), mul_zero]
  · intro h
    exact absurd (Finset.mem_univ _) h

theorem area_pos (ha : a ≠ 0) : ∃ δ R1 : ℝ, 0 < δ ∧ ∀ R ε, R1 ≤ R → 0 < ε → ε ≤ 1 → δ ≤ ∫ x in (-R)..R, ∫ y in ε..R, ‖dif n ξ a (x + y * I)‖ ^ 2 := by
  obtain ⟨x0, hx0⟩ := pol_ne ha
  have hF : ∀ (z : ℂ), 0 < z.im → ContinuousAt (dif n ξ a) z := fun z hz => (differentiableAt_dif (Or.inl hz)).continuousAt
  set z0 : ℂ := x0 + 2 * I with hz0
  have him : z0.im = 2 := by simp [hz0]
  have hre : z0.re = x0 := by simp [hz0]
  have hne : dif n ξ a z0 ≠ 0 := div_ne_zero hx0 (root_ne fun k hk e => by
    have := congrArg im e
    rw [him, ofReal_im] at this
    norm_num at this)
  have hpos : 0 < ‖dif n ξ a z0‖ ^ 2 := by positivity
  have hev : ∀ᶠ z in 𝓝 z0, ‖dif n ξ a z0‖ ^ 2 / 2 < ‖dif n ξ a z‖ ^ 2 := by
    have : ContinuousAt (fun z => ‖dif n ξ a z‖ ^ 2) z0 := ((hF z0 (by rw [him]; norm_num)).norm).pow 2
    exact this.eventually_const_lt (by linarith)
  obtain ⟨ρ, hρ, hball⟩ := Metric.eventually_nhds_iff_ball.1 hev
  set r := min (ρ / 3) 1 with hr
  have hr0 : 0 < r := lt_min (by linarith) one_pos
  have hr1 : r ≤ 1 := min_le_right _ _
  have hrρ : r ≤ ρ / 3 := min_le_left _ _
  set c := ‖dif n ξ a z0‖ ^ 2 / 2 with hc
  have hc0 : 0 < c := by rw [hc]; linarith
  have hsq : ∀ x ∈ Icc (x0 - r) (x0 + r), ∀ y ∈ Icc (2 - r) (2 + r), c ≤ ‖dif n ξ a (x + y * I)‖ ^ 2 := by
    intro x hx y hy
    refine (hball _ ?_).le
    rw [Metric.mem_ball, dist_eq_norm]
    have e : (x : ℂ) + y * I - z0 = ((x - x0 : ℝ) : ℂ) + ((y - 2 : ℝ) : ℂ) * I := by rw [hz0]; push_cast; ring
    rw [e]
    refine (norm_add_le _ _).trans_lt ?_
    rw [norm_mul, norm_I, mul_one, norm_real, norm_real, Real.norm_eq_abs, Real.norm_eq_abs]
    have h1 : |x - x0| ≤ r := abs_le.2 ⟨by linarith [hx.1], by linarith [hx.2]⟩
    have h2 : |y - 2| ≤ r := abs_le.2 ⟨by linarith [hy.1], by linarith [hy.2]⟩
    linarith
  refine ⟨2 * r * (2 * r * c), |x0| + 4, by positivity, fun R ε hR h0 h1 => ?_⟩
  have hx0R := abs_le.1 (le_refl |x0|)
  have hcontG : ∀ x y : ℝ, 0 < y → ContinuousAt (fun q : ℝ × ℝ => ‖dif n ξ a (q.1 + q.2 * I)‖ ^ 2) (x, y) := by
    intro x y hy
    have h1 : ContinuousAt (dif n ξ a) ((x : ℂ) + y * I) := hF _ (by simpa using hy)
    have h2 : ContinuousAt (fun q : ℝ × ℝ => dif n ξ a ((q.1 : ℂ) + q.2 * I)) (x, y) :=
      ContinuousAt.comp (g := dif n ξ a) (f := fun q : ℝ × ℝ => (q.1 : ℂ) + q.2 * I) h1 (by fun_prop)
    exact h2.norm.pow 2
  have hcont : Continuous fun x : ℝ => ∫ y in ε..R, ‖dif n ξ a (x + y * I)‖ ^ 2 := by
    have e : ∀ x : ℝ, ∫ y in ε..R, ‖dif n ξ a (x + y * I)‖ ^ 2 = ∫ y in ε..R, ‖dif n ξ a (x + (max y ε : ℝ) * I)‖ ^ 2 := by
      intro x
      refine intervalIntegral.integral_congr fun y hy => ?_
      rw [uIcc_of_le (by linarith [abs_nonneg x0])] at hy
      simp only [max_eq_left hy.1]
    simp only [e]
    refine intervalIntegral.continuous_parametric_intervalIntegral_of_continuous' (f := fun x y => ‖dif n ξ a ((x : ℝ) + (max y ε : ℝ) * I)‖ ^ 2) ?_ _ _
    rw [continuous_iff_continuousAt]
    rintro ⟨x, y⟩
    have h1 := hcontG x (max y ε) (lt_of_lt_of_le h0 (le_max_right _ _))
    exact ContinuousAt.comp (g := fun q : ℝ × ℝ => ‖dif n ξ a (q.1 + q.2 * I)‖ ^ 2) (f := fun q : ℝ × ℝ => (q.1, max q.2 ε)) h1 (by fun_prop)
  have hin : ∀ x : ℝ, ∀ u v, 0 < u → u ≤ v → IntervalIntegrable (fun y : ℝ => ‖dif n ξ a (x + y * I)‖ ^ 2) volume u v := by
    intro x u v hu huv
    refine ContinuousOn.intervalIntegrable fun y hy => ?_
    rw [uIcc_of_le huv] at hy
    exact (ContinuousAt.comp (g := fun q : ℝ × ℝ => ‖dif n ξ a (q.1 + q.2 * I)‖ ^ 2) (f := fun y : ℝ => (x, y)) (hcontG x y (by linarith [hy.1])) (by fun_prop)).continuousWithinAt
  have i1 : ∀ x : ℝ, 0 ≤ ∫ y in ε..R, ‖dif n ξ a (x + y * I)‖ ^ 2 := fun x => intervalIntegral.integral_nonneg (by linarith [abs_nonneg x0]) fun y _ => by positivity
  have i2 : ∀ x ∈ Icc (x0 - r) (x0 + r), 2 * r * c ≤ ∫ y in ε..R, ‖dif n ξ a (x + y * I)‖ ^ 2 := by
    intro x hx
    have j1 : ∫ y in (2 - r)..(2 + r), ‖dif n ξ a (x + y * I)‖ ^ 2 ≤ ∫ y in ε..R, ‖dif n ξ a (x + y * I)‖ ^ 2 :=
      intervalIntegral.integral_mono_interval (by linarith) (by linarith) (by linarith [abs_nonneg x0]) (Eventually.of_forall fun y => by positivity) (hin x ε R h0 (by linarith [abs_nonneg x0]))
    have j2 : ∫ y in (2 - r)..(2 + r), c ≤ ∫ y in (2 - r)..(2 + r), ‖dif n ξ a (x + y * I)‖ ^ 2 :=
      intervalIntegral.integral_mono_on (by linarith) intervalIntegrable_const (hin x _ _ (by linarith) (by linarith)) fun y hy => hsq x hx y hy
    rw [intervalIntegral.integral_const, smul_eq_mul] at j2
    linarith
  have k1 : ∫ x in (x0 - r)..(x0 + r), ∫ y in ε..R, ‖dif n ξ a (x + y * I)‖ ^ 2 ≤ ∫ x in (-R)..R, ∫ y in ε..R, ‖dif n ξ a (x + y * I)‖ ^ 2 :=
    intervalIntegral.integral_mono_interval (by linarith [hx0R.1]) (by linarith) (by linarith [hx0R.2]) (Eventually.of_forall i1) (hcont.intervalIntegrable _ _)
  have k2 : ∫ x in (x0 - r)..(x0 + r), 2 * r * c ≤ ∫ x in (x0 - r)..(x0 + r), ∫ y in ε..R, ‖dif n ξ a (x + y * I)‖ ^ 2 :=
    intervalIntegral.integral_mono_on (by linarith) intervalIntegrable_const (hcont.intervalIntegrable _ _) fun x hx => i2 x hx
  rw [intervalIntegral.integral_const, smul_eq_mul] at k2
  linarith

/-- **Positivity on the real line**: imaginary part of the integral of `conj U dU`. -/
theorem line_pos (hξ : InjOn ξ (Iio n)) (hng : 2 * g < n) {a : Fin g → ℝ} (ha : a ≠ 0) : ∃ δ K R1 : ℝ, 0 < δ ∧ ∀ R, R1 ≤ R → 2 ≤ R → (∀ k < n, 2 * |ξ k| ≤ R) →
    2 * δ - K / √R ≤ (∫ x in (-R)..R, (starRingEnd ℂ) (pri n ξ a R 0 x) * dif n ξ a x).im := by
  have hn : 0 < n := by omega
  obtain ⟨C, hC, hfar⟩ := dif_far (ξ := ξ) (a := a) hng
  obtain ⟨M, hM⟩ := pri_bounded (a := a) hξ hng
  obtain ⟨δ, R1, hδ, har⟩ := area_pos (n := n) (ξ := ξ) ha
  have hF : ∀ (z : ℂ), 0 < z.im → DifferentiableAt ℂ (dif n ξ a) z := fun z hz => differentiableAt_dif (Or.inl hz)
  refine ⟨δ, 4 * ((M + 3 * C) * C), R1, hδ, fun R hR1 hR hRξ => ?_⟩
  have hR0 : 0 < R := by linarith
  have hs : 1 ≤ √R := by rw [Real.one_le_sqrt]; linarith
  have hs0 : 0 < √R := by linarith
  set B := C / (R * √R) with hB
  have hRB : R * B = C / √R := by rw [hB]; field_simp
  have hRBC : R * B ≤ C := by rw [hRB]; exact div_le_self hC hs
  have hB1 : ∀ z : ℂ, R ≤ ‖z‖ → ‖dif n ξ a z‖ ≤ B := fun z hz => hfar R z (by linarith) hRξ hz
  have hM' : ∀ ε : ℝ, 0 < ε → ε ≤ 1 → ∀ x ∈ Icc (-R) R, ‖pri n ξ a R ε x‖ ≤ M := fun ε h0 h1 => hM R ε (by linarith) hRξ h0.le h1
  have ht := bil_tendsto (a := a) (b := a) hξ hn hR0.le (c := starRingEnd ℂ) continuous_conj fun z => norm_conj z
  refine ge_of_tendsto (continuous_im.continuousAt.tendsto.comp ht) ?_
  filter_upwards [small_eps] with ε hε
  refine le_trans ?_ (green_le hF hε.1 (by linarith) hB1 (hM' ε hε.1 hε.2))
  have e : 4 * R * ((M + 3 * (R * B)) * B) = 4 * ((M + 3 * (R * B)) * C) / √R := by
    rw [mul_assoc, ← mul_assoc R, mul_comm R, mul_assoc _ R B, hRB]
    ring
  have h1 := har R ε hR1 hε.1 hε.2
  have h2 : 4 * R * ((M + 3 * (R * B)) * B) ≤ 4 * ((M + 3 * C) * C) / √R := by
    rw [e]
    gcongr
  linarith

end

end Hcp.HalfPlane
