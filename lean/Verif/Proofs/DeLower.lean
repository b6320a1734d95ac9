import Verif.Proofs.DeAsym

/-!
# A lower bound of the error of the double-exponential sums
-/

namespace Hcp

open MeasureTheory Set Filter Topology Spec

/-- with real points on the right sides the integrand of `dt / y^j` is a nonnegative real -/
theorem deTerm_real {m n1 d j : Nat} {u : Nat → ℝ} {l : ℝ} (hl : 0 < l) (h1 : ∀ k < n1, 1 < u k) (h2 : ∀ k, n1 ≤ k → k < d → u k < -1) (x : ℝ) :
    deTerm m n1 d (fun k => u k) l 0 j x = ((‖deTerm m n1 d (fun k => (u k : ℂ)) l 0 j x‖ : ℝ) : ℂ) := by
  obtain ⟨hx1, hx2⟩ := dePhi_mem l x
  have hpow : ∀ y : ℝ, 0 ≤ y → (y : ℂ) ^ ((m : ℂ)⁻¹) = ((y ^ ((m : ℝ)⁻¹) : ℝ) : ℂ) := by
    intro y hy
    rw [Complex.ofReal_cpow hy]
    push_cast
    rfl
  have key : ∃ g : ℝ, 0 ≤ g ∧ deTerm m n1 d (fun k => u k) l 0 j x = (g : ℂ) := by
    refine ⟨deriv (dePhi l) x / (((∏ k ∈ Finset.range n1, (u k - dePhi l x) ^ ((m : ℝ)⁻¹)) * ∏ k ∈ Finset.Ico n1 d, (dePhi l x - u k) ^ ((m : ℝ)⁻¹)) *
      (1 - dePhi l x ^ 2) ^ ((m : ℝ)⁻¹)) ^ j, ?_, ?_⟩
    · have hd : 0 ≤ deriv (dePhi l) x := by
        rw [(hasDerivAt_dePhi l x).deriv]
        have := Real.cosh_pos x
        positivity
      have p1 : 0 ≤ ∏ k ∈ Finset.range n1, (u k - dePhi l x) ^ ((m : ℝ)⁻¹) :=
        Finset.prod_nonneg fun k hk => Real.rpow_nonneg (by linarith [h1 k (Finset.mem_range.1 hk)]) _
      have p2 : 0 ≤ ∏ k ∈ Finset.Ico n1 d, (dePhi l x - u k) ^ ((m : ℝ)⁻¹) :=
        Finset.prod_nonneg fun k hk => Real.rpow_nonneg (by linarith [h2 k (Finset.mem_Ico.1 hk).1 (Finset.mem_Ico.1 hk).2]) _
      have p3 : 0 ≤ (1 - dePhi l x ^ 2) ^ ((m : ℝ)⁻¹) := Real.rpow_nonneg (by nlinarith) _
      positivity
    · unfold deTerm edgeY
      rw [hpow _ (by nlinarith)]
      have e1 : ∏ k ∈ Finset.range n1, ((u k : ℂ) - (dePhi l x : ℂ)) ^ ((m : ℂ)⁻¹) = ((∏ k ∈ Finset.range n1, (u k - dePhi l x) ^ ((m : ℝ)⁻¹) : ℝ) : ℂ) := by
        rw [Complex.ofReal_prod]
        refine Finset.prod_congr rfl fun k hk => ?_
        rw [← hpow _ (by linarith [h1 k (Finset.mem_range.1 hk)])]
        push_cast
        rfl
      have e2 : ∏ k ∈ Finset.Ico n1 d, ((dePhi l x : ℂ) - (u k : ℂ)) ^ ((m : ℂ)⁻¹) = ((∏ k ∈ Finset.Ico n1 d, (dePhi l x - u k) ^ ((m : ℝ)⁻¹) : ℝ) : ℂ) := by
        rw [Complex.ofReal_prod]
        refine Finset.prod_congr rfl fun k hk => ?_
        rw [← hpow _ (by linarith [h2 k (Finset.mem_Ico.1 hk).1 (Finset.mem_Ico.1 hk).2])]
        push_cast
        rfl
      rw [e1, e2, pow_zero, mul_one]
      push_cast
      rfl
  obtain ⟨g, hg, e⟩ := key
  rw [e, Complex.norm_real, Real.norm_of_nonneg hg]

theorem edgeSize_lower (m d j : Nat) (u : Nat → ℂ) (hu : ∀ k < d, ∀ x : ℝ, -1 < x → x < 1 → (x : ℂ) ≠ u k) :
    ∃ s : ℝ, 0 < s ∧ ∀ x : ℝ, -1 < x → x < 1 → s ≤ edgeSize m d 0 j u x := by
  have hP : 0 < ∏ k ∈ Finset.range d, (1 + ‖u k‖) := Finset.prod_pos fun k _ => by positivity
  refine ⟨1 / (∏ k ∈ Finset.range d, (1 + ‖u k‖)) ^ (j / m : ℝ), by positivity, fun x h1 h2 => ?_⟩
  unfold edgeSize
  rw [pow_zero]
  have hp : 0 < ∏ k ∈ Finset.range d, ‖(x : ℂ) - u k‖ :=
    Finset.prod_pos fun k hk => norm_pos_iff.2 (sub_ne_zero.2 (hu k (Finset.mem_range.1 hk) x h1 h2))
  have hle : ∏ k ∈ Finset.range d, ‖(x : ℂ) - u k‖ ≤ ∏ k ∈ Finset.range d, (1 + ‖u k‖) := by
    refine Finset.prod_le_prod (fun _ _ => norm_nonneg _) fun k _ => (norm_sub_le _ _).trans ?_
    gcongr
    rw [Complex.norm_real, Real.norm_eq_abs]
    exact abs_le.2 ⟨h1.le, h2.le⟩
  have h3 := Real.rpow_pos_of_pos hp (j / m : ℝ)
  exact one_div_le_one_div_of_le h3 (Real.rpow_le_rpow hp.le hle (by positivity))

theorem deWeight_real_ge {l a : ℝ} (hl : 0 < l) (ha : 0 < a) {x : ℝ} (hx : 0 ≤ x) : l * Real.exp (-(2 * a * l * Real.sinh x)) ≤ deWeight l a (x : ℂ) := by
  unfold deWeight
  have e1 : ‖Complex.cosh (x : ℂ)‖ = Real.cosh x := by
    rw [← Complex.ofReal_cosh, Complex.norm_real, Real.norm_eq_abs, abs_of_pos (Real.cosh_pos x)]
  have e2 : ‖Complex.cosh (l * Complex.sinh (x : ℂ))‖ = Real.cosh (l * Real.sinh x) := by
    have : (l : ℂ) * Complex.sinh x = ((l * Real.sinh x : ℝ) : ℂ) := by push_cast; ring
    rw [this, ← Complex.ofReal_cosh, Complex.norm_real, Real.norm_eq_abs, abs_of_pos (Real.cosh_pos _)]
  rw [e1, e2]
  have hw0 : 0 ≤ l * Real.sinh x := mul_nonneg hl.le (Real.sinh_nonneg_iff.2 hx)
  have hw : Real.cosh (l * Real.sinh x) ≤ Real.exp (l * Real.sinh x) := by
    rw [Real.cosh_eq]
    have : Real.exp (-(l * Real.sinh x)) ≤ Real.exp (l * Real.sinh x) := Real.exp_le_exp.2 (by linarith)
    linarith
  have h2 : Real.exp (l * Real.sinh x) ^ (-(2 * a)) ≤ Real.cosh (l * Real.sinh x) ^ (-(2 * a)) :=
    Real.rpow_le_rpow_of_nonpos (Real.cosh_pos _) hw (by linarith)
  rw [← Real.exp_mul] at h2
  have h1 := Real.one_le_cosh x
  calc l * Real.exp (-(2 * a * l * Real.sinh x)) = l * 1 * Real.exp (l * Real.sinh x * -(2 * a)) := by rw [mul_one]; congr 2; ring
    _ ≤ _ := by gcongr

/-- one forgotten node is enough -/
theorem tail_ge {f : ℤ → ℂ} (hf : Summable f) (hpos : ∀ k, f k = (‖f k‖ : ℝ)) (N : Nat) :
    ‖f N‖ ≤ ‖∑ k ∈ Finset.Ioo (-(N : ℤ)) N, f k - ∑' k, f k‖ := by
  have hg : Summable fun k => ‖f k‖ := hf.norm
  have e1 : ∑' k, f k = ((∑' k, ‖f k‖ : ℝ) : ℂ) := by
    rw [Complex.ofReal_tsum]
    exact tsum_congr hpos
  have e2 : ∑ k ∈ Finset.Ioo (-(N : ℤ)) N, f k = ((∑ k ∈ Finset.Ioo (-(N : ℤ)) N, ‖f k‖ : ℝ) : ℂ) := by
    rw [Complex.ofReal_sum]
    exact Finset.sum_congr rfl fun k _ => hpos k
  have hN : (N : ℤ) ∉ Finset.Ioo (-(N : ℤ)) N := by simp
  have h3 := hg.sum_le_tsum (insert (N : ℤ) (Finset.Ioo (-(N : ℤ)) N)) fun k _ => norm_nonneg _
  rw [Finset.sum_insert hN] at h3
  rw [e1, e2, ← Complex.ofReal_sub, Complex.norm_real, Real.norm_eq_abs, abs_sub_comm]
  exact le_trans (by linarith) (le_abs_self _)

/-- lower bound of the error of the sums with the parameters chosen from the precision -/
theorem de_lower {m n1 d j : Nat} (hm : 2 ≤ m) (hj : j < m) (hn1 : n1 ≤ d) {u : Nat → ℝ} {l r ρ : ℝ} (hl : 0 < l) (hl2 : l ≤ Real.pi / 2)
    (hr : 0 < r) (hrρ : r < ρ) (hρ : ρ ≤ Real.pi / 2) (hne : FreeStrip l ρ d fun k => u k) (h1 : ∀ k < n1, 1 < u k) (h2 : ∀ k, n1 ≤ k → k < d → u k < -1) :
    ∃ c K : ℝ, 0 < c ∧ ∀ prec : Nat, 1 ≤ prec →
      c / (prec * Real.log 2 + deL0 l r m) * Real.exp (-((m - j) / (m - 1) * (prec * Real.log 2))) - K * Real.exp (-(prec * Real.log 2)) ≤
      ‖trapSum m n1 d (fun k => u k) l 0 j (deStep1 l r m prec) (deCount l (deStep1 l r m prec) m prec) - edgeIntegral m n1 d (fun k => u k) 0 j‖ := by
  obtain ⟨ha, ha1⟩ := deAlpha_pos hm
  have hpi := Real.pi_pos
  have hr2 : r < Real.pi / 2 := by linarith
  have hmR : (2 : ℝ) ≤ m := by exact_mod_cast hm
  have hjR : (j : ℝ) + 1 ≤ m := by exact_mod_cast hj
  have hpm : ∀ k < d, (u k : ℂ) ≠ 1 ∧ (u k : ℂ) ≠ -1 := by
    intro k hk
    constructor
    · intro h
      have h : u k = 1 := by exact_mod_cast h
      rcases lt_or_ge k n1 with h' | h'
      · linarith [h1 k h']
      · linarith [h2 k h' hk]
    · intro h
      have h : u k = -1 := by exact_mod_cast h
      rcases lt_or_ge k n1 with h' | h'
      · linarith [h1 k h']
      · linarith [h2 k h' hk]
  set a : ℝ := 1 - j / m with hadef
  have haj : 0 < a := by
    rw [hadef, sub_pos, div_lt_one (by linarith)]
    linarith
  set θ : ℝ := (m - j) / (m - 1) with hθ
  have hθa : a / deAlpha m = θ := by
    rw [hadef, hθ]
    unfold deAlpha
    have : (m : ℝ) - 1 ≠ 0 := by linarith
    field_simp
  obtain ⟨S, hS0, hS⟩ := line_bound_exists (m := m) (i := 0) (j := j) hl hl2 hr.le hrρ hρ hne hpm
  obtain ⟨s, hs0, hs⟩ := edgeSize_lower m d j (fun k => (u k : ℂ)) fun k hk x x1 x2 => freeStrip_path hl (hr.trans hrρ) hne k hk x ⟨x1, x2⟩
  obtain ⟨K, hK0, hK⟩ := deCount_bounds (m := m) hm hl hl2 hr hr2
  set B := max (S * ∫ x : ℝ, deWeight l a (x + r * Complex.I)) (S * ∫ x : ℝ, deWeight l a (x + (-r : ℝ) * Complex.I)) with hBdef
  have hB : ∀ y, |y| = r → ∫ x : ℝ, deWeight l a (x + y * Complex.I) * edgeSize m d 0 j (fun k => u k) (deZ l (x + y * Complex.I)) ≤ B := by
    intro y hy
    refine (line_integral_le (by omega) hj hl hl2 hr2 hS hy).trans ?_
    rcases eq_or_eq_neg_of_abs_eq hy with rfl | rfl
    · exact le_max_left _ _
    · exact le_max_right _ _
  have hB0 : 0 ≤ B := (mul_nonneg hS0 (integral_nonneg fun x => deWeight_nonneg hl.le _ _)).trans (le_max_left _ _)
  refine ⟨2 * Real.pi * r * (l * s * Real.exp (-(2 * a * l * K) - θ * deC0 m)), 4 * B, by positivity, fun prec hp => ?_⟩
  obtain ⟨hh, hn, -, hup, -⟩ := hK prec hp
  have hx := deStep1_exp hm hl hl2 hr hr2 hp
  set h := deStep1 l r m prec with hhdef
  set n := deCount l h m prec with hndef
  obtain ⟨d1, d2, -⟩ := de_err_of (M := 0) (n1 := n1) (i := 0) (by omega) hj hn1 hl hl2 hr hrρ hρ hne hpm hh hB
  have hden : 0 < prec * Real.log 2 + deL0 l r m := by
    have hL := deL0_nonneg hm hl hl2 hr hr2
    have hlog : 0 < Real.log 2 := Real.log_pos one_lt_two
    have hp1 : (1 : ℝ) ≤ prec := by exact_mod_cast hp
    nlinarith
  have ht := tail_ge d1 (fun k => deTerm_real hl h1 h2 _) n
  have hnode : l * s * Real.exp (-(2 * a * l * Real.sinh (n * h))) ≤ ‖deTerm m n1 d (fun k => (u k : ℂ)) l 0 j (n * h)‖ := by
    rw [deTerm_norm 0 j hl hl2 (hr.trans hrρ) hρ hn1 (by omega) hne hpm]
    have w1 := deWeight_real_ge hl haj (x := n * h) (by positivity)
    have w2 := hs _ (dePhi_mem l (n * h)).1 (dePhi_mem l (n * h)).2
    calc _ = l * Real.exp (-(2 * a * l * Real.sinh (n * h))) * s := by ring
      _ ≤ _ := mul_le_mul w1 w2 hs0.le (deWeight_nonneg hl.le _ _)
  have hexp : -(2 * a * l * K) - θ * deC0 m + -(θ * (prec * Real.log 2)) ≤ -(2 * a * l * Real.sinh (n * h)) := by
    have e : 2 * a * l * ((prec * Real.log 2 + deC0 m) / (2 * deAlpha m * l)) = θ * (prec * Real.log 2 + deC0 m) := by
      rw [← hθa]
      field_simp
    have h3 := mul_le_mul_of_nonneg_left hup (by positivity : 0 ≤ 2 * a * l)
    rw [mul_add, e] at h3
    linarith
  have hh' : h = 2 * Real.pi * r / (prec * Real.log 2 + deL0 l r m) := rfl
  have hfirst : 2 * Real.pi * r * (l * s * Real.exp (-(2 * a * l * K) - θ * deC0 m)) / (prec * Real.log 2 + deL0 l r m) * Real.exp (-(θ * (prec * Real.log 2))) ≤
      ‖h * ∑ k ∈ Finset.Ioo (-(n : ℤ)) n, deTerm m n1 d (fun k => (u k : ℂ)) l 0 j (k * h) - h * ∑' k : ℤ, deTerm m n1 d (fun k => (u k : ℂ)) l 0 j (k * h)‖ := by
    rw [← mul_sub, norm_mul, Complex.norm_real, Real.norm_of_nonneg hh.le]
    calc _ = h * (l * s * Real.exp (-(2 * a * l * K) - θ * deC0 m + -(θ * (prec * Real.log 2)))) := by
          rw [hh', Real.exp_add]
          ring
      _ ≤ h * (l * s * Real.exp (-(2 * a * l * Real.sinh (n * h)))) := by
          have := Real.exp_le_exp.2 hexp
          gcongr
      _ ≤ _ := mul_le_mul_of_nonneg_left (hnode.trans (by simpa using ht)) hh.le
  have hsecond : ‖h * ∑' k : ℤ, deTerm m n1 d (fun k => (u k : ℂ)) l 0 j (k * h) - edgeIntegral m n1 d (fun k => (u k : ℂ)) 0 j‖ ≤ 4 * B * Real.exp (-(prec * Real.log 2)) := by
    refine d2.trans ?_
    calc 2 * B / (Real.exp (2 * Real.pi * r / h) - 1) ≤ 2 * B / (Real.exp (prec * Real.log 2) / 2) := by
          have := hx.2
          gcongr
      _ = 4 * B * Real.exp (-(prec * Real.log 2)) := by rw [Real.exp_neg]; field_simp; ring
  unfold trapSum
  have htri := norm_sub_norm_le (h * ∑ k ∈ Finset.Ioo (-(n : ℤ)) n, deTerm m n1 d (fun k => (u k : ℂ)) l 0 j (k * h) - h * ∑' k : ℤ, deTerm m n1 d (fun k => (u k : ℂ)) l 0 j (k * h))
    (edgeIntegral m n1 d (fun k => (u k : ℂ)) 0 j - h * ∑' k : ℤ, deTerm m n1 d (fun k => (u k : ℂ)) l 0 j (k * h))
  rw [sub_sub_sub_cancel_right, norm_sub_rev (edgeIntegral m n1 d (fun k => (u k : ℂ)) 0 j)] at htri
  linarith

/-- the radius of `de_error` with the parameters chosen from the precision -/
theorem deError_upper {m j : Nat} (hm : 2 ≤ m) (hj0 : 1 ≤ j) (hj : j < m) {l r : ℝ} (hl : 0 < l) (hl2 : l ≤ Real.pi / 2) (hr : 0 < r) (hr2 : r < Real.pi / 2) (m1 m2 : ℝ) :
    ∃ K : ℝ, 0 ≤ K ∧ ∀ prec : Nat, 1 ≤ prec →
      deError m1 m2 (deStep1 l r m prec) l (deCount l (deStep1 l r m prec) m prec) r j m ≤ K * Real.exp (-((m - j) / (m - 1) * (prec * Real.log 2))) := by
  obtain ⟨ha, ha1⟩ := deAlpha_pos hm
  have hmR : (2 : ℝ) ≤ m := by exact_mod_cast hm
  have hjR : (j : ℝ) + 1 ≤ m := by exact_mod_cast hj
  have hj0R : (1 : ℝ) ≤ j := by exact_mod_cast hj0
  have hmj : 0 < (m - j : ℝ) := by linarith
  have hC := deC0_pos hm
  have hlog : 0 < Real.log 2 := Real.log_pos one_lt_two
  set a : ℝ := (m - j) / m with hadef
  have haj : 0 < a := by positivity
  set θ : ℝ := (m - j) / (m - 1) with hθ
  have hθa : a / deAlpha m = θ := by
    rw [hadef, hθ]
    unfold deAlpha
    have : (m : ℝ) - 1 ≠ 0 := by linarith
    field_simp
  have hθ0 : 0 < θ := by rw [← hθa]; positivity
  have hθ1 : θ ≤ 1 := by
    rw [hθ, div_le_one (by linarith)]
    linarith
  obtain ⟨K, hK0, hK⟩ := deCount_bounds (m := m) hm hl hl2 hr hr2
  refine ⟨|m1| * Real.exp (2 * a * Real.log 2) / (a * l) + 2 * |m2 * deConstantB l r j m|, by positivity, fun prec hp => ?_⟩
  obtain ⟨hh, hn, hlow, -, -⟩ := hK prec hp
  have hx := deStep1_exp hm hl hl2 hr hr2 hp
  set h := deStep1 l r m prec with hhdef
  set n := deCount l h m prec with hndef
  unfold deError
  rw [add_mul]
  apply add_le_add
  · unfold deErrorT
    have e1 : (l * Real.sinh (h * n) - Real.log 2) * (2 * (m - j)) / m = 2 * a * l * Real.sinh (n * h) - 2 * a * Real.log 2 := by
      rw [hadef, mul_comm h]
      field_simp
    have e2 : Real.exp ((l * Real.sinh (h * n) - Real.log 2) * (2 * (m - j)) / m) * (m - j) / m * l =
        Real.exp (2 * a * l * Real.sinh (n * h) - 2 * a * Real.log 2) * (a * l) := by
      rw [e1, hadef]
      ring
    rw [e2]
    have hge : θ * (prec * Real.log 2) ≤ 2 * a * l * Real.sinh (n * h) := by
      have e : 2 * a * l * ((prec * Real.log 2 + deC0 m) / (2 * deAlpha m * l)) = θ * (prec * Real.log 2 + deC0 m) := by
        rw [← hθa]
        field_simp
      have h3 := mul_le_mul_of_nonneg_left hlow (by positivity : 0 ≤ 2 * a * l)
      rw [e] at h3
      nlinarith [mul_pos hθ0 hC]
    calc m1 / (Real.exp (2 * a * l * Real.sinh (n * h) - 2 * a * Real.log 2) * (a * l))
        ≤ |m1| / (Real.exp (2 * a * l * Real.sinh (n * h) - 2 * a * Real.log 2) * (a * l)) := by gcongr; exact le_abs_self _
      _ ≤ |m1| / (Real.exp (θ * (prec * Real.log 2) - 2 * a * Real.log 2) * (a * l)) := by gcongr
      _ = _ := by
        rw [Real.exp_sub, Real.exp_neg]
        field_simp
  · unfold deErrorQ
    have e1 : 2 * (Real.pi * r) / h = 2 * Real.pi * r / h := by ring
    rw [e1]
    have hE : Real.exp (-(prec * Real.log 2)) ≤ Real.exp (-(θ * (prec * Real.log 2))) := by
      apply Real.exp_le_exp.2
      have : θ * (prec * Real.log 2) ≤ 1 * (prec * Real.log 2) := mul_le_mul_of_nonneg_right hθ1 (by positivity)
      linarith
    have hp : 0 < Real.exp (prec * Real.log 2) := Real.exp_pos _
    calc m2 * deConstantB l r j m / (Real.exp (2 * Real.pi * r / h) - 1) ≤ |m2 * deConstantB l r j m| / (Real.exp (2 * Real.pi * r / h) - 1) := by
          apply div_le_div_of_nonneg_right (le_abs_self _)
          linarith [hx.2]
      _ ≤ |m2 * deConstantB l r j m| / (Real.exp (prec * Real.log 2) / 2) := by
          have := hx.2
          gcongr
      _ = 2 * |m2 * deConstantB l r j m| * Real.exp (-(prec * Real.log 2)) := by rw [Real.exp_neg]; field_simp
      _ ≤ _ := by gcongr

/-- an exponential beats a linear function -/
theorem exp_beats {c K L s : ℝ} (hc : 0 < c) (hL : 0 ≤ L) (hs : 0 < s) (hK : 0 ≤ K) : ∃ D0 : ℝ, ∀ D : ℝ, D0 ≤ D → 1 ≤ D → K * (D + L) < c * Real.exp (s * D) := by
  refine ⟨2 * (K * (1 + L) + 1) / (c * s ^ 2), fun D h1 h2 => ?_⟩
  have h3 := Real.quadratic_le_exp_of_nonneg (show 0 ≤ s * D by positivity)
  rw [div_le_iff₀ (by positivity)] at h1
  have h4 : K * (D + L) ≤ K * (1 + L) * D := by nlinarith [mul_nonneg hK hL, mul_nonneg (mul_nonneg hK hL) (by linarith : 0 ≤ D - 1)]
  have h5 : c * ((s * D) ^ 2 / 2) < c * Real.exp (s * D) := by
    apply mul_lt_mul_of_pos_left _ hc
    have : 0 < s * D := by positivity
    linarith
  have h6 : (K * (1 + L) + 1) * D ≤ c * ((s * D) ^ 2 / 2) := by nlinarith
  nlinarith

end Hcp
