import Verif.Proofs.DeErr
import Verif.Model.DeParams

/-!
# The parameters chosen from the precision
-/

namespace Hcp

open MeasureTheory Set Filter Topology Spec

theorem deAlpha_pos {m : Nat} (hm : 2 ≤ m) : 0 < deAlpha m ∧ deAlpha m < 1 := by
  have : (2 : ℝ) ≤ m := by exact_mod_cast hm
  unfold deAlpha
  constructor
  · apply div_pos <;> linarith
  · rw [div_lt_one (by linarith)]; linarith

/-- `L0 = log (2 B + 1)` -/
noncomputable def deL0 (lam r : ℝ) (m : Nat) : ℝ := Real.log (2 * 1 * deConstantBd lam r (deAlpha m) + 1)

/-- `C0 = log (32 / alpha)` -/
noncomputable def deC0 (m : Nat) : ℝ := Real.log (32 * 1 / deAlpha m)

theorem deC0_pos {m : Nat} (hm : 2 ≤ m) : 0 < deC0 m := by
  obtain ⟨h1, h2⟩ := deAlpha_pos hm
  apply Real.log_pos
  rw [lt_div_iff₀ h1]
  linarith

theorem deL0_nonneg {lam r : ℝ} {m : Nat} (hm : 2 ≤ m) (hl : 0 < lam) (hl2 : lam ≤ Real.pi / 2) (hr : 0 < r) (hr2 : r < Real.pi / 2) : 0 ≤ deL0 lam r m := by
  obtain ⟨ha, -⟩ := deAlpha_pos hm
  apply Real.log_nonneg
  have hsin : 0 < Real.sin r := Real.sin_pos_of_pos_of_lt_pi hr (by linarith [Real.pi_pos])
  have hcos : 0 < Real.cos r := Real.cos_pos_of_mem_Ioo ⟨by linarith, hr2⟩
  have hcy : 0 ≤ Real.cos (lam * Real.sin r) := by
    apply Real.cos_nonneg_of_neg_pi_div_two_le_of_le
    · have := mul_pos hl hsin
      linarith [Real.pi_pos]
    · nlinarith [Real.sin_le_one r]
  have : 0 ≤ deConstantBd lam r (deAlpha m) := by
    unfold deConstantBd
    simp only
    have hx : 0 ≤ Real.cos r * Real.sqrt (lam / (lam * Real.sin r) - 1) := by positivity
    have hsx := Real.sinh_nonneg_iff.2 hx
    have := Real.rpow_nonneg hcy (-(2 * deAlpha m))
    have := Real.rpow_nonneg hsx (-(2 * deAlpha m))
    have := Real.rpow_nonneg hx (-(2 * deAlpha m))
    positivity
  linarith

/-- bounds on the node `n h` -/
theorem deCount_bounds {lam r : ℝ} {m : Nat} (hm : 2 ≤ m) (hl : 0 < lam) (hl2 : lam ≤ Real.pi / 2) (hr : 0 < r) (hr2 : r < Real.pi / 2) :
    ∃ K : ℝ, 0 ≤ K ∧ ∀ prec : Nat, 1 ≤ prec →
      let h := deStep1 lam r m prec
      let n := deCount lam h m prec
      let v := (prec * Real.log 2 + deC0 m) / (2 * deAlpha m * lam)
      0 < h ∧ 0 < n ∧ v ≤ Real.sinh (n * h) ∧ Real.sinh (n * h) ≤ v + K ∧ v - K ≤ Real.sinh ((n - 1 : ℕ) * h) := by
  obtain ⟨ha, ha1⟩ := deAlpha_pos hm
  have hC := deC0_pos hm
  have hL := deL0_nonneg hm hl hl2 hr hr2
  have hlog : 0 < Real.log 2 := Real.log_pos one_lt_two
  have hpi := Real.pi_pos
  set H := 2 * Real.pi * r / Real.log 2 with hH
  have hH0 : 0 < H := by positivity
  set V := 2 * Real.pi * r * (1 + deC0 m / Real.log 2) / (2 * deAlpha m * lam) with hV
  have hV0 : 0 < V := by positivity
  refine ⟨V * Real.exp H + Real.sinh H, by have := Real.sinh_nonneg_iff.2 hH0.le; positivity, fun prec hp => ?_⟩
  have hp1 : (1 : ℝ) ≤ prec := by exact_mod_cast hp
  intro h n v
  have hD : Real.log 2 ≤ prec * Real.log 2 := le_mul_of_one_le_left hlog.le hp1
  have eh : h = 2 * Real.pi * r / (prec * Real.log 2 + deL0 lam r m) := rfl
  have hden : 0 < prec * Real.log 2 + deL0 lam r m := by linarith
  have hh : 0 < h := by rw [eh]; positivity
  have hhH : h ≤ H := by
    rw [eh, hH]
    gcongr
    linarith
  have hv : 0 < v := by
    have : 0 < prec * Real.log 2 + deC0 m := by linarith
    positivity
  have hvh : v * h ≤ V := by
    have e : v * h = 2 * Real.pi * r * ((prec * Real.log 2 + deC0 m) / (prec * Real.log 2 + deL0 lam r m)) / (2 * deAlpha m * lam) := by
      rw [eh]
      show (prec * Real.log 2 + deC0 m) / (2 * deAlpha m * lam) * _ = _
      field_simp
    rw [e, hV]
    gcongr
    rw [div_le_iff₀ hden, add_mul]
    have : deC0 m ≤ deC0 m / Real.log 2 * (prec * Real.log 2 + deL0 lam r m) := by
      rw [div_mul_eq_mul_div, le_div_iff₀ hlog]
      apply mul_le_mul_of_nonneg_left _ hC.le
      linarith
    linarith
  have hA : 0 < Real.arsinh v := Real.arsinh_pos_iff.2 hv
  have hn : n = ⌈Real.arsinh v / h⌉₊ := rfl
  have hq : 0 < Real.arsinh v / h := by positivity
  have hn0 : 0 < n := by rw [hn]; exact Nat.ceil_pos.2 hq
  have hge : Real.arsinh v ≤ n * h := by
    rw [← div_le_iff₀ hh, hn]
    exact Nat.le_ceil _
  have hlt : n * h ≤ Real.arsinh v + h := by
    have : (n : ℝ) < Real.arsinh v / h + 1 := by rw [hn]; exact Nat.ceil_lt_add_one hq.le
    have := mul_le_mul_of_nonneg_right this.le hh.le
    rwa [add_mul, div_mul_cancel₀ _ hh.ne', one_mul] at this
  have hcosh : Real.cosh (Real.arsinh v) ≤ v + 1 := by
    apply le_of_sq_le_sq _ (by positivity)
    rw [Real.cosh_sq, Real.sinh_arsinh]
    nlinarith
  have hsh : 0 < Real.sinh h := Real.sinh_pos_iff.2 hh
  have hshH : Real.sinh h ≤ Real.sinh H := Real.sinh_le_sinh.2 hhH
  have hexp : Real.exp h ≤ Real.exp H := Real.exp_le_exp.2 hhH
  refine ⟨hh, hn0, ?_, ?_, ?_⟩
  · calc v = Real.sinh (Real.arsinh v) := (Real.sinh_arsinh v).symm
      _ ≤ _ := Real.sinh_le_sinh.2 hge
  · calc Real.sinh (n * h) ≤ Real.sinh (Real.arsinh v + h) := Real.sinh_le_sinh.2 hlt
      _ = v * Real.cosh h + Real.cosh (Real.arsinh v) * Real.sinh h := by rw [Real.sinh_add, Real.sinh_arsinh]
      _ ≤ v * Real.cosh h + (v + 1) * Real.sinh h := by gcongr
      _ = v * Real.exp h + Real.sinh h := by rw [← Real.cosh_add_sinh h]; ring
      _ ≤ (v + V * Real.exp H) + Real.sinh H := by
        apply add_le_add _ hshH
        have h1 : Real.exp h ≤ 1 + h * Real.exp h := by
          have := Real.add_one_le_exp (-h)
          have h2 := mul_le_mul_of_nonneg_right this (Real.exp_pos h).le
          rw [← Real.exp_add, neg_add_cancel, Real.exp_zero] at h2
          linarith
        calc v * Real.exp h ≤ v * (1 + h * Real.exp h) := by gcongr
          _ = v + v * h * Real.exp h := by ring
          _ ≤ v + V * Real.exp H := by gcongr
      _ = _ := by ring
  · have hn1 : ((n - 1 : ℕ) : ℝ) = n - 1 := by push_cast [Nat.cast_sub hn0]; ring
    rw [hn1]
    have hge' : Real.arsinh v - h ≤ (n - 1) * h := by linarith
    calc v - (V * Real.exp H + Real.sinh H) ≤ v - v * h - Real.sinh h := by
          have : V ≤ V * Real.exp H := le_mul_of_one_le_right hV0.le (Real.one_le_exp hH0.le)
          linarith
      _ ≤ v * Real.exp (-h) - Real.sinh h := by
          have := Real.add_one_le_exp (-h)
          nlinarith
      _ = v * Real.cosh h - (v + 1) * Real.sinh h := by rw [← Real.cosh_sub_sinh h]; ring
      _ ≤ v * Real.cosh h - Real.cosh (Real.arsinh v) * Real.sinh h := by gcongr
      _ = Real.sinh (Real.arsinh v - h) := by rw [Real.sinh_sub, Real.sinh_arsinh]
      _ ≤ _ := Real.sinh_le_sinh.2 hge'

/-- the denominator of the aliasing terms -/
theorem deStep1_exp {lam r : ℝ} {m : Nat} (hm : 2 ≤ m) (hl : 0 < lam) (hl2 : lam ≤ Real.pi / 2) (hr : 0 < r) (hr2 : r < Real.pi / 2) {prec : Nat} (hp : 1 ≤ prec) :
    2 * Real.pi * r / deStep1 lam r m prec = prec * Real.log 2 + deL0 lam r m ∧
    Real.exp (prec * Real.log 2) / 2 ≤ Real.exp (2 * Real.pi * r / deStep1 lam r m prec) - 1 := by
  have hL := deL0_nonneg hm hl hl2 hr hr2
  have hlog : 0 < Real.log 2 := Real.log_pos one_lt_two
  have hp1 : (1 : ℝ) ≤ prec := by exact_mod_cast hp
  have hden : 0 < prec * Real.log 2 + deL0 lam r m := by nlinarith
  have hpi := Real.pi_pos
  have e : 2 * Real.pi * r / deStep1 lam r m prec = prec * Real.log 2 + deL0 lam r m := by
    unfold deStep1
    rw [div_div_cancel₀ (by positivity)]
    rfl
  refine ⟨e, ?_⟩
  rw [e]
  have h1 : Real.exp (prec * Real.log 2) ≤ Real.exp (prec * Real.log 2 + deL0 lam r m) := Real.exp_le_exp.2 (by linarith)
  have h2 : 2 ≤ Real.exp (prec * Real.log 2) := by
    calc (2 : ℝ) = Real.exp (Real.log 2) := (Real.exp_log two_pos).symm
      _ ≤ _ := Real.exp_le_exp.2 (by nlinarith)
  linarith

/-- upper bound of the error of the sums with the parameters chosen from the precision -/
theorem de_upper {m n1 d i j : Nat} (hm : 2 ≤ m) (hj0 : 1 ≤ j) (hj : j < m) (h1 : n1 ≤ d) {u : Nat → ℂ} {l r ρ : ℝ} (hl : 0 < l) (hl2 : l ≤ Real.pi / 2)
    (hr : 0 < r) (hrρ : r < ρ) (hρ : ρ ≤ Real.pi / 2) (hne : FreeStrip l ρ d u) (hpm : ∀ k < d, u k ≠ 1 ∧ u k ≠ -1) :
    ∃ K : ℝ, ∀ prec : Nat, 1 ≤ prec →
      ‖trapSum m n1 d u l i j (deStep1 l r m prec) (deCount l (deStep1 l r m prec) m prec) - edgeIntegral m n1 d u i j‖ ≤
        K * Real.exp (-((m - j) / (m - 1) * (prec * Real.log 2))) := by
  obtain ⟨ha, ha1⟩ := deAlpha_pos hm
  have hr2 : r < Real.pi / 2 := by linarith
  have hmR : (2 : ℝ) ≤ m := by exact_mod_cast hm
  have hjR : (j : ℝ) + 1 ≤ m := by exact_mod_cast hj
  have hj0R : (1 : ℝ) ≤ j := by exact_mod_cast hj0
  have hlog : 0 < Real.log 2 := Real.log_pos one_lt_two
  have hC := deC0_pos hm
  set a : ℝ := 1 - j / m with hadef
  have haj : 0 < a := by
    rw [hadef, sub_pos, div_lt_one (by linarith)]
    linarith
  set θ : ℝ := (m - j) / (m - 1) with hθ
  have hθa : a / deAlpha m = θ := by
    rw [hadef, hθ]
    unfold deAlpha
    have : (m : ℝ) - 1 ≠ 0 := by linarith
    field_simp
  have hθ0 : 0 < θ := by rw [← hθa]; positivity
  have hθ1 : θ ≤ 1 := by
    rw [hθ, div_le_one (by linarith)]
    linarith
  obtain ⟨S, hS0, hS⟩ := line_bound_exists (m := m) (i := i) (j := j) hl hl2 hr.le hrρ hρ hne hpm
  obtain ⟨M, hM0, hM⟩ := path_bound_exists (m := m) (i := i) (j := j) hl (hr.trans hrρ) hne hpm
  obtain ⟨K, hK0, hK⟩ := deCount_bounds (m := m) hm hl hl2 hr hr2
  set B := max (S * ∫ x : ℝ, deWeight l a (x + r * Complex.I)) (S * ∫ x : ℝ, deWeight l a (x + (-r : ℝ) * Complex.I)) with hBdef
  have hB : ∀ y, |y| = r → ∫ x : ℝ, deWeight l a (x + y * Complex.I) * edgeSize m d i j u (deZ l (x + y * Complex.I)) ≤ B := by
    intro y hy
    refine (line_integral_le (by omega) hj hl hl2 hr2 hS hy).trans ?_
    rcases eq_or_eq_neg_of_abs_eq hy with rfl | rfl
    · exact le_max_left _ _
    · exact le_max_right _ _
  have hB0 : 0 ≤ B := (mul_nonneg hS0 (integral_nonneg fun x => deWeight_nonneg hl.le _ _)).trans (le_max_left _ _)
  -- large precisions
  set f : Nat → ℝ := fun prec => ‖trapSum m n1 d u l i j (deStep1 l r m prec) (deCount l (deStep1 l r m prec) m prec) - edgeIntegral m n1 d u i j‖ with hf
  obtain ⟨P0, hP0⟩ := exists_nat_ge ((K + 1 / (2 * a * l)) * (2 * deAlpha m * l) / Real.log 2)
  set K1 : ℝ := 4 * B + M * 2 ^ (2 * a) / a * Real.exp (2 * a * l * K) with hK1
  have hK10 : 0 ≤ K1 := by positivity
  have big : ∀ prec : Nat, 1 ≤ prec → P0 ≤ prec → f prec ≤ K1 * Real.exp (-(θ * (prec * Real.log 2))) := by
    intro prec hp hpP
    obtain ⟨hh, hn, -, -, hlow⟩ := hK prec hp
    set h := deStep1 l r m prec with hhdef
    set n := deCount l h m prec with hndef
    have hpP' : (P0 : ℝ) ≤ prec := by exact_mod_cast hpP
    have hp1 : (1 : ℝ) ≤ prec := by exact_mod_cast hp
    have hv : K + 1 / (2 * a * l) ≤ (prec * Real.log 2 + deC0 m) / (2 * deAlpha m * l) := by
      rw [le_div_iff₀ (by positivity)]
      rw [div_le_iff₀ hlog] at hP0
      nlinarith
    have hcond : 1 ≤ 2 * a * l * Real.sinh ((n - 1 : ℕ) * h) := by
      have : 1 / (2 * a * l) ≤ Real.sinh ((n - 1 : ℕ) * h) := by linarith
      rw [div_le_iff₀ (by positivity)] at this
      linarith
    have hd := (de_err_of (M := M) (n1 := n1) (by omega) hj h1 hl hl2 hr hrρ hρ hne hpm hh hB).2.2 n hn hM0 hM (Or.inr hcond)
    refine hd.trans ?_
    rw [hK1, add_mul]
    have hx := (deStep1_exp hm hl hl2 hr hr2 hp).2
    rw [← hhdef] at hx
    have hE : Real.exp (-(prec * Real.log 2)) ≤ Real.exp (-(θ * (prec * Real.log 2))) := by
      apply Real.exp_le_exp.2
      have : θ * (prec * Real.log 2) ≤ 1 * (prec * Real.log 2) := mul_le_mul_of_nonneg_right hθ1 (by positivity)
      linarith
    apply add_le_add
    · calc 2 * B / (Real.exp (2 * Real.pi * r / h) - 1) ≤ 2 * B / (Real.exp (prec * Real.log 2) / 2) := by gcongr
        _ = 4 * B * Real.exp (-(prec * Real.log 2)) := by rw [Real.exp_neg]; field_simp; ring
        _ ≤ _ := by gcongr
    · have hexp : -(2 * a * l * Real.sinh ((n - 1 : ℕ) * h)) ≤ 2 * a * l * K + -(θ * (prec * Real.log 2)) := by
        have e : 2 * a * l * ((prec * Real.log 2 + deC0 m) / (2 * deAlpha m * l)) = θ * (prec * Real.log 2 + deC0 m) := by
          rw [← hθa]
          field_simp
        have h3 := mul_le_mul_of_nonneg_left hlow (by positivity : 0 ≤ 2 * a * l)
        rw [mul_sub, e] at h3
        nlinarith [mul_pos hθ0 hC]
      calc M * 2 ^ (2 * a) / a * Real.exp (-(2 * a * l * Real.sinh ((n - 1 : ℕ) * h)))
          ≤ M * 2 ^ (2 * a) / a * Real.exp (2 * a * l * K + -(θ * (prec * Real.log 2))) := by
            apply mul_le_mul_of_nonneg_left (Real.exp_le_exp.2 hexp) (by positivity)
        _ = _ := by rw [Real.exp_add]; ring
  -- small precisions
  refine ⟨K1 + ∑ p ∈ Finset.range P0, f p * Real.exp (θ * (p * Real.log 2)), fun prec hp => ?_⟩
  have hnn : ∀ p ∈ Finset.range P0, 0 ≤ f p * Real.exp (θ * (p * Real.log 2)) := fun p _ => mul_nonneg (norm_nonneg _) (Real.exp_pos _).le
  rcases le_or_gt P0 prec with h | h
  · refine (big prec hp h).trans ?_
    apply mul_le_mul_of_nonneg_right _ (Real.exp_pos _).le
    linarith [Finset.sum_nonneg hnn]
  · have h2 := Finset.single_le_sum hnn (Finset.mem_range.2 h)
    have h3 : f prec * Real.exp (θ * (prec * Real.log 2)) ≤ K1 + ∑ p ∈ Finset.range P0, f p * Real.exp (θ * (p * Real.log 2)) := by linarith
    have h4 := mul_le_mul_of_nonneg_right h3 (Real.exp_pos (-(θ * (prec * Real.log 2)))).le
    rw [mul_assoc, ← Real.exp_add, add_neg_cancel, Real.exp_zero, mul_one] at h4
    exact h4

end Hcp
