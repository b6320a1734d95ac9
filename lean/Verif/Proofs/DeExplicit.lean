import Verif.Proofs.DeLower
import Verif.Proofs.DeLine
import Mathlib.Analysis.Complex.ExponentialBounds
import Mathlib.Analysis.SpecialFunctions.Trigonometric.Bounds

/-!
# Explicit constants in the error of the double-exponential sums
-/

namespace Hcp

open MeasureTheory Set Filter Topology Spec

/-- lower bound of the error at one precision -/
theorem de_lower_at {m n1 d j : Nat} (hm : 2 ≤ m) (hj : j < m) (hn1 : n1 ≤ d) {u : Nat → ℝ} {l r ρ : ℝ} (hl : 0 < l) (hl2 : l ≤ Real.pi / 2)
    (hr : 0 < r) (hrρ : r < ρ) (hρ : ρ ≤ Real.pi / 2) (hne : FreeStrip l ρ d fun k => u k) (h1 : ∀ k < n1, 1 < u k) (h2 : ∀ k, n1 ≤ k → k < d → u k < -1)
    {s B K : ℝ} (hs0 : 0 < s) (hs : ∀ x : ℝ, -1 < x → x < 1 → s ≤ edgeSize m d 0 j (fun k => (u k : ℂ)) x)
    (hB0 : 0 ≤ B) (hB : ∀ y, |y| = r → ∫ x : ℝ, deWeight l (1 - j / m) (x + y * Complex.I) * edgeSize m d 0 j (fun k => u k) (deZ l (x + y * Complex.I)) ≤ B)
    {prec : Nat} (hp : 1 ≤ prec)
    (hup : Real.sinh (deCount l (deStep1 l r m prec) m prec * deStep1 l r m prec) ≤ (prec * Real.log 2 + deC0 m) / (2 * deAlpha m * l) + K) :
    deStep1 l r m prec * (l * s * Real.exp (-(2 * (1 - j / m) * l * K) - (m - j) / (m - 1) * deC0 m + -((m - j) / (m - 1) * (prec * Real.log 2)))) - 4 * B * Real.exp (-(prec * Real.log 2)) ≤
      ‖trapSum m n1 d (fun k => u k) l 0 j (deStep1 l r m prec) (deCount l (deStep1 l r m prec) m prec) - edgeIntegral m n1 d (fun k => u k) 0 j‖ := by
  obtain ⟨ha, ha1⟩ := deAlpha_pos hm
  have hpi := Real.pi_pos
  have hr2 : r < Real.pi / 2 := by linarith
  have hmR : (2 : ℝ) ≤ m := by exact_mod_cast hm
  have hjR : (j : ℝ) + 1 ≤ m := by exact_mod_cast hj
  have hpm : ∀ k < d, (u k : ℂ) ≠ 1 ∧ (u k : ℂ) ≠ -1 := by
    intro k hk
    constructor
    · intro h
      have h : u k = 1 := by exact_mod_cast h
      rcases lt_or_ge k n1 with h' | h'
      · linarith [h1 k h']
      · linarith [h2 k h' hk]
    · intro h
      have h : u k = -1 := by exact_mod_cast h
      rcases lt_or_ge k n1 with h' | h'
      · linarith [h1 k h']
      · linarith [h2 k h' hk]
  set a : ℝ := 1 - j / m with hadef
  have haj : 0 < a := by
    rw [hadef, sub_pos, div_lt_one (by linarith)]
    linarith
  set θ : ℝ := (m - j) / (m - 1) with hθ
  have hθa : a / deAlpha m = θ := by
    rw [hadef, hθ]
    unfold deAlpha
    have : (m : ℝ) - 1 ≠ 0 := by linarith
    field_simp
  obtain ⟨K1, -, hK1⟩ := deCount_bounds (m := m) hm hl hl2 hr hr2
  obtain ⟨hh, hn, -, -, -⟩ := hK1 prec hp
  have hx := deStep1_exp hm hl hl2 hr hr2 hp
  set h := deStep1 l r m prec with hhdef
  set n := deCount l h m prec with hndef
  obtain ⟨d1, d2, -⟩ := de_err_of (M := 0) (n1 := n1) (i := 0) (by omega) hj hn1 hl hl2 hr hrρ hρ hne hpm hh hB
  have ht := tail_ge d1 (fun k => deTerm_real hl h1 h2 _) n
  have hnode : l * s * Real.exp (-(2 * a * l * Real.sinh (n * h))) ≤ ‖deTerm m n1 d (fun k => (u k : ℂ)) l 0 j (n * h)‖ := by
    rw [deTerm_norm 0 j hl hl2 (hr.trans hrρ) hρ hn1 (by omega) hne hpm]
    have w1 := deWeight_real_ge hl haj (x := n * h) (by positivity)
    have w2 := hs _ (dePhi_mem l (n * h)).1 (dePhi_mem l (n * h)).2
    calc _ = l * Real.exp (-(2 * a * l * Real.sinh (n * h))) * s := by ring
      _ ≤ _ := mul_le_mul w1 w2 hs0.le (deWeight_nonneg hl.le _ _)
  have hexp : -(2 * a * l * K) - θ * deC0 m + -(θ * (prec * Real.log 2)) ≤ -(2 * a * l * Real.sinh (n * h)) := by
    have e : 2 * a * l * ((prec * Real.log 2 + deC0 m) / (2 * deAlpha m * l)) = θ * (prec * Real.log 2 + deC0 m) := by
      rw [← hθa]
      field_simp
    have h3 := mul_le_mul_of_nonneg_left hup (by positivity : 0 ≤ 2 * a * l)
    rw [mul_add, e] at h3
    linarith
  have hfirst : h * (l * s * Real.exp (-(2 * a * l * K) - θ * deC0 m + -(θ * (prec * Real.log 2)))) ≤
      ‖h * ∑ k ∈ Finset.Ioo (-(n : ℤ)) n, deTerm m n1 d (fun k => (u k : ℂ)) l 0 j (k * h) - h * ∑' k : ℤ, deTerm m n1 d (fun k => (u k : ℂ)) l 0 j (k * h)‖ := by
    rw [← mul_sub, norm_mul, Complex.norm_real, Real.norm_of_nonneg hh.le]
    calc _ ≤ h * (l * s * Real.exp (-(2 * a * l * Real.sinh (n * h)))) := by
          have := Real.exp_le_exp.2 hexp
          gcongr
      _ ≤ _ := mul_le_mul_of_nonneg_left (hnode.trans (by simpa using ht)) hh.le
  have hsecond : ‖h * ∑' k : ℤ, deTerm m n1 d (fun k => (u k : ℂ)) l 0 j (k * h) - edgeIntegral m n1 d (fun k => (u k : ℂ)) 0 j‖ ≤ 4 * B * Real.exp (-(prec * Real.log 2)) := by
    refine d2.trans ?_
    calc 2 * B / (Real.exp (2 * Real.pi * r / h) - 1) ≤ 2 * B / (Real.exp (prec * Real.log 2) / 2) := by
          have := hx.2
          gcongr
      _ = 4 * B * Real.exp (-(prec * Real.log 2)) := by rw [Real.exp_neg]; field_simp; ring
  unfold trapSum
  have htri := norm_sub_norm_le (h * ∑ k ∈ Finset.Ioo (-(n : ℤ)) n, deTerm m n1 d (fun k => (u k : ℂ)) l 0 j (k * h) - h * ∑' k : ℤ, deTerm m n1 d (fun k => (u k : ℂ)) l 0 j (k * h))
    (edgeIntegral m n1 d (fun k => (u k : ℂ)) 0 j - h * ∑' k : ℤ, deTerm m n1 d (fun k => (u k : ℂ)) l 0 j (k * h))
  rw [sub_sub_sub_cancel_right, norm_sub_rev (edgeIntegral m n1 d (fun k => (u k : ℂ)) 0 j)] at htri
  linarith

/-- upper bound of the radius at one precision -/
theorem deError_at {m j : Nat} (hm : 2 ≤ m) (hj0 : 1 ≤ j) (hj : j < m) {l r : ℝ} (hl : 0 < l) (hl2 : l ≤ Real.pi / 2) (hr : 0 < r) (hr2 : r < Real.pi / 2) (m1 m2 : ℝ) {prec : Nat} (hp : 1 ≤ prec) :
    deError m1 m2 (deStep1 l r m prec) l (deCount l (deStep1 l r m prec) m prec) r j m ≤
      (|m1| * Real.exp (2 * ((m - j) / m) * Real.log 2) / ((m - j) / m * l) + 2 * |m2 * deConstantB l r j m|) * Real.exp (-((m - j) / (m - 1) * (prec * Real.log 2))) := by
  obtain ⟨ha, ha1⟩ := deAlpha_pos hm
  have hmR : (2 : ℝ) ≤ m := by exact_mod_cast hm
  have hjR : (j : ℝ) + 1 ≤ m := by exact_mod_cast hj
  have hj0R : (1 : ℝ) ≤ j := by exact_mod_cast hj0
  have hmj : 0 < (m - j : ℝ) := by linarith
  have hC := deC0_pos hm
  have hlog : 0 < Real.log 2 := Real.log_pos one_lt_two
  set a : ℝ := (m - j) / m with hadef
  have haj : 0 < a := by positivity
  set θ : ℝ := (m - j) / (m - 1) with hθ
  have hθa : a / deAlpha m = θ := by
    rw [hadef, hθ]
    unfold deAlpha
    have : (m : ℝ) - 1 ≠ 0 := by linarith
    field_simp
  have hθ0 : 0 < θ := by rw [← hθa]; positivity
  have hθ1 : θ ≤ 1 := by
    rw [hθ, div_le_one (by linarith)]
    linarith
  obtain ⟨K, hK0, hK⟩ := deCount_bounds (m := m) hm hl hl2 hr hr2
  obtain ⟨hh, hn, hlow, -, -⟩ := hK prec hp
  have hx := deStep1_exp hm hl hl2 hr hr2 hp
  set h := deStep1 l r m prec with hhdef
  set n := deCount l h m prec with hndef
  unfold deError
  rw [add_mul]
  apply add_le_add
  · unfold deErrorT
    have e1 : (l * Real.sinh (h * n) - Real.log 2) * (2 * (m - j)) / m = 2 * a * l * Real.sinh (n * h) - 2 * a * Real.log 2 := by
      rw [hadef, mul_comm h]
      field_simp
    have e2 : Real.exp ((l * Real.sinh (h * n) - Real.log 2) * (2 * (m - j)) / m) * (m - j) / m * l =
        Real.exp (2 * a * l * Real.sinh (n * h) - 2 * a * Real.log 2) * (a * l) := by
      rw [e1, hadef]
      ring
    rw [e2]
    have hge : θ * (prec * Real.log 2) ≤ 2 * a * l * Real.sinh (n * h) := by
      have e : 2 * a * l * ((prec * Real.log 2 + deC0 m) / (2 * deAlpha m * l)) = θ * (prec * Real.log 2 + deC0 m) := by
        rw [← hθa]
        field_simp
      have h3 := mul_le_mul_of_nonneg_left hlow (by positivity : 0 ≤ 2 * a * l)
      rw [e] at h3
      nlinarith [mul_pos hθ0 hC]
    calc m1 / (Real.exp (2 * a * l * Real.sinh (n * h) - 2 * a * Real.log 2) * (a * l))
        ≤ |m1| / (Real.exp (2 * a * l * Real.sinh (n * h) - 2 * a * Real.log 2) * (a * l)) := by gcongr; exact le_abs_self _
      _ ≤ |m1| / (Real.exp (θ * (prec * Real.log 2) - 2 * a * Real.log 2) * (a * l)) := by gcongr
      _ = _ := by
        rw [Real.exp_sub, Real.exp_neg]
        field_simp
  · unfold deErrorQ
    have e1 : 2 * (Real.pi * r) / h = 2 * Real.pi * r / h := by ring
    rw [e1]
    have hE : Real.exp (-(prec * Real.log 2)) ≤ Real.exp (-(θ * (prec * Real.log 2))) := by
      apply Real.exp_le_exp.2
      have : θ * (prec * Real.log 2) ≤ 1 * (prec * Real.log 2) := mul_le_mul_of_nonneg_right hθ1 (by positivity)
      linarith
    calc m2 * deConstantB l r j m / (Real.exp (2 * Real.pi * r / h) - 1) ≤ |m2 * deConstantB l r j m| / (Real.exp (2 * Real.pi * r / h) - 1) := by
          apply div_le_div_of_nonneg_right (le_abs_self _)
          linarith [hx.2, Real.exp_pos (prec * Real.log 2)]
      _ ≤ |m2 * deConstantB l r j m| / (Real.exp (prec * Real.log 2) / 2) := by
          have := hx.2
          gcongr
      _ = 2 * |m2 * deConstantB l r j m| * Real.exp (-(prec * Real.log 2)) := by rw [Real.exp_neg]; field_simp
      _ ≤ _ := by gcongr

/-- the last node at one precision -/
theorem deCount_at {lam r : ℝ} {m : Nat} (hm : 2 ≤ m) (hl : 0 < lam) (hl2 : lam ≤ Real.pi / 2) (hr : 0 < r) (hr2 : r < Real.pi / 2) {prec : Nat} (hp : 1 ≤ prec) {H V : ℝ}
    (hhH : deStep1 lam r m prec ≤ H) (hvh : (prec * Real.log 2 + deC0 m) / (2 * deAlpha m * lam) * deStep1 lam r m prec ≤ V) :
    Real.sinh (deCount lam (deStep1 lam r m prec) m prec * deStep1 lam r m prec) ≤ (prec * Real.log 2 + deC0 m) / (2 * deAlpha m * lam) + (V * Real.exp H + Real.sinh H) := by
  obtain ⟨ha, ha1⟩ := deAlpha_pos hm
  have hC := deC0_pos hm
  have hlog : 0 < Real.log 2 := Real.log_pos one_lt_two
  have hp1 : (1 : ℝ) ≤ prec := by exact_mod_cast hp
  obtain ⟨K, hK0, hK⟩ := deCount_bounds (m := m) hm hl hl2 hr hr2
  obtain ⟨hh, hn0, -, -, -⟩ := hK prec hp
  set h := deStep1 lam r m prec with hhdef
  set v := (prec * Real.log 2 + deC0 m) / (2 * deAlpha m * lam) with hvdef
  set n := deCount lam h m prec with hndef
  have hv : 0 < v := by
    have : 0 < prec * Real.log 2 + deC0 m := by nlinarith
    positivity
  have hA : 0 < Real.arsinh v := Real.arsinh_pos_iff.2 hv
  have hn : n = ⌈Real.arsinh v / h⌉₊ := rfl
  have hq : 0 < Real.arsinh v / h := by positivity
  have hlt : n * h ≤ Real.arsinh v + h := by
    have : (n : ℝ) < Real.arsinh v / h + 1 := by rw [hn]; exact Nat.ceil_lt_add_one hq.le
    have := mul_le_mul_of_nonneg_right this.le hh.le
    rwa [add_mul, div_mul_cancel₀ _ hh.ne', one_mul] at this
  have hcosh : Real.cosh (Real.arsinh v) ≤ v + 1 := by
    apply le_of_sq_le_sq _ (by positivity)
    rw [Real.cosh_sq, Real.sinh_arsinh]
    nlinarith
  have hsh : 0 < Real.sinh h := Real.sinh_pos_iff.2 hh
  have hshH : Real.sinh h ≤ Real.sinh H := Real.sinh_le_sinh.2 hhH
  have hexp : Real.exp h ≤ Real.exp H := Real.exp_le_exp.2 hhH
  calc Real.sinh (n * h) ≤ Real.sinh (Real.arsinh v + h) := Real.sinh_le_sinh.2 hlt
      _ = v * Real.cosh h + Real.cosh (Real.arsinh v) * Real.sinh h := by rw [Real.sinh_add, Real.sinh_arsinh]
      _ ≤ v * Real.cosh h + (v + 1) * Real.sinh h := by gcongr
      _ = v * Real.exp h + Real.sinh h := by rw [← Real.cosh_add_sinh h]; ring
      _ ≤ (v + V * Real.exp H) + Real.sinh H := by
        apply add_le_add _ hshH
        have h1 : Real.exp h ≤ 1 + h * Real.exp h := by
          have := Real.add_one_le_exp (-h)
          have h2 := mul_le_mul_of_nonneg_right this (Real.exp_pos h).le
          rw [← Real.exp_add, neg_add_cancel, Real.exp_zero] at h2
          linarith
        have hvh0 : 0 < v * h := by positivity
        calc v * Real.exp h ≤ v * (1 + h * Real.exp h) := by gcongr
          _ = v + v * h * Real.exp h := by ring
          _ ≤ v + V * Real.exp H := by
            have := mul_le_mul hvh hexp (Real.exp_pos h).le (by linarith)
            linarith
      _ = _ := by ring

/-- two nonnegative reals are not closer after a rotation of one of them -/
theorem rotate_far {S J : ℝ} (hS : 0 ≤ S) (hJ : 0 ≤ J) {z : ℂ} (hz : ‖z‖ = 1) : ‖(S : ℂ) - J‖ ≤ ‖(S : ℂ) - z * J‖ := by
  have h := abs_norm_sub_norm_le (S : ℂ) (z * J)
  rw [norm_mul, hz, one_mul, Complex.norm_real, Complex.norm_real, Real.norm_of_nonneg hS, Real.norm_of_nonneg hJ] at h
  rw [← Complex.ofReal_sub, Complex.norm_real]
  exact h

end Hcp
