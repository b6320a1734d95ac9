import Verif.Proofs.DeIntegrand

/-!
# The truncation error of the double-exponential sums
-/

namespace Hcp

open Filter Topology

/-- symmetric partial sums of a summable family: remainder bounded by a telescoping sum -/
theorem tail_sum {f : ℤ → ℂ} (hf : Summable f) {N : Nat} (hN : 0 < N) {Q : Nat → ℝ} (hQ0 : ∀ k, 0 ≤ Q k)
    (hQ : ∀ k : Nat, N ≤ k → ‖f k‖ + ‖f (-k)‖ ≤ Q k - Q (k + 1)) :
    ‖∑ k ∈ Finset.Ioo (-(N : ℤ)) N, f k - ∑' k, f k‖ ≤ Q N := by
  have ht : Tendsto (fun M : Nat => Finset.Ioo (-(M : ℤ)) M) atTop atTop := by
    refine tendsto_atTop_finset_of_monotone (fun a b hab => Finset.Ioo_subset_Ioo (by omega) (by omega)) fun x => ⟨x.natAbs + 1, ?_⟩
    rw [Finset.mem_Ioo]
    omega
  have hlim : Tendsto (fun M : Nat => ‖∑ k ∈ Finset.Ioo (-(N : ℤ)) N, f k - ∑ k ∈ Finset.Ioo (-(M : ℤ)) M, f k‖) atTop
      (𝓝 ‖∑ k ∈ Finset.Ioo (-(N : ℤ)) N, f k - ∑' k, f k‖) := (tendsto_const_nhds.sub (hf.hasSum.comp ht)).norm
  refine le_of_tendsto hlim (eventually_atTop.2 ⟨N, fun M hM => ?_⟩)
  have key : ‖∑ k ∈ Finset.Ioo (-(N : ℤ)) N, f k - ∑ k ∈ Finset.Ioo (-(M : ℤ)) M, f k‖ ≤ Q N - Q M := by
    induction M, hM using Nat.le_induction with
    | base => simp
    | succ M hM ih =>
      have e : ∑ k ∈ Finset.Ioo (-((M + 1 : Nat) : ℤ)) ((M + 1 : Nat) : ℤ), f k = ∑ k ∈ Finset.Ioo (-(M : ℤ)) M, f k + (f M + f (-M)) := by
        rw [sum_sym, sum_sym, Finset.sum_range_succ, if_neg (by omega)]
      rw [e]
      calc _ = ‖(∑ k ∈ Finset.Ioo (-(N : ℤ)) N, f k - ∑ k ∈ Finset.Ioo (-(M : ℤ)) M, f k) - (f M + f (-M))‖ := by congr 1; ring
        _ ≤ _ := norm_sub_le _ _
        _ ≤ (Q N - Q M) + (‖f M‖ + ‖f (-M)‖) := add_le_add ih (norm_add_le _ _)
        _ ≤ _ := by linarith [hQ M hM]
  linarith [hQ0 M]

/-- one step of the comparison with the integral of `cosh x exp (-c sinh x)` -/
theorem cosh_exp_step {c x0 x h : ℝ} (hc : 0 < c) (hh : 0 < h) (hx0 : 0 ≤ x0) (hx : x0 ≤ x) (hcond : 1 / 2 ≤ c ∨ 1 ≤ c * Real.sinh x0) :
    h * (Real.cosh (x + h) * Real.exp (-(c * Real.sinh (x + h)))) ≤ Real.exp (-(c * Real.sinh x)) / c - Real.exp (-(c * Real.sinh (x + h))) / c := by
  have hd : ∀ y, HasDerivAt (fun y => -(Real.exp (-(c * Real.sinh y)) / c)) (Real.cosh y * Real.exp (-(c * Real.sinh y))) y := by
    intro y
    have := ((((Real.hasDerivAt_sinh y).const_mul c).neg).exp.div_const c).neg
    convert! this using 1
    simp only [Pi.neg_apply]
    field_simp
  have hd2 : ∀ y, HasDerivAt (fun y => Real.cosh y * Real.exp (-(c * Real.sinh y))) (Real.exp (-(c * Real.sinh y)) * (Real.sinh y - c * Real.cosh y ^ 2)) y := by
    intro y
    have := (Real.hasDerivAt_cosh y).mul (((Real.hasDerivAt_sinh y).const_mul c).neg).exp
    convert! this using 1
    simp only [Pi.neg_apply]
    ring
  have hanti : AntitoneOn (fun y => Real.cosh y * Real.exp (-(c * Real.sinh y))) (Set.Ici x0) := by
    refine antitoneOn_of_deriv_nonpos (convex_Ici x0) (fun y _ => (hd2 y).continuousAt.continuousWithinAt)
      (fun y _ => (hd2 y).differentiableAt.differentiableWithinAt) fun y hy => ?_
    rw [interior_Ici] at hy
    rw [(hd2 y).deriv]
    refine mul_nonpos_of_nonneg_of_nonpos (Real.exp_pos _).le ?_
    have hy0 : x0 < y := hy
    have hs0 : 0 ≤ Real.sinh y := Real.sinh_nonneg_iff.2 (hx0.trans hy0.le)
    have hsq := Real.cosh_sq y
    rcases hcond with h1 | h1
    · nlinarith [sq_nonneg (Real.sinh y - 1)]
    · have h2 : Real.sinh x0 ≤ Real.sinh y := Real.sinh_le_sinh.2 hy0.le
      have : 1 ≤ c * Real.sinh y := h1.trans (mul_le_mul_of_nonneg_left h2 hc.le)
      nlinarith
  have hmv := Convex.mul_sub_le_image_sub_of_le_deriv (convex_Icc x (x + h)) (f := fun y => -(Real.exp (-(c * Real.sinh y)) / c))
    (fun y _ => (hd y).continuousAt.continuousWithinAt) (fun y _ => (hd y).differentiableAt.differentiableWithinAt)
    (C := Real.cosh (x + h) * Real.exp (-(c * Real.sinh (x + h)))) (fun y hy => by
      rw [interior_Icc] at hy
      rw [(hd y).deriv]
      exact hanti (show x0 ≤ y by linarith [hy.1]) (show x0 ≤ x + h by linarith) hy.2.le)
    x ⟨le_rfl, by linarith⟩ (x + h) ⟨by linarith, le_rfl⟩ (by linarith)
  linarith

/-- the weight at a real point -/
theorem deWeight_real_le {l a : ℝ} (hl : 0 < l) (ha : 0 < a) (x : ℝ) :
    deWeight l a (x : ℂ) ≤ l * 2 ^ (2 * a) * (Real.cosh |x| * Real.exp (-(2 * a * l * Real.sinh |x|))) := by
  unfold deWeight
  have e1 : ‖Complex.cosh (x : ℂ)‖ = Real.cosh |x| := by
    rw [← Complex.ofReal_cosh, Complex.norm_real, Real.norm_eq_abs, Real.cosh_abs, abs_of_pos (Real.cosh_pos x)]
  have e2 : ‖Complex.cosh (l * Complex.sinh (x : ℂ))‖ = Real.cosh (l * Real.sinh |x|) := by
    have : (l : ℂ) * Complex.sinh x = ((l * Real.sinh x : ℝ) : ℂ) := by push_cast; ring
    rw [this, ← Complex.ofReal_cosh, Complex.norm_real, Real.norm_eq_abs, abs_of_pos (Real.cosh_pos _)]
    rcases abs_choice x with h | h <;> rw [h]
    rw [Real.sinh_neg, mul_neg, Real.cosh_neg]
  rw [e1, e2]
  have hw : Real.exp (l * Real.sinh |x|) / 2 ≤ Real.cosh (l * Real.sinh |x|) := by
    rw [Real.cosh_eq]
    have := Real.exp_pos (-(l * Real.sinh |x|))
    linarith
  have h2 : Real.cosh (l * Real.sinh |x|) ^ (-(2 * a)) ≤ (Real.exp (l * Real.sinh |x|) / 2) ^ (-(2 * a)) :=
    Real.rpow_le_rpow_of_nonpos (by positivity) hw (by linarith)
  have e3 : (Real.exp (l * Real.sinh |x|) / 2) ^ (-(2 * a)) = 2 ^ (2 * a) * Real.exp (-(2 * a * l * Real.sinh |x|)) := by
    rw [Real.div_rpow (Real.exp_pos _).le (by norm_num), ← Real.exp_mul, Real.rpow_neg (by norm_num), div_inv_eq_mul, mul_comm]
    congr 2
    ring
  rw [e3] at h2
  have := Real.cosh_pos |x|
  calc _ ≤ l * Real.cosh |x| * (2 ^ (2 * a) * Real.exp (-(2 * a * l * Real.sinh |x|))) := mul_le_mul_of_nonneg_left h2 (by positivity)
    _ = _ := by ring

/-- **truncation**: when the curve dependent part is at most `M` at the nodes, what the sum over `|k| < N` forgets -/
theorem de_tail {F : ℝ → ℂ} {l a h M : ℝ} (hl : 0 < l) (ha : 0 < a) (hh : 0 < h) (hM : 0 ≤ M) {N : Nat} (hN : 0 < N)
    (hF : ∀ x, ‖F x‖ ≤ M * deWeight l a (x : ℂ)) (hsum : Summable fun k : ℤ => F (k * h))
    (hcond : 1 / 2 ≤ 2 * a * l ∨ 1 ≤ 2 * a * l * Real.sinh ((N - 1 : ℕ) * h)) :
    ‖h * ∑ k ∈ Finset.Ioo (-(N : ℤ)) N, F (k * h) - h * ∑' k : ℤ, F (k * h)‖ ≤
      M * 2 ^ (2 * a) / a * Real.exp (-(2 * a * l * Real.sinh ((N - 1 : ℕ) * h))) := by
  have hc : 0 < 2 * a * l := by positivity
  set c := 2 * a * l with hcdef
  let Q : Nat → ℝ := fun k => 2 * M * (l * 2 ^ (2 * a)) / h * (Real.exp (-(c * Real.sinh ((k - 1 : ℕ) * h))) / c)
  have hQ0 : ∀ k, 0 ≤ Q k := fun k => by dsimp only [Q]; positivity
  have hQ : ∀ k : Nat, N ≤ k → ‖F ((k : ℤ) * h)‖ + ‖F ((-(k : ℤ) : ℤ) * h)‖ ≤ Q k - Q (k + 1) := by
    intro k hk
    obtain ⟨p, rfl⟩ : ∃ p, k = p + 1 := ⟨k - 1, by omega⟩
    have hx : ((N - 1 : ℕ) : ℝ) * h ≤ p * h := by
      apply mul_le_mul_of_nonneg_right _ hh.le
      exact_mod_cast (by omega : N - 1 ≤ p)
    have hst := cosh_exp_step hc hh (by positivity) hx hcond
    have e1 : (p : ℝ) * h + h = ((p + 1 : ℕ) : ℝ) * h := by push_cast; ring
    rw [e1] at hst
    have hv : ∀ x : ℝ, |x| = ((p + 1 : ℕ) : ℝ) * h → ‖F x‖ ≤ M * (l * 2 ^ (2 * a) * (Real.cosh (((p + 1 : ℕ) : ℝ) * h) * Real.exp (-(c * Real.sinh (((p + 1 : ℕ) : ℝ) * h))))) := by
      intro x hx
      rw [← hx]
      exact (hF x).trans (mul_le_mul_of_nonneg_left (deWeight_real_le hl ha x) hM)
    have v1 := hv ((((p + 1 : ℕ) : ℤ) : ℝ) * h) (by
      rw [Int.cast_natCast, abs_of_nonneg (by positivity)])
    have v2 := hv (((-((p + 1 : ℕ) : ℤ) : ℤ) : ℝ) * h) (by
      rw [Int.cast_neg, Int.cast_natCast, neg_mul, abs_neg, abs_of_nonneg (by positivity)])
    refine (add_le_add v1 v2).trans ?_
    dsimp only [Q]
    rw [Nat.add_sub_cancel, Nat.add_sub_cancel, ← mul_sub]
    have hK : 0 ≤ 2 * M * (l * 2 ^ (2 * a)) / h := by positivity
    refine le_trans (le_of_eq ?_) (mul_le_mul_of_nonneg_left hst hK)
    field_simp
    ring
  have := tail_sum hsum hN hQ0 hQ
  rw [← mul_sub, norm_mul, Complex.norm_real, Real.norm_eq_abs, abs_of_pos hh]
  refine (mul_le_mul_of_nonneg_left this hh.le).trans (le_of_eq ?_)
  dsimp only [Q]
  rw [hcdef]
  field_simp

end Hcp
