import Verif.Proofs.CutPlane
import Verif.Proofs.CutJump
import Verif.Proofs.RealLine

/-!
# `p(z) / ∏ (z - x_k)^κ` on the cut plane
-/

namespace Hcp.Cut
open Complex Set MeasureTheory Filter Topology Interval

section
variable {n g : Nat} {x : Nat → ℂ} {a b : Fin g → ℂ} {κ : ℝ}

/-- factor of a turn around a point -/
noncomputable def turn (κ : ℝ) : ℂ := exp (2 * Real.pi * κ * I)

theorem turn_ne (κ : ℝ) : turn κ ≠ 0 := exp_ne_zero _

theorem norm_turn (κ : ℝ) : ‖turn κ‖ = 1 := by
  unfold turn
  rw [show (2 * Real.pi * κ * I : ℂ) = ((2 * Real.pi * κ : ℝ) : ℂ) * I by push_cast; ring]
  exact norm_exp_ofReal_mul_I _

theorem turn_mul (κ : ℝ) : turn κ * turn (1 - κ) = 1 := by
  unfold turn
  rw [← exp_add, ← exp_two_pi_mul_I]
  congr 1
  push_cast
  ring

theorem turn_ne_one (h0 : 0 < κ) (h1 : κ < 1) : turn κ ≠ 1 := by
  unfold turn
  intro h
  obtain ⟨k, hk⟩ := exp_eq_one_iff.1 h
  have h2 : (κ : ℂ) = k := by
    have hpi : (Real.pi : ℂ) ≠ 0 := by exact_mod_cast Real.pi_ne_zero
    have : (2 * Real.pi * I : ℂ) * (κ - k) = 0 := by linear_combination hk
    rcases mul_eq_zero.1 this with q | q
    · simp [hpi] at q
    · exact sub_eq_zero.1 q
  have h3 : κ = k := by exact_mod_cast h2
  rw [h3] at h0 h1
  have : (0 : ℤ) < k := by exact_mod_cast h0
  have : k < (1 : ℤ) := by exact_mod_cast h1
  omega

/-- limits of a principal power on the cut -/
theorem cpow_below {w : ℂ} (hre : w.re < 0) (him : w.im = 0) (κ : ℝ) : Tendsto (fun s : ℝ => (w + s * I) ^ (κ : ℂ)) (𝓝[<] 0) (𝓝 ((turn κ)⁻¹ * w ^ (κ : ℂ))) := by
  have hw : w ≠ 0 := by rintro rfl; simp at hre
  have harg : w.arg = Real.pi := by
    rw [arg_eq_pi_iff]; exact ⟨hre, him⟩
  have hlim : (turn κ)⁻¹ * w ^ (κ : ℂ) = exp ((Real.log ‖w‖ + ((-Real.pi : ℝ) : ℂ) * I) * κ) := by
    rw [cpow_def_of_ne_zero hw, log, harg, turn, ← exp_neg, ← exp_add]
    congr 1
    push_cast
    ring
  rw [hlim]
  have hpath : Tendsto (fun s : ℝ => w + s * I) (𝓝[<] 0) (𝓝[{z | z.im < 0}] w) := by
    refine tendsto_nhdsWithin_iff.2 ⟨?_, ?_⟩
    · have : ContinuousAt (fun s : ℝ => w + s * I) 0 := by fun_prop
      have := this.tendsto
      simp only [ofReal_zero, zero_mul, add_zero] at this
      exact this.mono_left nhdsWithin_le_nhds
    · filter_upwards [self_mem_nhdsWithin] with s hs
      show (w + s * I).im < 0
      simpa [him] using hs
  have h1 := (tendsto_arg_nhdsWithin_im_neg_of_re_neg_of_im_zero hre him).comp hpath
  have h2 : Tendsto (fun s : ℝ => Real.log ‖w + s * I‖) (𝓝[<] 0) (𝓝 (Real.log ‖w‖)) := by
    have h3 : Tendsto (fun s : ℝ => ‖w + s * I‖) (𝓝[<] 0) (𝓝 ‖w‖) := (hpath.mono_right nhdsWithin_le_nhds).norm
    exact h3.log (norm_ne_zero_iff.2 hw)
  have h4 : Tendsto (fun s : ℝ => exp ((((Real.log ‖w + s * I‖ : ℝ) : ℂ) + ((w + s * I).arg : ℂ) * I) * κ)) (𝓝[<] 0) (𝓝 (exp ((Real.log ‖w‖ + ((-Real.pi : ℝ) : ℂ) * I) * κ))) := by
    refine (continuous_exp.tendsto _).comp (Tendsto.mul_const _ (Tendsto.add ?_ (Tendsto.mul_const _ ?_)))
    · exact (continuous_ofReal.tendsto _).comp h2
    · exact (continuous_ofReal.tendsto _).comp h1
  refine h4.congr' ?_
  filter_upwards [self_mem_nhdsWithin] with s hs
  have : w + s * I ≠ 0 := by
    intro h
    have := congrArg Complex.re h
    simp at this
    linarith
  rw [cpow_def_of_ne_zero this, log]

theorem cpow_above {w : ℂ} (hre : w.re < 0) (him : w.im = 0) (κ : ℝ) : Tendsto (fun s : ℝ => (w + s * I) ^ (κ : ℂ)) (𝓝[>] 0) (𝓝 (w ^ (κ : ℂ))) := by
  have hw : w ≠ 0 := by rintro rfl; simp at hre
  have harg : w.arg = Real.pi := by
    rw [arg_eq_pi_iff]; exact ⟨hre, him⟩
  have hpath : Tendsto (fun s : ℝ => w + s * I) (𝓝[>] 0) (𝓝[{z | 0 ≤ z.im}] w) := by
    refine tendsto_nhdsWithin_iff.2 ⟨?_, ?_⟩
    · have : ContinuousAt (fun s : ℝ => w + s * I) 0 := by fun_prop
      have := this.tendsto
      simp only [ofReal_zero, zero_mul, add_zero] at this
      exact this.mono_left nhdsWithin_le_nhds
    · filter_upwards [self_mem_nhdsWithin] with s hs
      show 0 ≤ (w + s * I).im
      simpa [him] using (le_of_lt hs)
  have h1 : Tendsto (fun s : ℝ => (w + s * I).arg) (𝓝[>] 0) (𝓝 w.arg) := by
    rw [harg]
    exact (tendsto_arg_nhdsWithin_im_nonneg_of_re_neg_of_im_zero hre him).comp hpath
  have h2 : Tendsto (fun s : ℝ => Real.log ‖w + s * I‖) (𝓝[>] 0) (𝓝 (Real.log ‖w‖)) := by
    have h3 : Tendsto (fun s : ℝ => ‖w + s * I‖) (𝓝[>] 0) (𝓝 ‖w‖) := (hpath.mono_right nhdsWithin_le_nhds).norm
    exact h3.log (norm_ne_zero_iff.2 hw)
  rw [cpow_def_of_ne_zero hw, log]
  have h4 : Tendsto (fun s : ℝ => exp ((((Real.log ‖w + s * I‖ : ℝ) : ℂ) + ((w + s * I).arg : ℂ) * I) * κ)) (𝓝[>] 0) (𝓝 (exp ((Real.log ‖w‖ + (w.arg : ℂ) * I) * κ))) := by
    refine (continuous_exp.tendsto _).comp (Tendsto.mul_const _ (Tendsto.add ?_ (Tendsto.mul_const _ ?_)))
    · exact (continuous_ofReal.tendsto _).comp h2
    · exact (continuous_ofReal.tendsto _).comp h1
  refine h4.congr' ?_
  filter_upwards [self_mem_nhdsWithin] with s hs
  have : w + s * I ≠ 0 := by
    intro h
    have := congrArg Complex.re h
    simp at this
    linarith
  rw [cpow_def_of_ne_zero this, log]

theorem shift_lt (c : ℝ) : Tendsto (fun s : ℝ => s - c) (𝓝[<] c) (𝓝[<] 0) := by
  refine tendsto_nhdsWithin_iff.2 ⟨?_, ?_⟩
  · have : ContinuousAt (fun s : ℝ => s - c) c := by fun_prop
    have := this.tendsto
    rw [sub_self] at this
    exact this.mono_left nhdsWithin_le_nhds
  · filter_upwards [self_mem_nhdsWithin] with s hs
    exact sub_neg.2 (mem_Iio.1 hs)

theorem shift_gt (c : ℝ) : Tendsto (fun s : ℝ => s - c) (𝓝[>] c) (𝓝[>] 0) := by
  refine tendsto_nhdsWithin_iff.2 ⟨?_, ?_⟩
  · have : ContinuousAt (fun s : ℝ => s - c) c := by fun_prop
    have := this.tendsto
    rw [sub_self] at this
    exact this.mono_left nhdsWithin_le_nhds
  · filter_upwards [self_mem_nhdsWithin] with s hs
    exact sub_pos.2 (mem_Ioi.1 hs)

/-- a factor whose cut is not met -/
theorem factor_cont {c : ℂ} {t s0 : ℝ} (h : s0 ≠ c.im ∨ c.re < t) (κ : ℝ) : ContinuousAt (fun s : ℝ => ((t : ℂ) + s * I - c) ^ (κ : ℂ)) s0 := by
  have hm : (t : ℂ) + s0 * I - c ∈ slitPlane := by
    rw [mem_slitPlane_iff]
    rcases h with h | h
    · right; simpa using sub_ne_zero.2 h
    · left; simpa using h
  have h1 : ContinuousAt (fun s : ℝ => (t : ℂ) + s * I - c) s0 := by fun_prop
  exact ContinuousAt.cpow h1 continuousAt_const hm

theorem line_quot {l : Filter ℝ} {k : Nat} (hk : k < n) (hη : InjOn (fun k => (x k).im) (Iio n)) (hκ : 0 < κ) {t : ℝ} (ht : t ≠ (x k).re) (hl : l ≤ 𝓝 (x k).im) {u : ℂ} (hu : u ≠ 0)
    (hf : Tendsto (fun s : ℝ => ((t : ℂ) + s * I - x k) ^ (κ : ℂ)) l (𝓝 (u⁻¹ * ((t : ℂ) + (x k).im * I - x k) ^ (κ : ℂ)))) :
    Tendsto (fun s => line (om κ n x a) s t) l (𝓝 (u * line (om κ n x a) (x k).im t)) := by
  have hne : ∀ j < n, (t : ℂ) + (x k).im * I ≠ x j := by
    intro j hj e
    have e1 := congrArg Complex.re e
    have e2 := congrArg Complex.im e
    simp at e1 e2
    have := hη (mem_Iio.2 hj) (mem_Iio.2 hk) e2.symm
    subst this
    exact ht e1
  have hr : Tendsto (fun s : ℝ => rt κ n x (t + s * I)) l (𝓝 (u⁻¹ * rt κ n x (t + (x k).im * I))) := by
    unfold rt
    have hmem := Finset.mem_range.2 hk
    rw [← Finset.mul_prod_erase _ _ hmem, ← mul_assoc]
    have e : (fun s : ℝ => ∏ j ∈ Finset.range n, ((t : ℂ) + s * I - x j) ^ (κ : ℂ)) = fun s : ℝ => ((t : ℂ) + s * I - x k) ^ (κ : ℂ) * ∏ j ∈ (Finset.range n).erase k, ((t : ℂ) + s * I - x j) ^ (κ : ℂ) := by
      funext s
      exact (Finset.mul_prod_erase _ _ hmem).symm
    rw [e]
    refine hf.mul (tendsto_finsetProd _ fun j hj => ?_)
    have hj' := Finset.mem_erase.1 hj
    refine (factor_cont (Or.inl fun q => hj'.1 ?_) κ).tendsto.mono_left hl
    exact hη (mem_Iio.2 (Finset.mem_range.1 hj'.2)) (mem_Iio.2 hk) q.symm
  have hp : Tendsto (fun s : ℝ => cpol a (t + s * I)) l (𝓝 (cpol a (t + (x k).im * I))) := by
    have h1 : ContinuousAt (cpol a) ((t : ℂ) + (x k).im * I) := (differentiableAt_cpol _).continuousAt
    exact (ContinuousAt.comp (g := cpol a) (f := fun s : ℝ => (t : ℂ) + s * I) h1 (by fun_prop)).tendsto.mono_left hl
  have h0 := rt_ne hκ hne
  have := hp.div hr (mul_ne_zero (inv_ne_zero hu) h0)
  have e : u * line (om κ n x a) (x k).im t = cpol a (t + (x k).im * I) / (u⁻¹ * rt κ n x (t + (x k).im * I)) := by
    unfold line om
    field_simp
  rw [e]
  exact this

theorem measurable_om : Measurable (om κ n x a) := by
  unfold om cpol rt
  fun_prop

/-- **The differential on the cut plane** -/
theorem exists_cuts (hκ : 0 < κ) (hκ1 : κ < 1) (hξ : InjOn (fun k => (x k).re) (Iio n)) (hη : InjOn (fun k => (x k).im) (Iio n)) (hn : 0 < n) {μ : ℝ} (hng : (g : ℝ) + μ ≤ κ * n) (hμ : 0 < μ) :
    ∃ H, Cuts n (fun k => (x k).re) (fun k => (x k).im) (turn κ) (om κ n x a) H ∧ ∀ t s : ℝ, (∀ k < n, t ≠ (x k).re) → ‖om κ n x a (t + s * I)‖ ≤ H t := by
  obtain ⟨H, h1, h2, h3⟩ := exists_dom (x := x) (a := a) hκ hκ1 hξ hn hng hμ
  refine ⟨H, ⟨⟨h1, h2, ?_, fun ε hε => om_small hκ hng hμ hε, fun s => ?_⟩, fun z hz => differentiableAt_om hκ hz, fun k hk t ht => ?_, fun k hk t ht => ?_⟩, h3⟩
  · filter_upwards [HalfPlane.ae_ne n fun k => (x k).re] with t ht s using h3 t s ht
  · exact (measurable_om.comp (by fun_prop : Measurable fun t : ℝ => (t : ℂ) + s * I)).aestronglyMeasurable
  · rcases lt_or_gt_of_ne ht with q | q
    · have := line_quot (a := a) (l := 𝓝[>] (x k).im) hk hη hκ ht nhdsWithin_le_nhds one_ne_zero (by
        rw [inv_one, one_mul]
        have hw := cpow_above (w := (t : ℂ) + (x k).im * I - x k) (by simpa using q) (by simp) κ
        refine (hw.comp (shift_gt (x k).im)).congr fun s => ?_
        simp only [Function.comp]
        congr 1
        push_cast
        ring)
      rwa [one_mul] at this
    · have := line_quot (a := a) (l := 𝓝[>] (x k).im) hk hη hκ ht nhdsWithin_le_nhds one_ne_zero (by
        rw [inv_one, one_mul]
        exact (factor_cont (Or.inr q) κ).tendsto.mono_left nhdsWithin_le_nhds)
      rwa [one_mul] at this
  · refine line_quot (a := a) (l := 𝓝[<] (x k).im) hk hη hκ ht.ne nhdsWithin_le_nhds (turn_ne κ) ?_
    have hw := cpow_below (w := (t : ℂ) + (x k).im * I - x k) (by simpa using ht) (by simp) κ
    refine (hw.comp (shift_lt (x k).im)).congr fun s => ?_
    simp only [Function.comp]
    congr 1
    push_cast
    ring

/-- a nonzero polynomial does not vanish on a half line -/
theorem om_nonzero (hκ : 0 < κ) (ha : a ≠ 0) (c : ℝ) (hc : ∀ k < n, (x k).im ≤ c) : ∃ t0 s0 : ℝ, c < s0 ∧ om κ n x a (t0 + s0 * I) ≠ 0 := by
  by_contra hcon
  push Not at hcon
  apply ha
  let p : Polynomial ℂ := ∑ i : Fin g, Polynomial.monomial i.val (a i)
  have hp : ∀ z, p.eval z = cpol a z := fun z => by
    simp only [p, Polynomial.eval_finsetSum, Polynomial.eval_monomial, cpol]
  have hz : ∀ t : ℝ, p.eval ((t : ℂ) + ((c + 1 : ℝ) : ℂ) * I) = 0 := by
    intro t
    have h := hcon t (c + 1) (by linarith)
    unfold om at h
    rw [hp]
    refine (div_eq_zero_iff.1 h).resolve_right (rt_ne hκ fun k hk e => ?_)
    have := congrArg Complex.im e
    simp at this
    linarith [hc k hk]
  have hp0 : p = 0 := by
    refine Polynomial.eq_zero_of_infinite_isRoot p ?_
    refine Set.infinite_of_injective_forall_mem (f := fun t : ℝ => (t : ℂ) + ((c + 1 : ℝ) : ℂ) * I) (fun s t h => ?_) hz
    have := congrArg Complex.re h
    simpa using this
  funext i
  have := congrArg (fun q => Polynomial.coeff q i.val) hp0
  simp only [p, Polynomial.finsetSum_coeff, Polynomial.coeff_monomial, Polynomial.coeff_zero] at this
  rw [Finset.sum_eq_single i (fun j _ hj => if_neg fun e => hj (Fin.ext e)) (by simp)] at this
  simpa using this

end

end Hcp.Cut
