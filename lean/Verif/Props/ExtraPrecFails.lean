import Verif.Props.ComputeInst
import Mathlib.Algebra.Polynomial.Basic

/-!
# C58: the working precision can be negative
-/

namespace Hcp

open Set Spec

theorem far_inj (k : Nat) : Set.InjOn (far k) (Set.Iio 3) := by
  intro a ha b hb h
  have h4 : (2 * 4 ^ k : ℂ) ≠ 0 := mul_ne_zero two_ne_zero (pow_ne_zero _ (by norm_num))
  have h5 : (2 * 4 ^ k : ℂ) ≠ -(2 * 4 ^ k) := by
    intro h
    exact h4 (by linear_combination h / 2)
  simp only [Set.mem_Iio] at ha hb
  interval_cases a <;> interval_cases b <;> first | rfl | (exfalso; simp only [far] at h; norm_num at h; done) | (exfalso; simp only [far] at h; norm_num at h; first | exact h5 h | exact h5 h.symm)

/-- the hypotheses of `C58_coefficients` and `C58_error_partial` hold for the curve `y^2 = x^3 - 4^(2k+1) x` -/
example (k : Nat) (hk : (k : Int) < 2 ^ 60) : ∃ (c : Sec) (n1 : Nat) (u : Nat → ℂ), secInit 2 3 = .ok c ∧ c.shape.g = 1 ∧ diffOf c.shape.ni c.shape.j1 0 = (0, 1) ∧ EdgeData 2 3 (far k) 0 1 n1 u ∧ ‖rowCoeff 3 u 0 1 0‖ ≤ 2 ^ (1 - (k : Int)) := by
  have h01 : far k 0 ≠ far k 1 := fun h => by simpa using far_inj k (by norm_num : (0 : Nat) < 3) (by norm_num : (1 : Nat) < 3) h
  rcases C20_edge_data setArith_pt sndTests (x := fun i => {far k i}) (x' := far k) (fun _ => rfl) (by norm_num : 0 < 3) (by norm_num : 1 < 3) (by norm_num) (m := 2) (by norm_num) h01 with ⟨yd, -, -, -, u, -, hE⟩ | ⟨_, s, z, hz, h, h0⟩
  · refine ⟨_, yd.n1, u, rfl, by decide, by decide, hE, ?_⟩
    exact C58_coefficients setArith_encloses setMag_sound (m := 2) (n := 3) (by norm_num) rfl (x := fun i => {far k i}) (fun _ => mem_singleton _) (far_extra rfl hk) (by omega) (e := { a := 0, b := 1, r := () }) (by simp [triEdges])
      (by norm_num) (by norm_num) h01 hE (r := 0) (by decide) (by decide) le_rfl
  · subst hz
    simp only [sndTests, mem_singleton_iff, decide_eq_true_eq] at h
    exact absurd h.symm h0

/-- **C58 (failure).** The extra precision may be negative, and nothing keeps the working precision above zero.  For every precision there is a curve `y^2 = f(x)` of genus 1, `f` with integer coefficients and three distinct roots, such that, although
everything in the environment is sound, and whatever the options, `abel_jacobi_compute` calls Arb with a precision less than two bits. -/
theorem C58_fails (prec : Int) (h0 : 0 ≤ prec) (h1 : prec < 2 ^ 59) :
    ∃ (k : Nat) (c : Sec) (p : DePar (Set ℂ)), secInit 2 3 = .ok c ∧ c.shape.g = 1 ∧ (∀ z : ℂ, ∏ i ∈ Finset.range 3, (z - far k i) = z ^ 3 - 4 ^ (2 * k + 1) * z) ∧ Set.InjOn (far k) (Set.Iio 3) ∧
      (setEnv (far k) p).Sound (fun s z => z ∈ s) (fun b x => x ∈ b.1) InC ∧ (∀ q i, far k i ∈ (setEnv (far k) p).roots q i) ∧
      ∀ fuel flag, ajRun (setEnv (far k) p) fuel c flag prec (treeInit (setEnv (far k) p).wops (treeEdges c).toNat) = .ub "precision" := by
  obtain ⟨k, hk⟩ : ∃ k : Nat, (k : Int) = prec + 12 := ⟨(prec + 12).toNat, by omega⟩
  let p : DePar (Set ℂ) := ⟨0, {0}, {0}, id⟩
  refine ⟨k, ⟨2, 3, 1, 1, 1, 1, [1]⟩, p, by decide, by decide, fun z => ?_, far_inj k, setEnv_sound _ _, fun _ _ => mem_singleton _, fun fuel flag => ?_⟩
  · simp only [Finset.prod_range_succ, Finset.prod_range_zero, far]
    norm_num
    have : (4 : ℂ) ^ (2 * k + 1) = 4 * (4 ^ k) ^ 2 := by rw [pow_succ, pow_mul']; ring
    rw [this]
    ring
  · obtain ⟨tr, t1, t2, t3⟩ : ∃ tr : Tree Unit, spanningTreeOf (setEnv (far k) p).cops (setEnv (far k) p).wops (setEnv (far k) p).sortEdges (fun i => (setEnv (far k) p).approx ((setEnv (far k) p).roots 64 i))
        (treeInit (setEnv (far k) p).wops 2) 3 (intType flag 2 3) = .ok tr ∧ tr.e = triEdges ∧ tr.n = 2 := by
      cases intType flag 2 3 <;> exact ⟨_, rfl, rfl, rfl⟩
    have x0 : extraprecTree ((setEnv (far k) p).ar 64) (setEnv (far k) p).mag tr.e ((setEnv (far k) p).roots 64) (Sec.shape ⟨2, 3, 1, 1, 1, 1, [1]⟩) = .ok (1 - k) := by
      rw [t2]
      exact far_extra rfl (by omega)
    have x1 : prec + (1 - (k : Int)) = -11 := by omega
    have x2 : (-11 : Int) + 10 = -1 := rfl
    have k1 : chk (-11) = .ok (-11) := chk_ok (by decide)
    have k2 : chk (-1) = .ok (-1) := chk_ok (by decide)
    have e1 : (Sec.shape ⟨2, 3, 1, 1, 1, 1, [1]⟩).n = 3 := rfl
    have e2 : (treeEdges ⟨2, 3, 1, 1, 1, 1, [1]⟩).toNat = 2 := by decide
    have e3 : arbPrec (-1) = .ub "precision" := rfl
    have hst : ajTree (setEnv (far k) p) ⟨2, 3, 1, 1, 1, 1, [1]⟩ flag prec (treeInit (setEnv (far k) p).wops 2) = .ub "precision" := by
      unfold ajTree
      simp only [e1, t1, x0, Res.ok_bind, x1, k1, x2, k2, e3]
      rfl
    rw [e2]
    unfold ajRun
    rw [hst]
    rfl

end Hcp
