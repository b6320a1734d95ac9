import Mathlib.Analysis.Complex.BranchLogRoot
import Mathlib.Analysis.Convex.Contractible
import Mathlib.Analysis.SpecialFunctions.Complex.LogDeriv

/-!
# Holomorphic logarithms on convex sets
-/

namespace Hcp

open Set Filter Topology

/-- a continuous logarithm of a holomorphic function is holomorphic -/
theorem differentiableAt_of_exp {L q : ℂ → ℂ} {z : ℂ} (hL : ContinuousAt L z) (hq : DifferentiableAt ℂ q z) (h : ∀ᶠ t in 𝓝 z, Complex.exp (L t) = q t) : DifferentiableAt ℂ L z := by
  have hs := Complex.hasStrictDerivAt_exp (L z)
  have hne : Complex.exp (L z) ≠ 0 := Complex.exp_ne_zero _
  have hinv := hs.to_localInverse hne
  have hz : Complex.exp (L z) = q z := h.self_of_nhds
  have hd : DifferentiableAt ℂ (hs.localInverse Complex.exp (Complex.exp (L z)) (L z) hne) (q z) := by
    rw [← hz]
    exact hinv.hasDerivAt.differentiableAt
  have hcomp : DifferentiableAt ℂ ((hs.localInverse Complex.exp (Complex.exp (L z)) (L z) hne) ∘ q) z := hd.comp z hq
  refine hcomp.congr_of_eventuallyEq ?_
  have hli : ∀ᶠ w in 𝓝 (L z), hs.localInverse Complex.exp (Complex.exp (L z)) (L z) hne (Complex.exp w) = w :=
    (hs.hasStrictFDerivAt_equiv hne).eventually_left_inverse
  filter_upwards [hL.eventually hli, h] with t h1 h2
  rw [Function.comp_apply, ← h2, h1]

/-- logarithms on convex open sets -/
theorem exists_holo_log {U : Set ℂ} (hU : IsOpen U) (hc : Convex ℝ U) (hne : U.Nonempty) {q : ℂ → ℂ} (hq : DifferentiableOn ℂ q U) (h0 : ∀ t ∈ U, q t ≠ 0) :
    ∃ L : ℂ → ℂ, DifferentiableOn ℂ L U ∧ ∀ t ∈ U, Complex.exp (L t) = q t := by
  have hs : IsSimplyConnected U := by
    have := hc.contractibleSpace hne
    unfold IsSimplyConnected
    infer_instance
  obtain ⟨L, hL, hexp⟩ := Complex.exists_continuousOn_eqOn_exp_comp hs hU hq.continuousOn (by
    rintro ⟨t, ht, e⟩
    exact h0 t ht e)
  refine ⟨L, fun t ht => ?_, fun t ht => hexp ht⟩
  refine (differentiableAt_of_exp (hL.continuousAt (hU.mem_nhds ht)) (hq.differentiableAt (hU.mem_nhds ht)) ?_).differentiableWithinAt
  filter_upwards [hU.mem_nhds ht] with s hs'
  exact hexp hs'

/-- a continuous function with values in the roots of unity is constant -/
theorem const_of_pow_eq_one {f : ℝ → ℂ} (hf : Continuous f) {m : Nat} (hm : 0 < m) (h : ∀ t, f t ^ m = 1) (t : ℝ) : f t = f 0 := by
  have hfin : {z : ℂ | z ^ m = 1}.Finite := by
    have := (Polynomial.nthRoots m (1 : ℂ)).toFinset.finite_toSet
    refine this.subset fun z hz => ?_
    simp only [Finset.mem_coe, Multiset.mem_toFinset]
    rw [Polynomial.mem_nthRoots hm]
    exact hz
  exact isPreconnected_univ.constant_of_mapsTo hfin.isDiscrete hf.continuousOn (fun x _ => h x) (mem_univ _) (mem_univ _)

end Hcp
