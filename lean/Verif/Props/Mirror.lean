import Verif.Props.Affine

/-!
# C87: mirror images
-/

namespace Hcp

open Set Spec ComplexConjugate

theorem sinh_im_eq {v w : ℂ} (h : Complex.sinh v = Complex.sinh w) (hv : |v.im| ≤ Real.pi / 2) (hw : |w.im| ≤ Real.pi / 2) : |v.im| = |w.im| := by
  have hs : Complex.sin (v * Complex.I) = Complex.sin (w * Complex.I) := by rw [Complex.sin_mul_I, Complex.sin_mul_I, h]
  have hpi := Real.pi_pos
  rw [abs_le] at hv hw
  obtain ⟨k, hk | hk⟩ := Complex.sin_eq_sin_iff.1 hs
  · have e := congrArg Complex.re hk
    simp at e
    have h1 : (k : ℝ) < 1 := by nlinarith
    have h2 : (-1 : ℝ) < k := by nlinarith
    have : k = 0 := by
      have : k < 1 := by exact_mod_cast h1
      have : -1 < k := by exact_mod_cast h2
      omega
    subst this
    simp at e
    rw [e]
  · have e := congrArg Complex.re hk
    simp at e
    have h1 : (k : ℝ) < 1 := by nlinarith
    have h2 : (-2 : ℝ) < k := by nlinarith
    have : k = 0 ∨ k = -1 := by
      have : k < 1 := by exact_mod_cast h1
      have : -2 < k := by exact_mod_cast h2
      omega
    rcases this with rfl | rfl
    · norm_num at e
      rw [show v.im = w.im by linarith]
    · norm_num at e
      rw [show v.im = w.im by linarith]

theorem casinh_conj (w : ℂ) : |(casinh (conj w)).im| = |(casinh w).im| := by
  rw [← abs_neg (casinh w).im, ← Complex.conj_im]
  refine sinh_im_eq ?_ (sinh_casinh _).2 ?_
  · rw [(sinh_casinh _).1, Complex.sinh_conj, (sinh_casinh _).1]
  · rw [Complex.conj_im, abs_neg]
    exact (sinh_casinh _).2

theorem catanh_conj {z : ℂ} (h : z.im ≠ 0) : catanh (conj z) = conj (catanh z) := by
  have ha : ∀ s : ℂ, s.im ≠ 0 → s.arg ≠ Real.pi := fun s hs e => hs (Complex.arg_eq_pi_iff.1 e).2
  unfold catanh
  rw [map_div₀, map_sub, ← Complex.log_conj _ (ha _ (by simpa using h)), ← Complex.log_conj _ (ha _ (by simpa using h))]
  simp [Complex.conj_ofNat]

theorem treeParam_conj (l : ℝ) (type : IntType) (p q r : ℂ) : treeParam (exactCOps l) type (conj p) (conj q) (conj r) = treeParam (exactCOps l) type p q r := by
  have hgc : paramGcR (exactCOps l) (conj p) (conj q) (conj r) = paramGcR (exactCOps l) p q r := by
    show (‖conj r - conj p‖ + ‖conj r - conj q‖) / ‖conj q - conj p‖ = (‖r - p‖ + ‖r - q‖) / ‖q - p‖
    simp only [← map_sub, RCLike.norm_conj]
  cases type with
  | d2 => exact hgc
  | gc => exact hgc
  | de =>
    show |(casinh (catanh ((2 * conj r - conj p - conj q) / (conj q - conj p)) / l)).im| = |(casinh (catanh ((2 * r - p - q) / (q - p)) / l)).im|
    rw [show (2 * conj r - conj p - conj q) / (conj q - conj p) = conj ((2 * r - p - q) / (q - p)) by simp [Complex.conj_ofNat]]
    by_cases h : ((2 * r - p - q) / (q - p)).im = 0
    · rw [Complex.conj_eq_iff_im.2 h]
    · rw [catanh_conj h, ← casinh_conj]
      simp

/-- **C87, mirror images.** The mirror images of the branch points in the real line give the same tree: same edges in the same order, same parameters. -/
theorem C87_mirror (l : ℝ) (x : Nat → ℂ) (o : WOps ℝ) (sort : List (Edge ℝ) → List (Edge ℝ)) (tr : Tree ℝ) (n : Nat) (type : IntType) :
    spanningTreeOf (exactCOps l) o sort (fun k => conj (x k)) tr n type = spanningTreeOf (exactCOps l) o sort x tr n type := by
  unfold spanningTreeOf
  simp only [treeParam_conj]

/-- the triangle `-1, 1, i√3` and its mirror image, with both methods of integration: the tree is computed, and it is the same -/
example (type : IntType) : conj (tri 2) ≠ tri 2 ∧ ∃ tr, spanningTreeOf (exactCOps (Real.pi / 2)) (WOps.ofOrder (-1)) sortByR tri (treeInit (WOps.ofOrder (-1)) 2) 3 type = .ok tr ∧
    spanningTreeOf (exactCOps (Real.pi / 2)) (WOps.ofOrder (-1)) sortByR (fun k => conj (tri k)) (treeInit (WOps.ofOrder (-1)) 2) 3 type = .ok tr := by
  refine ⟨fun h => ?_, ?_⟩
  · have := congrArg Complex.im h
    simp [tri] at this
    have h3 : √3 = (0 : ℝ) := by linarith
    exact absurd h3 (by positivity)
  · obtain ⟨tr, h1, -⟩ := C46_no_third_point (x := tri) sortByR_sorts (by positivity : Real.pi / 2 ≠ 0) type (treeInit (WOps.ofOrder (-1)) 2) 3 (Or.inl (by decide)) tri_inj
    exact ⟨tr, h1, by rw [C87_mirror]; exact h1⟩

end Hcp
