import Verif.Proofs.CutTree
import Verif.Proofs.RealTree
import Mathlib.Analysis.Complex.Polynomial.Basic

/-!
# Points in general position after a rotation
-/

namespace Hcp.Cut
open Complex Set PlaneTree Spec Filter HalfPlane

/-- after a rotation no two points have the same real part or the same imaginary part -/
theorem exists_rotation {n : Nat} {x : Nat → ℂ} (hx : InjOn x (Iio n)) : ∃ u : ℂ, u ≠ 0 ∧ InjOn (fun k => (u * x k).re) (Iio n) ∧ InjOn (fun k => (u * x k).im) (Iio n) := by
  classical
  let bad : Finset ℝ := (Finset.range n ×ˢ Finset.range n).biUnion fun ij => {(x ij.1 - x ij.2).re / (x ij.1 - x ij.2).im, -(x ij.1 - x ij.2).im / (x ij.1 - x ij.2).re}
  obtain ⟨t, ht⟩ := Infinite.exists_notMem_finset bad
  have hbad : ∀ i < n, ∀ j < n, t ≠ (x i - x j).re / (x i - x j).im ∧ t ≠ -(x i - x j).im / (x i - x j).re := by
    intro i hi j hj
    refine ⟨fun e => ht ?_, fun e => ht ?_⟩ <;>
    · refine Finset.mem_biUnion.2 ⟨(i, j), Finset.mem_product.2 ⟨Finset.mem_range.2 hi, Finset.mem_range.2 hj⟩, ?_⟩
      rw [e]
      simp
  refine ⟨1 + t * I, fun h => by simpa using congrArg Complex.re h, fun i hi j hj e => ?_, fun i hi j hj e => ?_⟩
  · apply hx hi hj
    have h1 : (x i - x j).re - t * (x i - x j).im = 0 := by
      simp at e
      simp
      linarith
    by_cases h2 : (x i - x j).im = 0
    · rw [h2, mul_zero, sub_zero] at h1
      exact sub_eq_zero.1 (Complex.ext h1 h2)
    · exfalso
      refine (hbad i hi j hj).1 ?_
      rw [eq_div_iff h2]
      linarith
  · apply hx hi hj
    have h1 : (x i - x j).im + t * (x i - x j).re = 0 := by
      simp at e
      simp
      linarith
    by_cases h2 : (x i - x j).re = 0
    · rw [h2, mul_zero, add_zero] at h1
      exact sub_eq_zero.1 (Complex.ext h2 h1)
    · exfalso
      refine (hbad i hi j hj).2 ?_
      rw [eq_div_iff h2]
      linarith

theorem edgePt_mul (u a b t : ℂ) : Spec.edgePt (u * a) (u * b) t = u * Spec.edgePt a b t := by
  unfold Spec.edgePt
  ring

theorem turns_mul {c : ℂ} (hc : c ≠ 0) (z o : ℂ) (φ : ℝ) : Turns (c * z) (c * o) φ ↔ Turns z o φ := by
  unfold Turns
  rw [mul_div_mul_left _ _ hc]

theorem crossing_mul {c : ℂ} (hc : c ≠ 0) (i o i' o' : ℂ) : crossing ⟨c * i, c * o⟩ ⟨c * i', c * o'⟩ = crossing ⟨i, o⟩ ⟨i', o'⟩ := by
  have h : ∀ i o z : ℂ, leftSide (c * i) (c * o) (c * z) = leftSide i o z := by
    intro i o z
    classical
    unfold leftSide
    refine if_congr ?_ rfl (if_congr ?_ rfl rfl)
    · unfold Between
      simp only [turns_mul hc]
    · rw [turns_mul hc, turns_mul hc]
  unfold crossing
  simp only [h]

/-- other names of the vertices and another determination of `y` -/
theorem pathNumber_mul {m : Nat} {c : ℂ} (hc : c ≠ 0) {ρ : Nat → Nat} {a b a' b' : Nat} (h1 : ρ a = ρ a' ↔ a = a') (h2 : ρ a = ρ b' ↔ a = b') (h3 : ρ b = ρ a' ↔ b = a') (h4 : ρ b = ρ b' ↔ b = b') (ca cb ca' cb' : ℂ) (s s' : Nat) :
    pathNumber (passages m (ρ a) (ρ b) (c * ca) (c * cb) s) (passages m (ρ a') (ρ b') (c * ca') (c * cb') s') = pathNumber (passages m a b ca cb s) (passages m a' b' ca' cb' s') := by
  rw [pathNumber_eq, pathNumber_eq]
  simp only [h1, h2, h3, h4, mul_left_comm _ c, crossing_mul hc]

theorem leaves_mul {c : ℂ} (hc : c ≠ 0) {Y : ℝ → ℂ} {t0 : ℝ} {d : ℂ} (h : LeavesAlong Y t0 d) : LeavesAlong (fun t => c * Y t) t0 (c * d) := by
  refine ⟨mul_ne_zero hc h.1, ?_⟩
  have e : ∀ z : ℂ, c * z / ‖c * z‖ = c / ‖c‖ * (z / ‖z‖) := fun z => by
    rw [norm_mul]
    push_cast
    rw [mul_div_mul_comm]
  simp only [e]
  exact h.2.const_mul _

theorem segInt_mul (u a b : ℂ) (i j : Nat) (Y : ℝ → ℂ) : segIntM (u * a) (u * b) i j Y = u ^ (i + 1) * segIntM a b i j Y := by
  unfold segIntM
  rw [← intervalIntegral.integral_const_mul]
  refine intervalIntegral.integral_congr fun t _ => ?_
  simp only [edgePt_mul]
  ring

/-- the relations do not depend on the scale of the differentials -/
theorem relations_scale {g N : Nat} {W W' : Matrix (Fin g) (Fin N) ℂ} {K : Matrix (Fin N) (Fin N) ℤ} {s : Fin g → ℂ} (hs : ∀ r, s r ≠ 0) (h : ∀ r a, W' r a = s r * W r a) (hr : RiemannRelations W' K) : RiemannRelations W K := by
  obtain ⟨V, h1, h2, h3⟩ := hr
  refine ⟨Matrix.of fun r a => (s r)⁻¹ * V r a, fun r b => ?_, fun r s' => ?_, fun v hv => ?_⟩
  · simp only [Matrix.of_apply, mul_assoc]
    rw [← Finset.mul_sum, h1, h, inv_mul_cancel_left₀ (hs r)]
  · simp only [Matrix.of_apply]
    have e : ∀ a b, (s r)⁻¹ * V r a * K a b * ((s s')⁻¹ * V s' b) = ((s r)⁻¹ * (s s')⁻¹) * (V r a * K a b * V s' b) := fun a b => by ring
    simp only [e, ← Finset.mul_sum, h2, mul_zero]
  · have := h3 (fun r => v r * (s r)⁻¹) (fun e => hv (funext fun r => by
      have := congrFun e r
      simpa [hs r] using this))
    simpa only [Matrix.of_apply, mul_assoc] using this

section
variable {m n N g : Nat} {x : Nat → ℂ} {a b : Nat → Nat} {Y : Nat → ℝ → ℂ} {ca cb : Nat → ℂ}

/-- **The relations of Riemann** for a tree of segments between complex points which meet at common ends only -/
theorem relations_tree (hm : 2 ≤ m) (hn : 0 < n) (hx : InjOn x (Iio n)) (hT : Segs n N x a b) (hsize : TreeSize m n N)
    (hY : ∀ k < N, IsBranchM m n x (x (a k)) (x (b k)) (Y k) ∧ LeavesAlong (Y k) (-1) (ca k) ∧ LeavesAlong (Y k) 1 (cb k)) {K : Matrix (Fin (N * (m - 1))) (Fin (N * (m - 1))) ℤ}
    (hK : ∀ i j, (K i j : ℚ) = pathNumber (passages m (a (i.val / (m - 1))) (b (i.val / (m - 1))) (ca (i.val / (m - 1))) (cb (i.val / (m - 1))) (i.val % (m - 1)))
      (passages m (a (j.val / (m - 1))) (b (j.val / (m - 1))) (ca (j.val / (m - 1))) (cb (j.val / (m - 1))) (j.val % (m - 1))))
    {I0 J : Fin g → Nat} (hIJ : ∀ r, 0 < J r ∧ J r < m ∧ (I0 r + 1) * m < n * J r) (hinj : ∀ r s, I0 r = I0 s → J r = J s → r = s) {W : Matrix (Fin g) (Fin (N * (m - 1))) ℂ}
    (hW : ∀ r i, W r i = cycleIntM m (x (a (i.val / (m - 1)))) (x (b (i.val / (m - 1)))) (I0 r) (J r) (Y (i.val / (m - 1))) (i.val % (m - 1))) :
    RiemannRelations W K := by
  obtain ⟨u, hu, hre, him⟩ := exists_rotation hx
  obtain ⟨ζ, ρ, ho⟩ := order_exists him
  obtain ⟨c, hc⟩ := IsAlgClosed.exists_pow_nat_eq (u ^ n) (show 0 < m by omega)
  have hc0 : c ≠ 0 := by
    rintro rfl
    rw [zero_pow (by omega)] at hc
    exact pow_ne_zero n hu hc.symm
  have hρ : ∀ v < n, ∀ w < n, (ρ v = ρ w ↔ v = w) := fun v hv w hw => ⟨fun e => ho.inj him hv hw e, fun e => by rw [e]⟩
  have hσ : ∀ j : Fin n, ∃ v < n, ρ v = j := fun j => ho.surj j j.isLt
  choose σ0 hσ1 hσ2 using hσ
  let σ : Nat → Nat := fun j => if hj : j < n then σ0 ⟨j, hj⟩ else 0
  have eσ : ∀ j (hj : j < n), σ j < n ∧ ρ (σ j) = j := fun j hj => by
    have : σ j = σ0 ⟨j, hj⟩ := dif_pos hj
    rw [this]
    exact ⟨hσ1 _, hσ2 _⟩
  have hσρ : ∀ v < n, σ (ρ v) = v := fun v hv => by
    have := eσ (ρ v) (ho.lt v hv)
    exact (hρ _ this.1 _ hv).1 this.2
  let y : Nat → ℂ := fun j => u * x (σ j)
  have hy : ∀ v < n, y (ρ v) = u * x v := fun v hv => by
    simp only [y, hσρ v hv]
  have hyi : ∀ j < n, (y j).im = ζ j := fun j hj => by
    obtain ⟨h1, h2⟩ := eσ j hj
    have := ho.eq (σ j) h1
    rw [h2] at this
    exact this.symm
  have hsort : Sorted n fun k => (y k).im := fun i j hij hj => by
    simp only [hyi i (hij.trans hj), hyi j hj]
    exact ho.mono i j hij hj
  have hyre : InjOn (fun k => (y k).re) (Iio n) := fun i hi j hj e => by
    have := hre (eσ i hi).1 (eσ j hj).1 e
    rw [← (eσ i hi).2, this, (eσ j hj).2]
  have hxa : ∀ k < N, y (ρ (a k)) = u * x (a k) := fun k hk => hy _ (hT.ha k hk)
  have hxb : ∀ k < N, y (ρ (b k)) = u * x (b k) := fun k hk => hy _ (hT.hb k hk)
  have hSegs : Segs n N y (fun k => ρ (a k)) (fun k => ρ (b k)) := by
    refine ⟨fun k hk => ho.lt _ (hT.ha k hk), fun k hk => ho.lt _ (hT.hb k hk), fun k hk e => hT.ne k hk ((hρ _ (hT.ha k hk) _ (hT.hb k hk)).1 e), fun k hk h0 => ?_, fun k hk j hj => ?_, fun k hk v hv h1 h2 t t1 t2 e => ?_, fun k hk l hl hkl s t s1 s2 t1 t2 e => ?_⟩
    · obtain ⟨j, hj, q⟩ := hT.old k hk h0
      refine ⟨j, hj, ?_⟩
      rcases q with q | q
      · exact Or.inl (by simp only [q])
      · exact Or.inr (by simp only [q])
    · obtain ⟨q1, q2⟩ := hT.new k hk j hj
      exact ⟨fun e => q1 ((hρ _ (hT.hb k hk) _ (hT.ha j (hj.trans hk))).1 e), fun e => q2 ((hρ _ (hT.hb k hk) _ (hT.hb j (hj.trans hk))).1 e)⟩
    · rw [hxa k hk, hxb k hk, edgePt_mul] at e
      have e' : x (σ v) = Spec.edgePt (x (a k)) (x (b k)) t := mul_left_cancel₀ hu e
      refine hT.free k hk (σ v) (eσ v hv).1 (fun q => h1 ?_) (fun q => h2 ?_) t t1 t2 e'
      · rw [← (eσ v hv).2, q]
      · rw [← (eσ v hv).2, q]
    · simp only [hxa k hk, hxb k hk, hxa l hl, hxb l hl, edgePt_mul] at e
      exact hT.meet k hk l hl hkl s t s1 s2 t1 t2 (mul_left_cancel₀ hu e)
  have hdiv : ∀ i : Fin (N * (m - 1)), i.val / (m - 1) < N := fun i => Nat.div_lt_of_lt_mul (i.isLt.trans_eq (Nat.mul_comm _ _))
  have hprod : ∀ z : ℂ, ∏ k ∈ Finset.range n, (u * z - y k) = u ^ n * ∏ v ∈ Finset.range n, (z - x v) := by
    intro z
    have : ∏ v ∈ Finset.range n, (u * z - y (ρ v)) = ∏ k ∈ Finset.range n, (u * z - y k) := by
      refine Finset.prod_nbij ρ (fun v hv => Finset.mem_range.2 (ho.lt v (Finset.mem_range.1 hv))) (fun v hv w hw e => ?_) (fun j hj => ?_) fun v _ => rfl
      · exact (hρ v (Finset.mem_range.1 hv) w (Finset.mem_range.1 hw)).1 e
      · obtain ⟨h1, h2⟩ := eσ j (Finset.mem_range.1 hj)
        exact ⟨σ j, Finset.mem_coe.2 (Finset.mem_range.2 h1), h2⟩
    have e2 : ∏ v ∈ Finset.range n, (u * z - y (ρ v)) = ∏ v ∈ Finset.range n, u * (z - x v) := Finset.prod_congr rfl fun v hv => by
      rw [hy v (Finset.mem_range.1 hv)]
      ring
    rw [← this, e2, Finset.prod_mul_distrib, Finset.prod_const, Finset.card_range]
  have hrel := relations_sorted (y := y) (a := fun k => ρ (a k)) (b := fun k => ρ (b k)) (Y := fun k t => c * Y k t) (ca := fun k => c * ca k) (cb := fun k => c * cb k) hm hn hyre hsort hSegs hsize (fun k hk => ?_) (K := K) (fun i j => ?_) hIJ hinj
    (W := Matrix.of fun r i => cycleIntM m (y (ρ (a (i.val / (m - 1))))) (y (ρ (b (i.val / (m - 1))))) (I0 r) (J r) (fun t => c * Y (i.val / (m - 1)) t) (i.val % (m - 1))) (fun r i => rfl)
  · refine relations_scale (s := fun r => u ^ (I0 r + 1) * (c ^ J r)⁻¹) (fun r => mul_ne_zero (pow_ne_zero _ hu) (inv_ne_zero (pow_ne_zero _ hc0))) (fun r i => ?_) hrel
    rw [hW, Matrix.of_apply, hxa _ (hdiv i), hxb _ (hdiv i), cycleIntM_eq, cycleIntM_eq, segIntM_smul, segInt_mul]
    ring
  · obtain ⟨⟨b1, b2⟩, b3, b4⟩ := hY k hk
    refine ⟨⟨continuousOn_const.mul b1, fun t ht => ?_⟩, leaves_mul hc0 b3, leaves_mul hc0 b4⟩
    simp only [hxa k hk, hxb k hk, edgePt_mul, hprod]
    rw [mul_pow, hc, b2 t ht]
  · rw [hK]
    have hi := hdiv i
    have hj := hdiv j
    exact (pathNumber_mul hc0 (hρ _ (hT.ha _ hi) _ (hT.ha _ hj)) (hρ _ (hT.ha _ hi) _ (hT.hb _ hj)) (hρ _ (hT.hb _ hi) _ (hT.ha _ hj)) (hρ _ (hT.hb _ hi) _ (hT.hb _ hj)) _ _ _ _ _ _).symm

end

end Hcp.Cut
