import Verif.Props.ComputeInst
import Verif.Props.DeError
import Verif.Proofs.DeExplicit52

/-!
# C56: a run with the double-exponential rule whose output is wrong

The curve `y^5 = x^2 - 1` with the option `AJ_USE_DE`, all operations of Arb done exactly on sets, the parameters of the rule being those of `de_params`: the radius added to the sums is computed with the exponent `j1 = 3`,
and for the second differential `dx / y^4` it is smaller than the error of the sum.
-/

namespace Hcp

open Set Spec Filter

/-- a number of the set -/
noncomputable def pick (s : Set ℂ) : ℂ := Classical.epsilon (· ∈ s)

/-- `de_params` (de_params.c 304-331) on sets: the results are exact, the radius is added to the sums -/
noncomputable def setDePar (lam : ℝ) (m2 : ℝ → ℝ) (pts : List (Set ℂ)) (j m : Nat) (prec : Int) : Res (DePar (Set ℂ)) := do
  let o ← deParams lam m2 (pts.map pick) j m prec.toNat
  .ok ⟨o.n, {(o.h : ℂ)}, {(o.l : ℂ)}, growBall o.e⟩

/-- `setEnv` for the points `-1, 1` with `de_params` as modelled -/
noncomputable def deEnv (lam : ℝ) (m2 : ℝ → ℝ) : AjEnv (Set ℂ) RSet Unit Unit setMat :=
  { setEnv pm ⟨0, {0}, {0}, id⟩ with dePar := fun pts _ j m prec => setDePar lam m2 pts j m prec }

theorem deEnv_sound (lam : ℝ) (m2 : ℝ → ℝ) : (deEnv lam m2).Sound (fun s z => z ∈ s) (fun b x => x ∈ b.1) InC where
  ar := (setEnv_sound pm ⟨0, {0}, {0}, id⟩).ar
  fns := (setEnv_sound pm ⟨0, {0}, {0}, id⟩).fns
  tests := (setEnv_sound pm ⟨0, {0}, {0}, id⟩).tests
  par := (setEnv_sound pm ⟨0, {0}, {0}, id⟩).par
  mag := (setEnv_sound pm ⟨0, {0}, {0}, id⟩).mag
  addErr := (setEnv_sound pm ⟨0, {0}, {0}, id⟩).addErr
  trim := (setEnv_sound pm ⟨0, {0}, {0}, id⟩).trim
  mat := (setEnv_sound pm ⟨0, {0}, {0}, id⟩).mat
  trimTau := (setEnv_sound pm ⟨0, {0}, {0}, id⟩).trimTau
  sortEdges := (setEnv_sound pm ⟨0, {0}, {0}, id⟩).sortEdges
  order := (setEnv_sound pm ⟨0, {0}, {0}, id⟩).order

theorem setFns_pt : EnclosesFns setFns exactFns (fun s z => s = {z}) where
  re h := by subst h; exact image_singleton
  im h := by subst h; exact image_singleton
  sinh h := by subst h; exact image_singleton
  cosh h := by subst h; exact image_singleton
  gammaQ _ _ := rfl
  sqrtPi := rfl

/-- the shape of `y^5 = x^2 - 1` -/
def shape52 : Shape := ⟨5, 2, 2, 3, [1, 1]⟩

/-- the second cell of a row -/
theorem ef_cell {A : Type} (X : Arith A) (ba2 ab cab : A) (x : Nat → A) :
    ∃ y, edgeFactors X shape52 ba2 ab cab x = .ok y ∧ y 1 = X.mul (X.mul (x 1) ba2) (X.div (X.neg (X.sub (unitRoots X 5 1) X.one)) (X.pow cab 4)) :=
  ⟨_, rfl, rfl⟩

/-- the integral `∫ (1 - t^2)^(-4/5) dt` is not zero -/
theorem int52_ne (u : Nat → ℂ) : edgeIntegral 5 0 0 u 0 4 ≠ 0 := by
  have h := integral_one_sub_sq (s := 1 / 5) (by norm_num)
  have e : edgeIntegral 5 0 0 u 0 4 = ∫ t in (-1 : ℝ)..1, ((1 - t ^ 2 : ℝ) : ℂ) ^ (((1 / 5 : ℝ) : ℂ) - 1) := by
    unfold edgeIntegral
    apply intervalIntegral.integral_congr
    intro t _
    simp only [edgeY, Finset.range_zero, Finset.prod_empty, Finset.Ico_self, pow_zero, one_mul]
    rw [← Complex.cpow_nat_mul, one_div, ← Complex.cpow_neg]
    congr 1
    push_cast
    norm_num
  rw [e, h]
  have h1 : Complex.Gamma ((1 / 5 : ℝ) : ℂ) ≠ 0 := Complex.Gamma_ne_zero_of_re_pos (by rw [Complex.ofReal_re]; norm_num)
  have h2 : Complex.Gamma (((1 / 5 : ℝ) : ℂ) + 1 / 2) ≠ 0 := Complex.Gamma_ne_zero_of_re_pos (by norm_num)
  have h3 : (Real.sqrt Real.pi : ℂ) ≠ 0 := Complex.ofReal_ne_zero.2 (Real.sqrt_pos.2 Real.pi_pos).ne'
  exact div_ne_zero (mul_ne_zero h3 h1) h2

/-- the parameters of the rule without other points: at least one point, and a positive step -/
theorem deParams_pos {lam : ℝ} (hl : 0 < lam) (hl2 : lam ≤ Real.pi / 2) {m2 : ℝ → ℝ} {u : List ℂ} {j m prec : Nat} (hm : 2 ≤ m) {o : DeOut} (hp : 1 ≤ prec) (h : deParams lam m2 u j m prec = .ok o) : 0 < o.n := by
  obtain ⟨-, h2, h3, h4, -⟩ := deParams_ok h
  obtain ⟨s1, s2, -⟩ := C54_strip hl hl2 h2
  have hL := deL0_nonneg hm hl hl2 s1 (by linarith [Real.pi_gt_d2])
  have hlog : 0 < Real.log 2 := Real.log_pos one_lt_two
  have hpR : (1 : ℝ) ≤ prec := by exact_mod_cast hp
  have hh : 0 < o.h := by
    rw [h3]
    unfold deStep1
    have : 0 ≤ Real.log (2 * 1 * deConstantBd lam o.r (deAlpha m) + 1) := hL
    have := Real.pi_pos
    positivity
  have hC : 0 < Real.log (32 * 1 / deAlpha m) := deC0_pos hm
  obtain ⟨ha, -⟩ := deAlpha_pos hm
  rw [h4]
  unfold deCount
  apply Nat.ceil_pos.2
  apply div_pos _ hh
  apply Real.arsinh_pos_iff.2
  positivity

theorem roots_finite {m : Nat} (hm : 0 < m) : Set.Finite {z : ℂ | z ^ m = 1} := by
  have : {z : ℂ | z ^ m = 1} ⊆ ((Polynomial.X ^ m - Polynomial.C 1 : Polynomial ℂ).roots.toFinset : Set ℂ) := by
    intro z hz
    have hz : z ^ m = 1 := hz
    rw [Finset.mem_coe, Multiset.mem_toFinset, Polynomial.mem_roots (Polynomial.X_pow_sub_C_ne_zero hm 1)]
    simp [hz]
  exact (Finset.finite_toSet _).subset this

/-- two determinations of `y` differ by a root of unity -/
theorem branch_unique {m n : Nat} (hm : 0 < m) {x : Nat → ℂ} {a b : ℂ} {Y Z : ℝ → ℂ} (hY : IsBranchM m n x a b Y) (hZ : IsBranchM m n x a b Z) (hne : ∀ t ∈ Ioo (-1 : ℝ) 1, Z t ≠ 0) :
    ∃ z : ℂ, z ^ m = 1 ∧ ∀ t ∈ Ioo (-1 : ℝ) 1, Y t = z * Z t := by
  have hsub : Ioo (-1 : ℝ) 1 ⊆ Icc (-1) 1 := Ioo_subset_Icc_self
  have hmaps : MapsTo (fun t => Y t / Z t) (Ioo (-1 : ℝ) 1) {z : ℂ | z ^ m = 1} := by
    intro t ht
    show (Y t / Z t) ^ m = 1
    rw [div_pow, hY.2 t (hsub ht), ← hZ.2 t (hsub ht)]
    exact div_self (pow_ne_zero _ (hne t ht))
  have hcont : ContinuousOn (fun t => Y t / Z t) (Ioo (-1 : ℝ) 1) := (hY.1.mono hsub).div (hZ.1.mono hsub) hne
  have h0 : (0 : ℝ) ∈ Ioo (-1 : ℝ) 1 := by constructor <;> norm_num
  refine ⟨Y 0 / Z 0, hmaps h0, fun t ht => ?_⟩
  have := isPreconnected_Ioo.constant_of_mapsTo (roots_finite hm).isDiscrete hcont hmaps ht h0
  rw [← this, div_mul_cancel₀ _ (hne t ht)]

/-- the integral depends on the determination by a root of unity -/
theorem segIntM_of_branch {a b : ℂ} {i j : Nat} {Y Z : ℝ → ℂ} {z : ℂ} (h : ∀ t ∈ Ioo (-1 : ℝ) 1, Y t = z * Z t) : segIntM a b i j Y = (z ^ j)⁻¹ * segIntM a b i j Z := by
  rw [← segIntM_smul]
  unfold segIntM
  rw [intervalIntegral.integral_of_le (by norm_num), intervalIntegral.integral_of_le (by norm_num), MeasureTheory.integral_Ioc_eq_integral_Ioo, MeasureTheory.integral_Ioc_eq_integral_Ioo]
  exact MeasureTheory.setIntegral_congr_fun measurableSet_Ioo fun t ht => by dsimp only; rw [h t ht]

theorem trapSum_nil (m : Nat) (u v : Nat → ℂ) (l : ℝ) (i j : Nat) (h : ℝ) (N : Nat) : trapSum m 0 0 u l i j h N = trapSum m 0 0 v l i j h N := by
  simp [trapSum, deTerm, edgeY]

theorem edgeIntegral_nil (m : Nat) (u v : Nat → ℂ) (i j : Nat) : edgeIntegral m 0 0 u i j = edgeIntegral m 0 0 v i j := by
  simp [edgeIntegral, edgeY]

/-- the sums and the integrals with real points are nonnegative reals -/
theorem trapSum_real {m n1 d j : Nat} {u : Nat → ℝ} {l h : ℝ} (hl : 0 < l) (hh : 0 ≤ h) (h1 : ∀ k < n1, 1 < u k) (h2 : ∀ k, n1 ≤ k → k < d → u k < -1) (N : Nat) :
    ∃ S : ℝ, 0 ≤ S ∧ trapSum m n1 d (fun k => (u k : ℂ)) l 0 j h N = (S : ℂ) := by
  refine ⟨h * ∑ k ∈ Finset.Ioo (-(N : ℤ)) N, ‖deTerm m n1 d (fun k => (u k : ℂ)) l 0 j (k * h)‖, by positivity, ?_⟩
  unfold trapSum
  rw [Complex.ofReal_mul, Complex.ofReal_sum]
  congr 1
  exact Finset.sum_congr rfl fun k _ => deTerm_real hl h1 h2 _

theorem edgeIntegral_real {m n1 d j : Nat} {u : Nat → ℝ} (h1 : ∀ k < n1, 1 < u k) (h2 : ∀ k, n1 ≤ k → k < d → u k < -1) :
    ∃ J : ℝ, 0 ≤ J ∧ edgeIntegral m n1 d (fun k => (u k : ℂ)) 0 j = (J : ℂ) := by
  refine ⟨∫ x : ℝ, ‖deTerm m n1 d (fun k => (u k : ℂ)) 1 0 j x‖, MeasureTheory.integral_nonneg fun _ => norm_nonneg _, ?_⟩
  refine (de_integral m n1 d 0 j _ one_pos).trans ?_
  rw [← integral_complex_ofReal]
  exact MeasureTheory.integral_congr_ae (Eventually.of_forall fun x => deTerm_real one_pos h1 h2 x)

/-- a radius which is too small for one determination of `y` is too small for all of them -/
theorem error_rotate {m n1 d j : Nat} (hm : 0 < m) {u : Nat → ℝ} {l h e : ℝ} (hl : 0 < l) (hh : 0 ≤ h) (h1 : ∀ k < n1, 1 < u k) (h2 : ∀ k, n1 ≤ k → k < d → u k < -1) {N : Nat}
    (he : e < ‖trapSum m n1 d (fun k => u k) l 0 j h N - edgeIntegral m n1 d (fun k => u k) 0 j‖) {z : ℂ} (hz : z ^ m = 1) :
    e < ‖trapSum m n1 d (fun k => u k) l 0 j h N - z * edgeIntegral m n1 d (fun k => u k) 0 j‖ := by
  obtain ⟨S, hS, eS⟩ := trapSum_real (m := m) (j := j) hl hh h1 h2 N
  obtain ⟨J, hJ, eJ⟩ := edgeIntegral_real (m := m) (j := j) h1 h2
  rw [eS, eJ] at he ⊢
  exact he.trans_le (rotate_far hS hJ (Complex.norm_eq_one_of_pow_eq_one hz hm.ne'))

/-- at this precision, for every determination of `y`, the radius of `de_params` is smaller than the distance of the sum to the integral of `dx / y^4` -/
def RadiusSmall (lam : ℝ) (m2 : ℝ → ℝ) (prec : Nat) : Prop :=
  ∃ o, deParams lam m2 [] 3 5 prec = .ok o ∧ 0 < o.n ∧ ∀ (u : Nat → ℂ) (z : ℂ), z ^ 5 = 1 → o.e < ‖trapSum 5 0 0 u o.l 0 4 o.h o.n - z * edgeIntegral 5 0 0 u 0 4‖

theorem radiusSmall_of {lam : ℝ} (hl : 0 < lam) (hl2 : lam ≤ Real.pi / 2) {m2 : ℝ → ℝ} {prec : Nat} (hp : 1 ≤ prec) {o : DeOut} (ho : deParams lam m2 [] 3 5 prec = .ok o)
    (herr : o.e < ‖trapSum 5 0 0 (fun _ => ((0 : ℝ) : ℂ)) o.l 0 4 o.h o.n - edgeIntegral 5 0 0 (fun _ => ((0 : ℝ) : ℂ)) 0 4‖) : RadiusSmall lam m2 prec := by
  refine ⟨o, ho, deParams_pos hl hl2 (by norm_num) hp ho, fun u z hz => ?_⟩
  rw [trapSum_nil 5 u fun _ => ((0 : ℝ) : ℂ), edgeIntegral_nil 5 u fun _ => ((0 : ℝ) : ℂ)]
  obtain ⟨-, b2, b3, -, b5, -⟩ := deParams_ok ho
  obtain ⟨s1, s2, -⟩ := C54_strip hl hl2 b2
  have hpi := Real.pi_gt_d2
  obtain ⟨K, -, hK⟩ := deCount_bounds (m := 5) (by norm_num) hl hl2 s1 (by linarith)
  have hh : 0 ≤ o.h := by rw [b3]; exact (hK prec hp).1.le
  exact error_rotate (by norm_num) (by rw [b5]; exact hl) hh (by simp) (by simp) herr hz

/-- from some precision on the radius is too small -/
theorem radius_small {lam : ℝ} (hl : 0 < lam) (hl2 : lam ≤ Real.pi / 2) (m2 : ℝ → ℝ) : ∃ P0 : Nat, ∀ prec : Nat, P0 ≤ prec → RadiusSmall lam m2 prec := by
  obtain ⟨P1, hP1⟩ := C53_fails hl hl2 m2 (m := 5) (n1 := 0) (d := 0) (j1 := 3) (j := 4) (by norm_num) (by norm_num) (by norm_num) le_rfl (u := fun _ => 0) (by simp) (by simp)
  refine ⟨P1 + 1, fun prec hp => ?_⟩
  obtain ⟨o, ho, herr⟩ := hP1 prec (by omega)
  exact radiusSmall_of hl hl2 (by omega) ho herr

/-- the tree of the two points -/
theorem deEnv_tree (lam : ℝ) (m2 : ℝ → ℝ) :
    ∃ (tr : Tree Unit) (ed : Edge Unit), spanningTreeOf (deEnv lam m2).cops (deEnv lam m2).wops (deEnv lam m2).sortEdges (fun k => (deEnv lam m2).approx ((deEnv lam m2).roots 64 k)) (treeInit (deEnv lam m2).wops 1) 2 .de = .ok tr ∧
      tr.e = [ed] ∧ tr.n = 1 ∧ ed.a = 0 ∧ ed.b = 1 :=
  ⟨_, _, rfl, rfl, rfl, rfl, rfl⟩

/-- the wrong runs: the precision reaches `de_params` increased by one -/
theorem C56_core (lam : ℝ) (m2 : ℝ → ℝ) :
    (deEnv lam m2).Sound (fun s z => z ∈ s) (fun b x => x ∈ b.1) InC ∧ ∃ c : Sec, secInit 5 2 = .ok c ∧ c.shape.g = 2 ∧ diffOf c.shape.ni c.shape.j1 1 = (0, 4) ∧
      ∀ prec : Int, 0 < prec → RadiusSmall lam m2 (prec + 1).toNat → prec < 2 ^ 62 → ∀ flag : Nat, flag &&& ajUseDe ≠ 0 → flag &&& ajNoInt = 0 → flag &&& ajNoAb = 0 → flag &&& ajNoTau ≠ 0 → flag.testBit 6 = false →
        ∃ (out : AjOut (Set ℂ) Unit setMat c.shape.g) (I : Nat → Nat → Set ℂ) (ed : Edge Unit), ajRun (deEnv lam m2) 1 c flag prec (treeInit (deEnv lam m2).wops 1) = .ok out ∧ out.integrals = some I ∧ out.tree.e = [ed] ∧
          (∀ Y, IsBranchM 5 2 pm (pm ed.a) (pm ed.b) Y → cycleIntM 5 (pm ed.a) (pm ed.b) 0 4 Y 0 ∉ I 0 1) ∧
          ∀ Y ca cb cc Q, ¬ AjRight (deEnv lam m2) (fun s z => z ∈ s) InC 5 2 pm c out Y ca cb cc Q := by
  have hc : secInit 5 2 = .ok ⟨5, 2, 1, 2, 3, 2, [1, 1]⟩ := by decide +kernel
  refine ⟨deEnv_sound lam m2, _, hc, rfl, rfl, ?_⟩
  set c : Sec := ⟨5, 2, 1, 2, 3, 2, [1, 1]⟩ with hcdef
  have hsh : c.shape = shape52 := rfl
  obtain ⟨tr, ed, t1, t2, t3, ea, eb⟩ := deEnv_tree lam m2
  have hxab : pm ed.a ≠ pm ed.b := by rw [ea, eb]; norm_num [pm]
  -- the data of the edge
  obtain ⟨yd, hyd, -, hyn, u, hu, hE⟩ : ∃ yd, ydataInitEdge setArith sndTests (fun k => {pm k}) ed.a ed.b 2 5 = .ok yd ∧ yd.m = 5 ∧ yd.n = 2 ∧ ∃ u' : Nat → ℂ, (∀ i, yd.u i = {u' i}) ∧ EdgeData 5 2 pm ed.a ed.b yd.n1 u' := by
    rcases C20_edge_data setArith_pt sndTests (x := fun k => {pm k}) (x' := pm) (fun _ => rfl) (a := ed.a) (b := ed.b) (n := 2) (by omega) (by omega) (by omega) (m := 5) (by norm_num) hxab with h | ⟨_, s, z, hz, h, h0⟩
    · exact h
    · subst hz
      simp only [sndTests, mem_singleton_iff, decide_eq_true_eq] at h
      exact absurd h.symm h0
  have hn1 : yd.n1 = 0 := by have := hE.n1_le; omega
  intro prec hp1 hP0 hp2 flag f0 f1 f2 f3 f6
  have hty : intType flag c.m c.n = .de := by unfold intType; rw [if_pos (Or.inl f0)]
  obtain ⟨o, ho, hon, herr⟩ := hP0
  set p : DePar (Set ℂ) := ⟨o.n, {(o.h : ℂ)}, {(o.l : ℂ)}, growBall o.e⟩ with hpdef
  have hdePar : (deEnv lam m2).dePar (pointsOf 2 yd) 1 3 5 (prec + 1) = .ok p := by
    show setDePar lam m2 [] 3 5 (prec + 1) = .ok p
    unfold setDePar
    rw [show ([] : List (Set ℂ)).map pick = [] from rfl, ho]
    rfl
  -- the sums
  obtain ⟨de, r, hde, hr, -, hr2⟩ := de_sums setArith_pt setFns_pt sndTests (by norm_num) hc (sz := 5) (d1 := yd.n1) (d := 0) (by norm_num) (by omega) (u := yd.u) (u' := u) hu (by simp) (p := p) hon (h' := o.h) (lam' := o.l) rfl rfl
    (flag := flag) (big := false) (Or.inr (Or.inl (Or.inr ⟨f6, rfl⟩)))
  have hr1 : r 1 = {trapSum 5 0 0 u o.l 0 4 o.h o.n} := by
    have := hr2 1 0 4 (by decide) rfl
    rw [hn1] at this
    exact this
  -- the row
  obtain ⟨row, hrow, hrow1⟩ := ef_cell setArith yd.ba2 yd.ab yd.c fun i => if i < 2 then growBall o.e (r i) else r i
  have hb0 : yd.ba2 = {u 0} := by unfold YData.ba2; rw [hyn]; exact hu _
  have hb1 : yd.ab = {u 1} := by unfold YData.ab; rw [hyn]; exact hu _
  have hb2 : yd.c = {u 2} := by unfold YData.c; rw [hyn]; exact hu _
  set K : ℂ := exact.div (exact.neg (exact.sub (unitRoots exact 5 1) exact.one)) (exact.pow (u 2) 4) with hK
  have hKs : setArith.div (setArith.neg (setArith.sub (unitRoots setArith 5 1) setArith.one)) (setArith.pow yd.c 4) = {K} := by
    rw [hb2]
    exact setArith_pt.div (setArith_pt.neg (setArith_pt.sub (setArith_pt.pow _ (setArith_pt.unitRoot _)) setArith_pt.one)) (setArith_pt.pow _ rfl)
  have hu2 : u 2 ≠ 0 := by
    intro h
    have := hE.eqn 0
    rw [h, ea, eb] at this
    norm_num [edgePt, pm, Finset.prod_range_succ] at this
  have hq : u 0 * K ≠ 0 := by
    refine mul_ne_zero ?_ (div_ne_zero (neg_ne_zero.2 (sub_ne_zero.2 ?_)) (pow_ne_zero _ hu2))
    · have := hE.ba2
      rw [show (2 : Nat) - 2 = 0 from rfl] at this
      rw [this]
      exact div_ne_zero (sub_ne_zero.2 hxab.symm) two_ne_zero
    · have h := Complex.isPrimitiveRoot_exp 5 (by norm_num)
      intro h1
      refine h.ne_one (by norm_num) ?_
      have h2 : Complex.exp (2 * Real.pi * Complex.I / (5 : Nat)) ^ 1 = 1 := h1
      rwa [pow_one] at h2
  have hcell : ∀ v, v ∈ row 1 → ∃ w, ‖trapSum 5 0 0 u o.l 0 4 o.h o.n - w‖ ≤ o.e ∧ v = w * (u 0 * K) := by
    intro v hv
    rw [hrow1, hKs, hb0, hr1] at hv
    obtain ⟨_, ⟨w, hw, _, rfl, rfl⟩, _, rfl, rfl⟩ := hv
    obtain ⟨_, rfl, hw⟩ := hw
    exact ⟨w, hw, mul_assoc _ _ _⟩
  -- the right value
  have hval : (1 - (zeta 5 ^ 4)⁻¹) * segIntM (pm ed.a) (pm ed.b) 0 4 (branchY 5 2 yd.n1 u) = edgeIntegral 5 0 0 u 0 4 * (u 0 * K) := by
    obtain ⟨row2, h2, h3⟩ := ef_cell setArith yd.ba2 yd.ab yd.c fun i => {edgeIntegral 5 yd.n1 0 u (diffOf c.shape.ni c.shape.j1 i).1 (diffOf c.shape.ni c.shape.j1 i).2}
    obtain ⟨row', h4, h5⟩ := row_of_integrals setArith_pt le_rfl hc hxab hyn (by simp) hu hE (v := fun i => {edgeIntegral 5 yd.n1 0 u (diffOf c.shape.ni c.shape.j1 i).1 (diffOf c.shape.ni c.shape.j1 i).2}) (fun i => rfl)
      (fun r i j _ hij => by rw [hij]) h2
    rw [← h5 1 0 4 (by decide) rfl]
    have h6 : row2 1 = {edgeIntegral 5 0 0 u 0 4 * (u 0 * K)} := by
      rw [h3, hKs, hb0, hn1, ← mul_assoc]
      exact setArith_pt.mul (setArith_pt.mul rfl rfl) rfl
    rw [h4 1] at h6
    exact singleton_injective h6
  have hwrong : ∀ Y, IsBranchM 5 2 pm (pm ed.a) (pm ed.b) Y → cycleIntM 5 (pm ed.a) (pm ed.b) 0 4 Y 0 ∉ row 1 := by
    intro Y hY hmem
    obtain ⟨w, hw, e⟩ := hcell _ hmem
    have hfree : ∀ k < 2, k ≠ ed.a → k ≠ ed.b → ∀ t : ℝ, -1 ≤ t → t ≤ 1 → pm k ≠ edgePt (pm ed.a) (pm ed.b) t := by
      intro k hk h1 h2
      omega
    have hZ := (branchY_spec (by norm_num) hE hxab hfree).1
    have hne : ∀ t ∈ Ioo (-1 : ℝ) 1, branchY 5 2 yd.n1 u t ≠ 0 := by
      intro t ht h0
      have := hZ.2 t (Ioo_subset_Icc_self ht)
      rw [h0, ea, eb] at this
      have h1 : (t : ℂ) + 1 ≠ 0 := by
        have : t + 1 ≠ 0 := by linarith [ht.1]
        exact_mod_cast this
      have h2 : (t : ℂ) - 1 ≠ 0 := by
        have : t - 1 ≠ 0 := by linarith [ht.2]
        exact_mod_cast this
      have h3 : edgePt (pm 0) (pm 1) t = t := by
        unfold edgePt pm
        norm_num
      rw [Finset.prod_range_succ, Finset.prod_range_one, h3] at this
      norm_num [pm] at this
      rcases this with h | h
      · exact h1 h
      · exact h2 h
    obtain ⟨z, hz, hYZ⟩ := branch_unique (by norm_num) hY hZ hne
    rw [cycleIntM_eq, segIntM_of_branch hYZ, zero_mul, pow_zero, inv_one, one_mul] at e
    have e2 : (z ^ 4)⁻¹ * edgeIntegral 5 0 0 u 0 4 * (u 0 * K) = w * (u 0 * K) := by
      rw [← e, mul_assoc, ← hval]
      ring
    have e3 := mul_right_cancel₀ hq e2
    have hz5 : ((z ^ 4)⁻¹) ^ 5 = 1 := by
      rw [inv_pow, ← pow_mul, mul_comm, pow_mul, hz, one_pow, inv_one]
    have := herr u _ hz5
    rw [e3] at this
    linarith
  -- the run
  have hgr : GrowsAsTree ([ed].map fun f => (f.a, f.b)) := by
    intro k hk
    have hk0 : k = 0 := by simpa using hk
    subst hk0
    refine ⟨?_, ?_, fun h => absurd rfl h⟩
    · show ed.a ≠ ed.b
      omega
    · simp [Touches]
  have hxx : pm 0 ≠ pm 1 := by norm_num [pm]
  obtain ⟨_, _, _, _, _, Q, al, be, _, _, -, -, -, -, hbas, hQ, -, hsign, -⟩ := quad_of_data XGcd.std setArith_encloses setArith_encloses setFns_encloses sndTests_sound (m := 5) (by norm_num) hc hxx (ed := ed) (by omega) (by omega) hxab hgr hyn (u' := u)
    (fun i => by rw [hu i]; exact mem_singleton _) hE {0} (mem_singleton _)
  have hterm : ∀ l ∈ al ++ be, ∀ t ∈ l, t.index < [ed].length ∧ t.shift < 5 ∧ -(2 ^ 62) < t.coeff ∧ t.coeff < 2 ^ 62 := by
    intro l hl t ht
    obtain ⟨-, w1, w2⟩ := (hQ.terms l hl).1 t ht
    have w3 := hsign l hl t ht
    exact ⟨w1, by omega, by omega, by omega⟩
  have hdata : treeYdataInit setArith sndTests (fun k => {pm k}) 2 5 [ed] = .ok [yd] := by
    unfold treeYdataInit
    rw [hyd, Res.ok_bind]
    rfl
  obtain ⟨I, hI, hI0⟩ : ∃ I, ajIntegrals (deEnv lam m2) 1 c.shape flag (prec + 1) .de [ed] [yd] = .ok I ∧ I 0 = row := by
    refine ⟨fun i => if i = 0 then row else fun _ => {0}, ?_, by simp⟩
    unfold ajIntegrals
    refine treeDe_of_run (par := fun _ => p) (ks := [0]) ?_ ?_
    · have hs : deScheme setArith setFns c.shape flag p { n := 0, factor := {0}, x := fun _ => {0}, dx := fun _ => {0}, ch2m := fun _ => {0}, err := id } = .ok de := by
        unfold deScheme
        rw [if_pos (by simp [deReplace])]
        exact hde
      have he : integralsEdgeDe setArith sndTests setFns c.shape flag false yd p { n := 0, factor := {0}, x := fun _ => {0}, dx := fun _ => {0}, ch2m := fun _ => {0}, err := id } = .ok (de, row) := by
        unfold integralsEdgeDe
        rw [hs, Res.ok_bind]
        have : deIntegralsPrecomp setArith sndTests (c.shape.n + 3) yd.u yd.n1 (c.shape.n - 2) c.shape de flag false = .ok r := hr
        rw [this, Res.ok_bind]
        have h2 : edgeFactors setArith c.shape yd.ba2 yd.ab yd.c (fun i => if i < c.shape.g then de.err (r i) else r i) = .ok row := by
          rw [deIntInit_err hde]
          exact hrow
        rw [h2]
        rfl
      have hbig : (decide ((1000 : Int) < prec + 1) && decide (5 < c.shape.n - 2)) = false := by
        rw [show c.shape.n = 2 from rfl]
        simp
      unfold integralsTreeDe
      rw [hbig]
      have he' : integralsEdgeDe ((deEnv lam m2).ar (prec + 1)) ((deEnv lam m2).tests (prec + 1)) ((deEnv lam m2).fns (prec + 1)) c.shape flag false yd p { n := 0, factor := {0}, x := fun _ => {0}, dx := fun _ => {0}, ch2m := fun _ => {0}, err := id } = .ok (de, row) := he
      show (integralsEdgeDe ((deEnv lam m2).ar (prec + 1)) ((deEnv lam m2).tests (prec + 1)) ((deEnv lam m2).fns (prec + 1)) c.shape flag false yd p { n := 0, factor := {0}, x := fun _ => {0}, dx := fun _ => {0}, ch2m := fun _ => {0}, err := id } >>= _) = _
      rw [he']
      rfl
    · intro k hk y hy
      obtain rfl := List.mem_singleton.1 hk
      obtain rfl : yd = y := by simpa using hy
      exact hdePar
  have triv : Encloses setArith exact fun _ _ => True := by
    constructor <;> intros <;> trivial
  obtain ⟨om0, a2, -⟩ := periods_of_rows triv le_rfl hc (x' := pm) (es := [ed]) (Y := fun _ => branchY 5 2 yd.n1 u) (I' := I)
    (J := fun k r => (1 - (zeta 5 ^ (diffOf c.shape.ni c.shape.j1 r).2)⁻¹) * segIntM (pm ed.a) (pm ed.b) (diffOf c.shape.ni c.shape.j1 r).1 (diffOf c.shape.ni c.shape.j1 r).2 (branchY 5 2 yd.n1 u)) (fun _ _ => trivial)
    (fun k e hk r i j _ hij => by obtain rfl := List.mem_singleton.1 (List.mem_of_getElem? hk); rw [hij]) al hQ.lengths.1.ge fun l hl => hterm l (List.mem_append_left _ hl)
  obtain ⟨om1, b2, -⟩ := periods_of_rows triv le_rfl hc (x' := pm) (es := [ed]) (Y := fun _ => branchY 5 2 yd.n1 u) (I' := I)
    (J := fun k r => (1 - (zeta 5 ^ (diffOf c.shape.ni c.shape.j1 r).2)⁻¹) * segIntM (pm ed.a) (pm ed.b) (diffOf c.shape.ni c.shape.j1 r).1 (diffOf c.shape.ni c.shape.j1 r).2 (branchY 5 2 yd.n1 u)) (fun _ _ => trivial)
    (fun k e hk r i j _ hij => by obtain rfl := List.mem_singleton.1 (List.mem_of_getElem? hk); rw [hij]) be hQ.lengths.2.ge fun l hl => hterm l (List.mem_append_right _ hl)
  have hst : ajTree (deEnv lam m2) c flag prec (treeInit (deEnv lam m2).wops 1) = .ok (tr, prec + 1, [yd]) := by
    have d' : treeYdataInit ((deEnv lam m2).ar (prec + 1 + 10)) ((deEnv lam m2).tests (prec + 1 + 10)) ((deEnv lam m2).roots (prec + 1 + 10)) 2 5 tr.e = .ok [yd] := by
      rw [t2]
      exact hdata
    have x0 : extraprecTree ((deEnv lam m2).ar 64) (deEnv lam m2).mag tr.e ((deEnv lam m2).roots 64) c.shape = .ok 1 := by
      rw [t2]
      exact setMag_extra (k := 1) (x := pm) (by simp) (fun e he => by obtain rfl := List.mem_singleton.1 he; rw [ea, eb]; norm_num [pm]) (by rfl)
    have k1 : chk (prec + 1) = .ok (prec + 1) := chk_ok (by unfold FitsSlong slongMin slongMax; omega)
    have k2 : chk (prec + 1 + 10) = .ok (prec + 1 + 10) := chk_ok (by unfold FitsSlong slongMin slongMax; omega)
    unfold ajTree
    rw [hty, hsh]
    simp only [shape52, t1, Res.ok_bind]
    rw [hsh] at x0
    simp only [shape52] at x0
    simp only [x0, Res.ok_bind, k1, k2, arbPrec_of (by omega : (2 : Int) ≤ prec + 1 + 10), d']
  refine ⟨⟨.de, tr, prec + 1, [yd], al, be, some I, some (trimIf (deEnv lam m2) flag om0, trimIf (deEnv lam m2) flag om1), none⟩, I, ed, ?_, rfl, t2, ?_, ?_⟩
  · unfold ajRun
    rw [hst, Res.ok_bind]
    dsimp only
    rw [t2, t3, hty]
    have hb' : symplecticBasis (deEnv lam m2).xgcd 1 (shiftOracle ((deEnv lam m2).ar 64) ((deEnv lam m2).tests 64) [yd] c.shape.m) [ed] c.shape.m c.shape.g = .ok (al, be) := hbas 1 le_rfl
    have h0' : periodMatrix ((deEnv lam m2).ar (prec + 1)) c.shape al 1 I = .ok om0 := a2
    have h1' : periodMatrix ((deEnv lam m2).ar (prec + 1)) c.shape be 1 I = .ok om1 := b2
    rw [hb', Res.ok_bind]
    dsimp only
    rw [if_neg (not_not.2 f1), arbPrec_of (by omega), Res.ok_bind, hI, Res.ok_bind, if_neg (not_not.2 f2), h0', Res.ok_bind, h1', Res.ok_bind, if_pos f3]
  · intro Y hY
    rw [hI0]
    exact hwrong Y hY
  · intro Y ca cb cc Q hR
    have hk : tr.e[0]? = some ed := by rw [t2]; rfl
    have h1 := hR.integrals I rfl 0 ed hk 1 0 4 (by decide) rfl
    rw [hI0] at h1
    exact hwrong (Y 0) (hR.branches 0 ed hk).1 h1

/-- **C56 does not hold for all runs.** For every `lambda` and every bound `m2`: on the curve `y^5 = x^2 - 1`, with `AJ_USE_DE` and exact operations on sets, the radius of `de_params` is too small (`RadiusSmall`) at every sufficiently large precision, and whenever it is the computation returns, and the cell of `dx / y^4`
contains the integral of that differential over the elementary closed path for none of the determinations of `y`. -/
theorem C56_fails {lam : ℝ} (hl : 0 < lam) (hl2 : lam ≤ Real.pi / 2) (m2 : ℝ → ℝ) :
    (deEnv lam m2).Sound (fun s z => z ∈ s) (fun b x => x ∈ b.1) InC ∧ (∃ P0 : Nat, ∀ prec : Nat, P0 ≤ prec → RadiusSmall lam m2 prec) ∧ ∃ c : Sec, secInit 5 2 = .ok c ∧ c.shape.g = 2 ∧ diffOf c.shape.ni c.shape.j1 1 = (0, 4) ∧
      ∀ prec : Int, 0 < prec → RadiusSmall lam m2 (prec + 1).toNat → prec < 2 ^ 62 → ∀ flag : Nat, flag &&& ajUseDe ≠ 0 → flag &&& ajNoInt = 0 → flag &&& ajNoAb = 0 → flag &&& ajNoTau ≠ 0 → flag.testBit 6 = false →
        ∃ (out : AjOut (Set ℂ) Unit setMat c.shape.g) (I : Nat → Nat → Set ℂ) (ed : Edge Unit), ajRun (deEnv lam m2) 1 c flag prec (treeInit (deEnv lam m2).wops 1) = .ok out ∧ out.integrals = some I ∧ out.tree.e = [ed] ∧
          (∀ Y, IsBranchM 5 2 pm (pm ed.a) (pm ed.b) Y → cycleIntM 5 (pm ed.a) (pm ed.b) 0 4 Y 0 ∉ I 0 1) ∧
          ∀ Y ca cb cc Q, ¬ AjRight (deEnv lam m2) (fun s z => z ∈ s) InC 5 2 pm c out Y ca cb cc Q := by
  obtain ⟨h1, h⟩ := C56_core lam m2
  exact ⟨h1, radius_small hl hl2 m2, h⟩

/-- **C56 does not hold at the precisions in use.** For `lambda = pi/2` and any bound `m2` up to `2^100` of the integrand on the strip (it is 1 here: there is no other point), all precisions from 1000 bits to `2^62`: on the curve
`y^5 = x^2 - 1` with `AJ_USE_DE` and exact operations on sets the computation returns, and the cell of the second differential contains its integral for none of the determinations of `y`. -/
theorem C56_fails_1000 {m2 : ℝ → ℝ} (hm2 : |m2 (14 / 10 * (9 / 10))| ≤ 2 ^ 100) :
    (deEnv (Real.pi / 2) m2).Sound (fun s z => z ∈ s) (fun b x => x ∈ b.1) InC ∧ ∃ c : Sec, secInit 5 2 = .ok c ∧ c.shape.g = 2 ∧ diffOf c.shape.ni c.shape.j1 1 = (0, 4) ∧
      ∀ prec : Int, 1000 ≤ prec → prec < 2 ^ 62 → ∀ flag : Nat, flag &&& ajUseDe ≠ 0 → flag &&& ajNoInt = 0 → flag &&& ajNoAb = 0 → flag &&& ajNoTau ≠ 0 → flag.testBit 6 = false →
        ∃ (out : AjOut (Set ℂ) Unit setMat c.shape.g) (I : Nat → Nat → Set ℂ) (ed : Edge Unit), ajRun (deEnv (Real.pi / 2) m2) 1 c flag prec (treeInit (deEnv (Real.pi / 2) m2).wops 1) = .ok out ∧ out.integrals = some I ∧ out.tree.e = [ed] ∧
          (∀ Y, IsBranchM 5 2 pm (pm ed.a) (pm ed.b) Y → cycleIntM 5 (pm ed.a) (pm ed.b) 0 4 Y 0 ∉ I 0 1) ∧
          ∀ Y ca cb cc Q, ¬ AjRight (deEnv (Real.pi / 2) m2) (fun s z => z ∈ s) InC 5 2 pm c out Y ca cb cc Q := by
  obtain ⟨h1, c, h2, h3, h4, h5⟩ := C56_core (Real.pi / 2) m2
  refine ⟨h1, c, h2, h3, h4, fun prec hp hp2 => h5 prec (by omega) ?_ hp2⟩
  obtain ⟨o, ho, herr⟩ := radius52 hm2 (by omega : 1000 ≤ (prec + 1).toNat)
  exact radiusSmall_of (by linarith [Real.pi_pos]) le_rfl (by omega) ho herr

/-- the hypothesis of `C56_fails_1000`: the bound is 1 when there is no other point -/
example : |(fun _ => 1 : ℝ → ℝ) (14 / 10 * (9 / 10))| ≤ 2 ^ 100 := by norm_num

/-- options meeting the conditions of `C56_fails`: `AJ_USE_DE | AJ_NO_TAU`; `lambda = pi / 2` -/
example : (3 &&& ajUseDe ≠ 0 ∧ 3 &&& ajNoInt = 0 ∧ 3 &&& ajNoAb = 0 ∧ 3 &&& ajNoTau ≠ 0 ∧ Nat.testBit 3 6 = false) ∧ 0 < Real.pi / 2 ∧ Real.pi / 2 ≤ Real.pi / 2 :=
  ⟨by decide, by linarith [Real.pi_pos], le_rfl⟩

end Hcp
