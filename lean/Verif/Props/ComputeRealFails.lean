import Verif.Props.ComputeFails
import Verif.Proofs.EdgeFirst

/-!
# C56: the double-exponential rule on curves with real branch points

For every `m` and every set of distinct real branch points: at large precision no run with the double-exponential rule returns a right matrix of integrals, as soon as there are differentials with two exponents of `y`.
-/

namespace Hcp

open Set Spec Filter MeasureTheory

/-- real points on both sides of the segment: the integral of `dt / y^j` is not zero -/
theorem edgeIntegral_ne {m n1 d j : Nat} (hj : j < m) {u : Nat → ℝ} (h1 : ∀ k < n1, 1 < u k) (h2 : ∀ k, n1 ≤ k → k < d → u k < -1) : edgeIntegral m n1 d (fun k => u k) 0 j ≠ 0 := by
  have hpow : ∀ y : ℝ, 0 ≤ y → (y : ℂ) ^ ((m : ℂ)⁻¹) = ((y ^ ((m : ℝ)⁻¹) : ℝ) : ℂ) := by
    intro y hy
    rw [Complex.ofReal_cpow hy]
    push_cast
    rfl
  set e : ℝ → ℝ := fun t => (∏ k ∈ Finset.range n1, (u k - t) ^ ((m : ℝ)⁻¹)) * ∏ k ∈ Finset.Ico n1 d, (t - u k) ^ ((m : ℝ)⁻¹) with he
  have epos : ∀ t ∈ Icc (-1 : ℝ) 1, 0 < e t := by
    intro t ht
    refine mul_pos (Finset.prod_pos fun k hk => Real.rpow_pos_of_pos ?_ _) (Finset.prod_pos fun k hk => Real.rpow_pos_of_pos ?_ _)
    · linarith [h1 k (Finset.mem_range.1 hk), ht.2]
    · linarith [h2 k (Finset.mem_Ico.1 hk).1 (Finset.mem_Ico.1 hk).2, ht.1]
  have econt : ContinuousOn e (Icc (-1) 1) := by
    refine ContinuousOn.mul (continuousOn_finsetProd _ fun k hk => ?_) (continuousOn_finsetProd _ fun k hk => ?_)
    · refine ContinuousOn.rpow_const (by fun_prop) fun t ht => Or.inl ?_
      have := h1 k (Finset.mem_range.1 hk)
      linarith [ht.2]
    · refine ContinuousOn.rpow_const (by fun_prop) fun t ht => Or.inl ?_
      have := h2 k (Finset.mem_Ico.1 hk).1 (Finset.mem_Ico.1 hk).2
      linarith [ht.1]
  have eeq : ∀ t ∈ Icc (-1 : ℝ) 1, edgeY m n1 d (fun k => (u k : ℂ)) t = (e t : ℂ) := by
    intro t ht
    unfold edgeY
    rw [he]
    push_cast
    congr 1
    · refine Finset.prod_congr rfl fun k hk => ?_
      rw [← hpow _ (by linarith [h1 k (Finset.mem_range.1 hk), ht.2])]
      push_cast
      rfl
    · refine Finset.prod_congr rfl fun k hk => ?_
      rw [← hpow _ (by linarith [h2 k (Finset.mem_Ico.1 hk).1 (Finset.mem_Ico.1 hk).2, ht.1])]
      push_cast
      rfl
  set F : ℝ → ℝ := fun t => (e t ^ j)⁻¹ * (1 - t ^ 2) ^ (-((j : ℝ) / m)) with hF
  have hm0 : (0 : ℝ) < m := by exact_mod_cast (by omega : 0 < m)
  have hint : edgeIntegral m n1 d (fun k => u k) 0 j = ((∫ t in (-1 : ℝ)..1, F t : ℝ) : ℂ) := by
    rw [← intervalIntegral.integral_ofReal]
    unfold edgeIntegral
    apply intervalIntegral.integral_congr
    intro t ht
    rw [uIcc_of_le (by norm_num)] at ht
    have h0 : (0 : ℝ) ≤ 1 - t ^ 2 := by nlinarith [ht.1, ht.2]
    have h5 : ((1 - t ^ 2) ^ ((m : ℝ)⁻¹)) ^ j = (1 - t ^ 2) ^ ((j : ℝ) / m) := by
      rw [← Real.rpow_mul_natCast h0]
      congr 1
      ring
    beta_reduce
    have h6 : F t = (e t ^ j)⁻¹ * ((1 - t ^ 2) ^ ((j : ℝ) / m))⁻¹ := by rw [← Real.rpow_neg h0]
    rw [eeq t ht, hpow _ h0, h6, pow_zero, mul_pow, one_div, mul_inv, ← Complex.ofReal_pow, ← Complex.ofReal_pow, h5, Complex.ofReal_mul, Complex.ofReal_inv, Complex.ofReal_inv]
  have hii : IntervalIntegrable F volume (-1) 1 := by
    refine (one_sub_sq_rpow_integrable (a := (j : ℝ) / m) ((div_lt_one hm0).2 (by exact_mod_cast hj))).continuousOn_mul ?_
    rw [uIcc_of_le (by norm_num)]
    exact (econt.pow j).inv₀ fun t ht => pow_ne_zero _ (epos t ht).ne'
  have hpos : 0 < ∫ t in (-1 : ℝ)..1, F t := by
    refine intervalIntegral.intervalIntegral_pos_of_pos_on hii (fun t ht => ?_) (by norm_num)
    exact mul_pos (inv_pos.2 (pow_pos (epos t ⟨ht.1.le, ht.2.le⟩) _)) (Real.rpow_pos_of_pos (by nlinarith [ht.1, ht.2]) _)
  rw [hint]
  exact_mod_cast hpos.ne'

/-- the radius returned by `de_params` for the points `u` is smaller than the distance of the sum to the integral of `dx / y^j`, for every determination of `y` -/
def RadiusShort (lam : ℝ) (m2 : ℝ → ℝ) (m n1 d j1 j : Nat) (u : Nat → ℝ) (prec : Nat) : Prop :=
  ∃ o, deParams lam m2 ((List.range d).map fun k => (u k : ℂ)) j1 m prec = .ok o ∧ 0 < o.n ∧
    ∀ z : ℂ, z ^ m = 1 → o.e < ‖trapSum m n1 d (fun k => u k) o.l 0 j o.h o.n - z * edgeIntegral m n1 d (fun k => u k) 0 j‖

/-- from some precision on, the radius is too small -/
theorem radius_small_real {lam : ℝ} (hl : 0 < lam) (hl2 : lam ≤ Real.pi / 2) (m2 : ℝ → ℝ) {m n1 d j1 j : Nat} (hj1 : 1 ≤ j1) (hjj : j1 < j) (hj : j < m) (hn1 : n1 ≤ d) {u : Nat → ℝ}
    (h1 : ∀ k < n1, 1 < u k) (h2 : ∀ k, n1 ≤ k → k < d → u k < -1) : ∃ P0 : Nat, ∀ prec : Nat, P0 ≤ prec → RadiusShort lam m2 m n1 d j1 j u prec := by
  obtain ⟨P1, hP1⟩ := C53_fails hl hl2 m2 hj1 hjj hj hn1 h1 h2
  refine ⟨P1 + 1, fun prec hp => ?_⟩
  obtain ⟨o, ho, herr⟩ := hP1 prec (by omega)
  obtain ⟨-, b2, b3, -, b5, -⟩ := deParams_ok ho
  obtain ⟨s1, s2, -⟩ := C54_strip hl hl2 b2
  have hpi := Real.pi_gt_d2
  obtain ⟨K, -, hK⟩ := deCount_bounds (m := m) (by omega) hl hl2 s1 (by linarith)
  have hh : 0 ≤ o.h := by rw [b3]; exact (hK prec (by omega)).1.le
  exact ⟨o, ho, deParams_pos hl hl2 (by omega) (by omega) ho, fun z hz => error_rotate (by omega) (by rw [b5]; exact hl) hh h1 h2 herr hz⟩

/-- All calls of Arb are done exactly on sets, the branch points are known exactly, and `de_params` is as modelled. What only concerns the choice of the tree, the order of the edges and the homology is left free. -/
structure ExactDe {C W : Type} {O : MatOps} (V : AjEnv (Set ℂ) RSet C W O) (lam : ℝ) (m2 : ℝ → ℝ) (x : Nat → ℂ) : Prop where
  ar : ∀ p, V.ar p = setArith
  fns : ∀ p, V.fns p = setFns
  tests : ∀ p, V.tests p = sndTests
  roots : ∀ p k, V.roots p k = {x k}
  dePar : ∀ pts i j m p, V.dePar pts i j m p = setDePar lam m2 pts j m p
  sortEdges : ∀ l, (V.sortEdges l).Perm l
  order : ∀ es, (V.order es).Perm (List.range es.length)

theorem pick_singleton (z : ℂ) : pick {z} = z := by
  have : pick {z} ∈ ({z} : Set ℂ) := Classical.epsilon_spec (p := (· ∈ ({z} : Set ℂ))) ⟨z, rfl⟩
  simpa using this

/-- the data of an edge between real points, when no third point is on it -/
theorem real_edge {m n a b : Nat} (hm : 0 < m) {ξ : Nat → ℝ} (ha : a < n) (hb : b < n) (hab : ξ a ≠ ξ b) {yd : YData (Set ℂ)} (h : ydataInitEdge setArith sndTests (fun k => {(ξ k : ℂ)}) a b n m = .ok yd) :
    yd.n = n ∧ ∃ (u : Nat → ℝ) (u' : Nat → ℂ), (∀ i < n - 2, u' i = u i) ∧ (∀ i, yd.u i = {u' i}) ∧ EdgeData m n (fun k => (ξ k : ℂ)) a b yd.n1 u' ∧ ∀ i < n - 2, (i < yd.n1 → 0 < u i) ∧ (yd.n1 ≤ i → u i ≤ 0) := by
  have hxab : (ξ a : ℂ) ≠ ξ b := by exact_mod_cast hab
  rcases ydataInitEdge_spec setArith_pt sndTests (x := fun k => {(ξ k : ℂ)}) (x' := fun k => (ξ k : ℂ)) (fun _ => rfl) ha hb (fun e => hab (by rw [e])) hm hxab with ⟨yd', e, -, h2, -, h3, u', hu, hE⟩ | ⟨e, -⟩
  · obtain rfl := Res.ok.inj (h.symm.trans e)
    have hre : ∀ i < n - 2, u' i = ((u' i).re : ℂ) := by
      intro i hi
      obtain ⟨τ, -, hp⟩ := hE.pts
      have h4 := hp i hi
      unfold edgePt at h4
      have h5 : u' i = (((ξ (τ i) - (ξ a + ξ b) / 2) / ((ξ b - ξ a) / 2) : ℝ) : ℂ) := by
        push_cast
        rw [eq_div_iff (div_ne_zero (sub_ne_zero.2 hxab.symm) two_ne_zero), ← h4]
        ring
      rw [h5, Complex.ofReal_re]
    refine ⟨h2, fun i => (u' i).re, u', hre, hu, hE, fun i hi => ?_⟩
    have h4 := h3 i hi
    rw [hu i] at h4
    simp only [sndTests, mem_singleton_iff, forall_eq, decide_eq_true_eq, decide_eq_false_iff_not, not_le] at h4
    exact h4
  · rw [h] at e
    cases e

/-- The radius is too small on the edge between the real points `ξ a` and `ξ b` at precision `prec`: the points `u` are those of the data of the edge, and none of them is on the edge. -/
def EdgeShort (lam : ℝ) (m2 : ℝ → ℝ) (m n j1 j : Nat) (ξ : Nat → ℝ) (a b prec : Nat) : Prop :=
  ∀ yd : YData (Set ℂ), ydataInitEdge setArith sndTests (fun k => {(ξ k : ℂ)}) a b n m = .ok yd → (∀ i < yd.n1, 1 < (pick (yd.u i)).re) → (∀ i, yd.n1 ≤ i → i < n - 2 → (pick (yd.u i)).re < -1) →
    RadiusShort lam m2 m yd.n1 (n - 2) j1 j (fun i => (pick (yd.u i)).re) prec

/-- **C53 (all edges).** For distinct real branch points and `j1 < j < m`, from some precision on the radius is too small on all edges. -/
theorem C53_edges_fail {lam : ℝ} (hl : 0 < lam) (hl2 : lam ≤ Real.pi / 2) (m2 : ℝ → ℝ) {m n j1 j : Nat} {ξ : Nat → ℝ} (hξ : InjOn ξ (Iio n)) (hj1 : 1 ≤ j1) (hjj : j1 < j) (hj : j < m) :
    ∃ P0 : Nat, ∀ prec : Nat, P0 ≤ prec → ∀ a < n, ∀ b < n, a ≠ b → EdgeShort lam m2 m n j1 j ξ a b prec := by
  have key : ∀ a < n, ∀ b < n, a ≠ b → ∃ P0 : Nat, ∀ prec : Nat, P0 ≤ prec → EdgeShort lam m2 m n j1 j ξ a b prec := by
    intro a ha b hb hab
    by_cases hex : ∃ yd : YData (Set ℂ), ydataInitEdge setArith sndTests (fun k => {(ξ k : ℂ)}) a b n m = .ok yd ∧ (∀ i < yd.n1, 1 < (pick (yd.u i)).re) ∧ ∀ i, yd.n1 ≤ i → i < n - 2 → (pick (yd.u i)).re < -1
    · obtain ⟨yd, e, h1, h2⟩ := hex
      obtain ⟨-, u, u', -, -, hE, -⟩ := real_edge (by omega) ha hb (fun h => hab (hξ ha hb h)) e
      obtain ⟨P0, h⟩ := radius_small_real hl hl2 m2 hj1 hjj hj hE.n1_le (u := fun i => (pick (yd.u i)).re) h1 h2
      refine ⟨P0, fun prec hp yd' e' _ _ => ?_⟩
      obtain rfl := Res.ok.inj (e.symm.trans e')
      exact h prec hp
    · exact ⟨0, fun prec _ yd e h1 h2 => absurd ⟨yd, e, h1, h2⟩ hex⟩
  have E : ∀ᶠ prec : ℕ in Filter.atTop, ∀ a ∈ Iio n, ∀ b ∈ Iio n, a ≠ b → EdgeShort lam m2 m n j1 j ξ a b prec := by
    refine (Filter.eventually_all_finite (Set.finite_Iio _)).2 fun a ha => (Filter.eventually_all_finite (Set.finite_Iio _)).2 fun b hb => ?_
    rw [Filter.eventually_imp_distrib_left]
    exact fun hab => Filter.eventually_atTop.2 (key a ha b hb hab)
  obtain ⟨P0, h⟩ := Filter.eventually_atTop.1 E
  exact ⟨P0, fun prec hp a ha b hb => h prec hp a ha b hb⟩

/-- the row of an edge between real points: the cell of `dx / y^j` is wrong as soon as the radius is too small -/
theorem edge_wrong {lam : ℝ} {m2 : ℝ → ℝ} {ξ : Nat → ℝ} {m n : Nat} (hn : 2 ≤ n) {c : Sec} (hc : secInit m n = .ok c) {r j : Nat} (hr : r < c.shape.g)
    (hd : diffOf c.shape.ni c.shape.j1 r = (0, j)) (hjj : c.shape.j1 < j) {a b : Nat} (ha : a < n) (hb : b < n) (hab : ξ a ≠ ξ b) {yd : YData (Set ℂ)} (hyd : ydataInitEdge setArith sndTests (fun k => {(ξ k : ℂ)}) a b n m = .ok yd)
    {prec : Int} (hshort : EdgeShort lam m2 m n c.shape.j1 j ξ a b prec.toNat) {flag : Nat} {big : Bool} {p : DePar (Set ℂ)} {de : DeInt (Set ℂ)} {v row : Nat → Set ℂ} (hroot : flag.testBit 5 = true ∨ (flag.testBit 7 = true ∨ flag.testBit 6 = false ∧ big = false))
    (hpar : setDePar lam m2 (pointsOf n yd) c.shape.j1 m prec = .ok p) (hde : deIntInit setArith setFns p.h p.lam p.n p.err m = .ok de)
    (hv : deIntegralsPrecomp setArith sndTests (n + 3) yd.u yd.n1 (n - 2) c.shape de flag big = .ok v) (hrow : edgeFactors setArith c.shape yd.ba2 yd.ab yd.c (fun i => if i < c.shape.g then de.err (v i) else v i) = .ok row) :
    ∀ Y, IsBranchM m n (fun k => (ξ k : ℂ)) (ξ a) (ξ b) Y → cycleIntM m (ξ a) (ξ b) 0 j Y 0 ∉ row r := by
  have hn2 : (2 : Int) ≤ n := by omega
  have hg := shape_good hn2 hc
  obtain ⟨_, e1, e2, _⟩ := secInit_fields hc hn2
  have hcn : c.shape.n = n := by unfold Sec.shape; simp [e2]
  have hcm : c.shape.m = m := by unfold Sec.shape; simp [e1]
  have hjm : j < m := by
    have := (diffOf_exp hg hr).2
    rwa [hd, hcm] at this
  have hm : 2 ≤ m := by omega
  have hj1 := hg.j1
  have hxab : (ξ a : ℂ) ≠ ξ b := by exact_mod_cast hab
  obtain ⟨hyn, u0, u', huu0, hu, hE, hside0⟩ := real_edge (by omega) ha hb hab hyd
  set u : Nat → ℝ := fun i => (pick (yd.u i)).re with hudef
  have hu0 : ∀ i < n - 2, u i = u0 i := fun i hi => by rw [hudef]; simp only; rw [hu i, pick_singleton, huu0 i hi, Complex.ofReal_re]
  have huu : ∀ i < n - 2, u' i = u i := fun i hi => by rw [hu0 i hi]; exact huu0 i hi
  have hside : ∀ i < n - 2, (i < yd.n1 → 0 < u i) ∧ (yd.n1 ≤ i → u i ≤ 0) := fun i hi => by rw [hu0 i hi]; exact hside0 i hi
  have hpts : (pointsOf n yd).map pick = (List.range (n - 2)).map fun k => (u k : ℂ) := by
    unfold pointsOf
    rw [List.map_map]
    refine List.map_congr_left fun k hk => ?_
    rw [Function.comp_apply, hu k, pick_singleton, huu k (List.mem_range.1 hk)]
  by_cases hfar : ∀ i < n - 2, 1 < |u i|
  · have h1 : ∀ k < yd.n1, 1 < u k := by
      intro k hk
      have hk2 : k < n - 2 := lt_of_lt_of_le hk hE.n1_le
      have := hfar k hk2
      rwa [abs_of_pos ((hside k hk2).1 hk)] at this
    have h2 : ∀ k, yd.n1 ≤ k → k < n - 2 → u k < -1 := by
      intro k hk hk2
      have := hfar k hk2
      rw [abs_of_nonpos ((hside k hk2).2 hk)] at this
      linarith
    intro Y hY hmem
    obtain ⟨o, ho, hon, herr⟩ := hshort yd hyd h1 h2
    have hpo : p = ⟨o.n, {(o.h : ℂ)}, {(o.l : ℂ)}, growBall o.e⟩ := by
      unfold setDePar at hpar
      rw [hpts, ho, Res.ok_bind] at hpar
      exact (Res.ok.inj hpar).symm
    subst hpo
    have hfree : ∀ k < n - 2, ∀ t : ℝ, -1 ≤ t → t ≤ 1 → u' k ≠ t := by
      intro k hk t t1 t2 e
      rw [huu k hk] at e
      have e : u k = t := by exact_mod_cast e
      have := hfar k hk
      rw [e] at this
      linarith [abs_le.2 ⟨t1, t2⟩]
    have heqY : ∀ t : ℂ, edgeY m yd.n1 (n - 2) u' t = edgeY m yd.n1 (n - 2) (fun k => (u k : ℂ)) t := by
      intro t
      unfold edgeY
      congr 1
      · refine Finset.prod_congr rfl fun k hk => ?_
        rw [huu k (lt_of_lt_of_le (Finset.mem_range.1 hk) hE.n1_le)]
      · refine Finset.prod_congr rfl fun k hk => ?_
        rw [huu k (Finset.mem_Ico.1 hk).2]
    have heqS : trapSum m yd.n1 (n - 2) u' o.l 0 j o.h o.n = trapSum m yd.n1 (n - 2) (fun k => (u k : ℂ)) o.l 0 j o.h o.n := by
      unfold trapSum deTerm
      simp only [heqY]
    have heqJ : ∀ i l, edgeIntegral m yd.n1 (n - 2) u' i l = edgeIntegral m yd.n1 (n - 2) (fun k => (u k : ℂ)) i l := by
      intro i l
      unfold edgeIntegral
      simp only [heqY]
    obtain ⟨de', v', hde', hv', -, hv2⟩ := de_sums setArith_pt setFns_pt sndTests hn2 hc (sz := n + 3) (d1 := yd.n1) (d := n - 2) (by omega) hE.n1_le (u := yd.u) (u' := u') hu hfree (p := ⟨o.n, {(o.h : ℂ)}, {(o.l : ℂ)}, growBall o.e⟩) hon (h' := o.h) (lam' := o.l) rfl rfl
      (flag := flag) (big := big) (by rcases hroot with h | h; exacts [Or.inl h, Or.inr (Or.inl h)])
    rw [hcm] at hde'
    obtain rfl := Res.ok.inj (hde.symm.trans hde')
    obtain rfl := Res.ok.inj (hv.symm.trans hv')
    have hvr : v r = {trapSum m yd.n1 (n - 2) (fun k => (u k : ℂ)) o.l 0 j o.h o.n} := by
      have := hv2 r 0 j hr hd
      rw [hcm, heqS] at this
      exact this
    have hb0 : yd.ba2 = {u' (n - 2)} := by unfold YData.ba2; rw [hyn]; exact hu _
    have hb2 : yd.c = {u' n} := by unfold YData.c; rw [hyn]; exact hu _
    set K : ℂ := blockFactor exact m (u' n) j with hK
    have hKs : blockFactor setArith m yd.c j = {K} := by
      rw [hb2]
      exact setArith_pt.div (setArith_pt.neg (setArith_pt.sub (setArith_pt.pow _ (setArith_pt.unitRoot _)) setArith_pt.one)) (setArith_pt.pow _ rfl)
    have hrow1 : row r = setArith.mul (setArith.mul (growBall o.e {trapSum m yd.n1 (n - 2) (fun k => (u k : ℂ)) o.l 0 j o.h o.n}) {u' (n - 2)}) {K} := by
      rw [edgeFactors_first hg.pos hrow (by rw [hg.sum]; exact hr) hd, hcm, hKs, hb0, if_pos hr, deIntInit_err hde, hvr]
    have hinj : ∀ s t : ℂ, edgePt (ξ a) (ξ b) s = edgePt (ξ a) (ξ b) t → s = t := by
      intro s t h
      unfold edgePt at h
      exact mul_right_cancel₀ (div_ne_zero (sub_ne_zero.2 hxab.symm) two_ne_zero) (add_left_cancel h)
    have hseg : ∀ k < n, k ≠ a → k ≠ b → ∀ t : ℝ, -1 ≤ t → t ≤ 1 → (ξ k : ℂ) ≠ edgePt (ξ a) (ξ b) t := by
      intro k hk k1 k2 t t1 t2 h
      obtain ⟨τ, hτ, hp⟩ := hE.pts
      obtain ⟨i, hi, rfl⟩ := hτ.surjOn (show k ∈ {k | k < n ∧ k ≠ a ∧ k ≠ b} from ⟨hk, k1, k2⟩)
      exact hfree i hi t t1 t2 (hinj _ _ ((hp i hi).trans h))
    obtain ⟨hZ, ⟨hya, -⟩, -⟩ := branchY_spec (by omega) hE hxab hseg
    have hq0 : u' (n - 2) * K ≠ 0 := by
      refine mul_ne_zero ?_ (div_ne_zero (neg_ne_zero.2 (sub_ne_zero.2 ?_)) (pow_ne_zero _ ?_))
      · rw [hE.ba2]
        exact div_ne_zero (sub_ne_zero.2 hxab.symm) two_ne_zero
      · have h := Complex.isPrimitiveRoot_exp m (by omega)
        intro h3
        have h4 : Complex.exp (2 * Real.pi * Complex.I / m) ^ ((m - j) % m) = 1 := h3
        have h5 := (h.pow_eq_one_iff_dvd _).1 h4
        rw [Nat.mod_eq_of_lt (by omega)] at h5
        exact absurd (Nat.le_of_dvd (by omega) h5) (by omega)
      · intro h0
        rw [hE.ya, h0, zero_mul] at hya
        exact hya rfl
    have hcell : ∀ w0, w0 ∈ row r → ∃ w, ‖trapSum m yd.n1 (n - 2) (fun k => (u k : ℂ)) o.l 0 j o.h o.n - w‖ ≤ o.e ∧ w0 = w * (u' (n - 2) * K) := by
      intro w0 hw0
      rw [hrow1] at hw0
      obtain ⟨_, ⟨w, hw, _, rfl, rfl⟩, _, rfl, rfl⟩ := hw0
      obtain ⟨_, rfl, hw⟩ := hw
      exact ⟨w, hw, mul_assoc _ _ _⟩
    have hval : (1 - (zeta m ^ j)⁻¹) * segIntM (ξ a) (ξ b) 0 j (branchY m n yd.n1 u') = edgeIntegral m yd.n1 (n - 2) (fun k => (u k : ℂ)) 0 j * (u' (n - 2) * K) := by
      obtain ⟨row2, h4⟩ : ∃ row2, edgeFactors setArith c.shape yd.ba2 yd.ab yd.c (fun i => {edgeIntegral m yd.n1 (n - 2) u' (diffOf c.shape.ni c.shape.j1 i).1 (diffOf c.shape.ni c.shape.j1 i).2}) = .ok row2 := by
        have hab2 : yd.ab = {((ξ a : ℂ) + ξ b) / (ξ b - ξ a)} := by
          unfold YData.ab
          rw [hyn, hu, hE.ab, add_comm]
        obtain ⟨y, _, ey, _, _⟩ := C19_encloses setArith_pt hn2 hc (show yd.ba2 = {u' (n - 2)} from hb0) hab2 (show yd.c = {u' n} from hb2)
          (x := fun i => {edgeIntegral m yd.n1 (n - 2) u' (diffOf c.shape.ni c.shape.j1 i).1 (diffOf c.shape.ni c.shape.j1 i).2}) (fun i => rfl)
        exact ⟨y, ey⟩
      obtain ⟨row', h5, h6⟩ := row_of_integrals setArith_pt hn hc hxab hyn hfree hu hE (v := fun i => {edgeIntegral m yd.n1 (n - 2) u' (diffOf c.shape.ni c.shape.j1 i).1 (diffOf c.shape.ni c.shape.j1 i).2}) (fun i => rfl)
        (fun r i j _ hij => by rw [hij]) h4
      rw [← h6 r 0 j hr hd]
      have h7 : row2 r = {edgeIntegral m yd.n1 (n - 2) (fun k => (u k : ℂ)) 0 j * (u' (n - 2) * K)} := by
        rw [edgeFactors_first hg.pos h4 (by rw [hg.sum]; exact hr) hd, hcm, hKs, hb0, hd, heqJ, ← mul_assoc]
        exact setArith_pt.mul (setArith_pt.mul rfl rfl) rfl
      rw [h5 r] at h7
      exact singleton_injective h7
    obtain ⟨w, hw, e⟩ := hcell _ hmem
    have hne : ∀ t ∈ Ioo (-1 : ℝ) 1, branchY m n yd.n1 u' t ≠ 0 := by
      intro t ht h0
      have h3 := hZ.2 t (Ioo_subset_Icc_self ht)
      rw [h0, zero_pow (by omega)] at h3
      obtain ⟨k, hk, h4⟩ := Finset.prod_eq_zero_iff.1 h3.symm
      have h4 := sub_eq_zero.1 h4
      by_cases k1 : k = a
      · subst k1
        have := hinj t (-1) (by rw [h4]; unfold edgePt; ring)
        have : t = -1 := by exact_mod_cast this
        linarith [ht.1]
      by_cases k2 : k = b
      · subst k2
        have := hinj t 1 (by rw [h4]; unfold edgePt; ring)
        have : t = 1 := by exact_mod_cast this
        linarith [ht.2]
      exact hseg k (Finset.mem_range.1 hk) k1 k2 t ht.1.le ht.2.le h4.symm
    obtain ⟨z, hz, hYZ⟩ := branch_unique (by omega) hY hZ hne
    rw [cycleIntM_eq, segIntM_of_branch hYZ, zero_mul, pow_zero, inv_one, one_mul] at e
    have e2 : (z ^ j)⁻¹ * edgeIntegral m yd.n1 (n - 2) (fun k => (u k : ℂ)) 0 j * (u' (n - 2) * K) = w * (u' (n - 2) * K) := by
      rw [← e, mul_assoc, ← hval]
      ring
    have e3 := mul_right_cancel₀ hq0 e2
    have hzm : ((z ^ j)⁻¹) ^ m = 1 := by
      rw [inv_pow, ← pow_mul, mul_comm, pow_mul, hz, one_pow, inv_one]
    have := herr _ hzm
    rw [e3] at this
    linarith
  · push Not at hfar
    obtain ⟨i, hi, h1⟩ := hfar
    unfold setDePar at hpar
    rw [hpts, Res.bind_eq_ok] at hpar
    obtain ⟨o, ho, -⟩ := hpar
    exact absurd ⟨by simpa using h1, by simp⟩ ((deParams_ok ho).1 (u i : ℂ) (List.mem_map.2 ⟨i, List.mem_range.2 hi, rfl⟩))

variable {C W : Type} {O : MatOps}

/-- **C56 does not hold for the double-exponential rule.** Let `y^m = ∏ (x - x_k)` be any curve with distinct real branch points, `j` an exponent of `y` in the differentials other than the smallest, and `r` the number of `dx / y^j`. For all options
selecting the double-exponential rule, if the radii are too small at the precision of the integration (so from some precision on, by `C53_edges_fail`), whatever a run returns is wrong: on an edge of its tree the cell of `dx / y^j` contains the
integral over the closed path for no determination of `y`. -/
theorem C56_real_fails {V : AjEnv (Set ℂ) RSet C W O} {lam : ℝ} {m2 : ℝ → ℝ} {ξ : Nat → ℝ} (hV : ExactDe V lam m2 fun k => (ξ k : ℂ)) {m n : Nat} (hn : 2 ≤ n) (hξ : InjOn ξ (Iio n))
    {c : Sec} (hc : secInit m n = .ok c) {r j : Nat} (hr : r < c.shape.g) (hd : diffOf c.shape.ni c.shape.j1 r = (0, j)) (hjj : c.shape.j1 < j) {tr0 : Tree W} (ht : (tr0.n : Int) = treeEdges c) (RC : {n m : Nat} → O.C n m → Matrix (Fin n) (Fin m) ℂ → Prop)
    {prec : Int} {fuel flag : Nat} {out : AjOut (Set ℂ) W O c.shape.g} (hty : intType flag c.m c.n = .de) (f1 : flag &&& ajNoInt = 0) (hroot : flag.testBit 5 = true ∨ flag.testBit 7 = true ∨ (flag.testBit 6 = false ∧ n ≤ 7))
    (hrun : ajRun V fuel c flag prec tr0 = .ok out) (hshort : ∀ a < n, ∀ b < n, a ≠ b → EdgeShort lam m2 m n c.shape.j1 j ξ a b out.intprec.toNat) :
    (∃ (I : Nat → Nat → Set ℂ) (k : Nat) (ed : Edge W), out.integrals = some I ∧ out.tree.e[k]? = some ed ∧
        ∀ Y, IsBranchM m n (fun k => (ξ k : ℂ)) (ξ ed.a) (ξ ed.b) Y → cycleIntM m (ξ ed.a) (ξ ed.b) 0 j Y 0 ∉ I k r) ∧
      ∀ Y ca cb cc Q, ¬ AjRight V (fun s z => z ∈ s) RC m n (fun k => (ξ k : ℂ)) c out Y ca cb cc Q := by
  have hn2 : (2 : Int) ≤ n := by omega
  have hg := shape_good hn2 hc
  obtain ⟨_, e1, e2, _⟩ := secInit_fields hc hn2
  have hcn : c.shape.n = n := by unfold Sec.shape; simp [e2]
  have hcm : c.shape.m = m := by unfold Sec.shape; simp [e1]
  have hjm : j < m := by
    have := (diffOf_exp hg hr).2
    rwa [hd, hcm] at this
  have hj1 := hg.j1
  obtain ⟨g1, g2, g3, g4, -⟩ := ajRun_ok hrun
  obtain ⟨-, hgr, hsz, hes, hdata, -⟩ := ajTree_ok hV.sortEdges hn hc ht g1
  rw [hV.ar, hV.tests, funext (hV.roots _)] at hdata
  obtain ⟨hdl, hget⟩ := treeYdataInit_get hdata
  have hlen : out.tree.e ≠ [] := by
    intro h
    rw [h] at hsz
    by_cases hdvd : m ∣ n
    · have h1 : n = 2 := by simpa using (hsz.1 hdvd).symm
      subst h1
      have := Nat.le_of_dvd (by omega) hdvd
      omega
    · have := hsz.2 hdvd
      simp at this
      omega
  obtain ⟨k0, ks, hord⟩ : ∃ k0 ks, V.order out.tree.e = k0 :: ks := by
    cases h : V.order out.tree.e with
    | nil =>
      have := (hV.order out.tree.e).length_eq
      rw [h] at this
      simp at this
      exact absurd (List.length_eq_zero_iff.1 this.symm) hlen
    | cons k0 ks => exact ⟨k0, ks, rfl⟩
  have hnd : (k0 :: ks).Nodup := hord ▸ (hV.order out.tree.e).nodup_iff.2 List.nodup_range
  have hk0 : k0 < out.tree.e.length := by
    have : k0 ∈ V.order out.tree.e := by rw [hord]; simp
    simpa using (hV.order out.tree.e).mem_iff.1 this
  obtain ⟨yd, hy⟩ : ∃ yd, out.data[k0]? = some yd := ⟨_, List.getElem?_eq_getElem (by omega)⟩
  obtain ⟨ed, hed, hyd⟩ := hget k0 yd hy
  obtain ⟨b1, b2⟩ := hes ed (List.mem_of_getElem? hed)
  have hab : ξ ed.a ≠ ξ ed.b := by
    intro h
    have h1 := (hgr k0 (by simpa using hk0)).1
    have h2 := hξ b1 b2 h
    rw [List.getElem_map, (List.getElem?_eq_some_iff.1 hed).2] at h1
    exact h1 h2
  obtain ⟨-, I, hI, hII, -⟩ := g4 f1
  rw [g2, hty] at hII
  unfold ajIntegrals at hII
  dsimp only at hII
  rw [hord] at hII
  obtain ⟨ye, p, de, v, y1, y2, y3, y4, y5⟩ := treeDe_first rfl (List.nodup_cons.1 hnd).1 hII
  obtain rfl := Option.some.inj (hy.symm.trans y1)
  rw [hV.dePar, hcn, hcm] at y2
  rw [hV.ar, hV.fns, hcm] at y3
  rw [hV.ar, hV.tests, hcn] at y4
  rw [hV.ar] at y5
  have hwrong := edge_wrong hn hc hr hd hjj b1 b2 hab hyd (hshort _ b1 _ b2 fun h => hab (by rw [h])) (by
    rcases hroot with h | h | ⟨h, h7⟩
    · exact Or.inl h
    · exact Or.inr (Or.inl h)
    · exact Or.inr (Or.inr ⟨h, by rw [Bool.and_eq_false_iff]; exact Or.inr (decide_eq_false (by omega))⟩)) y2 y3 y4 y5
  refine ⟨⟨I, k0, ed, hI, hed, hwrong⟩, fun Y ca cb cc Q hR => ?_⟩
  exact hwrong (Y k0) (hR.branches k0 ed hed).1 (hR.integrals I hI k0 ed hed r 0 j hr hd)

/-- the environment of `C56_fails` meets the conditions, for the points `-1` and `1`; by `C56_fails` its runs return -/
theorem deEnv_exact (lam : ℝ) (m2 : ℝ → ℝ) : ExactDe (deEnv lam m2) lam m2 fun k => ((if k = 0 then -1 else 1 : ℝ) : ℂ) where
  ar _ := rfl
  fns _ := rfl
  tests _ := rfl
  roots _ k := by
    show {pm k} = _
    unfold pm
    split <;> simp
  dePar _ _ _ _ _ := rfl
  sortEdges := (deEnv_sound lam m2).sortEdges
  order := (deEnv_sound lam m2).order

/-- a case met by all hypotheses, with runs which return: `y^5 = x^2 - 1`, `dx / y^4` -/
example : ∃ c : Sec, secInit (5 : Nat) (2 : Nat) = .ok c ∧ 1 < c.shape.g ∧ diffOf c.shape.ni c.shape.j1 1 = (0, 4) ∧ c.shape.j1 < 4 ∧ treeEdges c = 1 ∧
    ∀ prec : Int, 1000 ≤ prec → prec < 2 ^ 62 → ∃ out : AjOut (Set ℂ) Unit setMat c.shape.g,
      ajRun (deEnv (Real.pi / 2) fun _ => 1) 1 c 3 prec (treeInit (deEnv (Real.pi / 2) fun _ => 1).wops 1) = .ok out := by
  obtain ⟨-, c, hc, h1, h2, h3⟩ := C56_fails_1000 (m2 := fun _ => 1) (by norm_num)
  have hc' : secInit 5 2 = .ok ⟨5, 2, 1, 2, 3, 2, [1, 1]⟩ := by decide +kernel
  obtain rfl := Res.ok.inj (hc.symm.trans hc')
  refine ⟨_, hc, by decide, h2, by decide, by decide +kernel, fun prec hp hq => ?_⟩
  obtain ⟨out, _, _, h, _⟩ := h3 prec hp hq 3 (by decide) (by decide) (by decide) (by decide) (by decide)
  exact ⟨out, h⟩

/-- the default options: the double-exponential rule is used for every `m > 2`, `n > 2` -/
example {m n : Int} (hm : 2 < m) (hn : 2 < n) : intType 0 m n = .de ∧ 0 &&& ajNoInt = 0 ∧ Nat.testBit 0 6 = false := by
  refine ⟨?_, by decide, by decide⟩
  unfold intType
  rw [if_pos (Or.inr ⟨hm, hn⟩)]

/-- `y^3 = f(x)` of degree 4: `dx / y^2` is the second differential, `j1 = 1` -/
example : ∃ c : Sec, secInit (3 : Nat) (4 : Nat) = .ok c ∧ c.shape.g = 3 ∧ ∃ r j, r < c.shape.g ∧ diffOf c.shape.ni c.shape.j1 r = (0, j) ∧ c.shape.j1 < j :=
  ⟨_, rfl, by decide, 1, 2, by decide, by decide, by decide⟩

end Hcp
