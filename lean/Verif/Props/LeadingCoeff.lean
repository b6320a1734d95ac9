import Verif.Spec.CurvePoly
import Verif.Props.ComputeFails
import Mathlib.Analysis.Complex.Polynomial.Basic

/-!
# C59: the polynomial `f` of the curve `y^m = f (x)` and its leading coefficient

`abel_jacobi_compute` only uses the roots of `f`: the integrals and the periods are those of the curve `y^m = ∏ (x - x_k)`.
-/

namespace Hcp
open Set Spec

variable {A B C W : Type} {O : MatOps} {R : A → ℂ → Prop}

theorem cycleIntM_smul (m : Nat) (a b : ℂ) (i j : Nat) (z : ℂ) (Y : ℝ → ℂ) (s : Nat) : cycleIntM m a b i j (fun t => z * Y t) s = (z ^ j)⁻¹ * cycleIntM m a b i j Y s := by
  rw [cycleIntM_eq, cycleIntM_eq, segIntM_smul]
  ring

theorem loopPeriodM_smul (m : Nat) (x : Nat → ℂ) (es : List (Edge W)) (Y : Nat → ℝ → ℂ) (z : ℂ) (i j : Nat) (l : List Gamma) :
    loopPeriodM m x es (fun k t => z * Y k t) i j l = (z ^ j)⁻¹ * loopPeriodM m x es Y i j l := by
  unfold loopPeriodM
  rw [← List.sum_map_mul_left]
  congr 1
  apply List.map_congr_left
  intro t _
  cases es[t.index]? with
  | none => simp
  | some ed =>
    simp only
    rw [cycleIntM_smul]
    ring

/-- the factors of the rows -/
noncomputable def rowScale (c : Shape) (z : ℂ) : Matrix (Fin c.g) (Fin c.g) ℂ := Matrix.diagonal fun r => (z ^ (diffOf c.ni c.j1 r).2)⁻¹

theorem periodsOf_smul (m : Nat) (x : Nat → ℂ) (es : List (Edge W)) (Y : Nat → ℝ → ℂ) (z : ℂ) (c : Shape) (loops : List (List Gamma)) :
    periodsOf m x es (fun k t => z * Y k t) c loops = rowScale c z * periodsOf m x es Y c loops := by
  ext r k
  unfold rowScale
  rw [Matrix.diagonal_mul]
  exact loopPeriodM_smul _ _ _ _ _ _ _ _

theorem rowScale_cancel {c : Shape} {z : ℂ} (hz : z ≠ 0) (P Q : Matrix (Fin c.g) (Fin c.g) ℂ) : rowScale c z * P = rowScale c z * Q ↔ P = Q := by
  constructor
  · intro h
    ext r k
    have := congrFun (congrFun h r) k
    unfold rowScale at this
    rw [Matrix.diagonal_mul, Matrix.diagonal_mul] at this
    exact mul_left_cancel₀ (inv_ne_zero (pow_ne_zero _ hz)) this
  · rintro rfl
    rfl

theorem turns_smul {α : ℂ} (hα : α ≠ 0) (z o : ℂ) (φ : ℝ) : Turns (α * z) (α * o) φ ↔ Turns z o φ := by
  unfold Turns
  rw [mul_div_mul_left _ _ hα]

theorem leftSide_smul {α : ℂ} (hα : α ≠ 0) (i o z : ℂ) : leftSide (α * i) (α * o) (α * z) = leftSide i o z := by
  have e : ∀ z o : ℂ, Turns (α * z) (α * o) = Turns z o := fun z o => funext fun φ => propext (turns_smul hα z o φ)
  unfold leftSide Between
  rw [e, e, e]

theorem pathNumber_smul {α : ℂ} (hα : α ≠ 0) (m a b a' b' : Nat) (ca cb ca' cb' : ℂ) (s s' : Nat) :
    pathNumber (passages m a b (α * ca) (α * cb) s) (passages m a' b' (α * ca') (α * cb') s') = pathNumber (passages m a b ca cb s) (passages m a' b' ca' cb' s') := by
  simp only [passages, mul_left_comm _ α, pathNumber, crossing, List.map_cons, List.map_nil, leftSide_smul hα]

theorem leavesAlong_smul {α : ℂ} (hα : α ≠ 0) {Y : ℝ → ℂ} {t0 : ℝ} {c : ℂ} (h : LeavesAlong Y t0 c) : LeavesAlong (fun t => α * Y t) t0 (α * c) := by
  refine ⟨mul_ne_zero hα h.1, ?_⟩
  have := h.2.const_mul (α / ‖α‖)
  simp only [norm_mul, Complex.ofReal_mul]
  simpa only [div_mul_div_comm] using this

/-- **C59 (partial).** Let `f = a ∏ (x - x_k)` with `a ≠ 0`.  If the output is right for the roots of `f` (which is what C56 gives), then for every `α` with `α^m = a` there are determinations of `y` on the edges, for the curve `y^m = f (x)`, such that
the matrices of integrals and of periods contain `α^j` times the integrals of `x^i dx / y^j` on that curve, and `tau` is right for that curve.
Missing: the factor `α^j`, which is not `1` when `a` is not `1` (see `C59_fails`). -/
theorem C59_roots_partial {V : AjEnv A B C W O} {RC : {n m : Nat} → O.C n m → Matrix (Fin n) (Fin m) ℂ → Prop} {m n : Nat} {x : Nat → ℂ} {c : Sec} {out : AjOut A W O c.shape.g}
    {Y : Nat → ℝ → ℂ} {ca cb : Nat → ℂ} {cc : IMat} {Q : Mat (out.tree.e.length * (m - 1))} (h : AjRight V R RC m n x c out Y ca cb cc Q)
    {f : Polynomial ℂ} {a : ℂ} (hf : f = Polynomial.C a * ∏ k ∈ Finset.range n, (Polynomial.X - Polynomial.C (x k))) (ha : a ≠ 0) {α : ℂ} (hm : 0 < m) (hα : α ^ m = a) :
    PolyRight (fun j => α ^ j) V R RC m f x c out (fun k t => α * Y k t) (fun k => α * ca k) (fun k => α * cb k) cc Q where
  branches k ed hk := by
    have hα0 : α ≠ 0 := by rintro rfl; rw [zero_pow hm.ne'] at hα; exact ha hα.symm
    obtain ⟨⟨h1, h2⟩, h3, h4⟩ := h.branches k ed hk
    refine ⟨⟨continuousOn_const.mul h1, fun t ht => ?_⟩, leavesAlong_smul hα0 h3, leavesAlong_smul hα0 h4⟩
    rw [mul_pow, hα, h2 t ht, hf]
    simp [Polynomial.eval_prod]
  numbers k l ek el s t hk hl hs ht := by
    have hα0 : α ≠ 0 := by rintro rfl; rw [zero_pow hm.ne'] at hα; exact ha hα.symm
    rw [pathNumber_smul hα0]
    exact h.numbers k l ek el s t hk hl hs ht
  basis := h.basis
  whole := h.whole
  unit := h.unit
  positive := h.positive
  integrals I hI k ed hk r i j hr hij := by
    have hα0 : α ≠ 0 := by rintro rfl; rw [zero_pow hm.ne'] at hα; exact ha hα.symm
    rw [cycleIntM_smul, mul_inv_cancel_left₀ (pow_ne_zero _ hα0)]
    exact h.integrals I hI k ed hk r i j hr hij
  omega om0 om1 ho r k i j hij := by
    have hα0 : α ≠ 0 := by rintro rfl; rw [zero_pow hm.ne'] at hα; exact ha hα.symm
    obtain ⟨h1, h2⟩ := h.omega om0 om1 ho r k
    have e : ∀ loops, periodsOf m x out.tree.e (fun k t => α * Y k t) c.shape loops r k = (α ^ j)⁻¹ * periodsOf m x out.tree.e Y c.shape loops r k := by
      intro loops
      rw [periodsOf_smul]
      unfold rowScale
      rw [Matrix.diagonal_mul, hij]
    rw [e, e, mul_inv_cancel_left₀ (pow_ne_zero _ hα0), mul_inv_cancel_left₀ (pow_ne_zero _ hα0)]
    exact ⟨h1, h2⟩
  tau om0 om1 t ho ht := by
    have hα0 : α ≠ 0 := by rintro rfl; rw [zero_pow hm.ne'] at hα; exact ha hα.symm
    obtain ⟨tau, h1, h2⟩ := h.tau om0 om1 t ho ht
    refine ⟨tau, h1, ?_⟩
    simp only [periodsOf_smul]
    rcases h2 with h2 | ⟨s1, s2, s3, s4⟩
    · left
      intro tau'
      rw [Matrix.mul_assoc, rowScale_cancel hα0]
      exact h2 tau'
    · right
      refine ⟨s1, s2, s3, ?_⟩
      rw [Matrix.mul_assoc, ← Matrix.mul_neg, rowScale_cancel hα0]
      exact s4

/-- **C59 (monic polynomials).** For a monic `f` the output is right, with no factor. -/
theorem C59_monic {V : AjEnv A B C W O} {RC : {n m : Nat} → O.C n m → Matrix (Fin n) (Fin m) ℂ → Prop} {m n : Nat} {x : Nat → ℂ} {c : Sec} {out : AjOut A W O c.shape.g}
    {Y : Nat → ℝ → ℂ} {ca cb : Nat → ℂ} {cc : IMat} {Q : Mat (out.tree.e.length * (m - 1))} (h : AjRight V R RC m n x c out Y ca cb cc Q) (hm : 0 < m)
    {f : Polynomial ℂ} (hf : f = ∏ k ∈ Finset.range n, (Polynomial.X - Polynomial.C (x k))) : PolyRight (fun _ => 1) V R RC m f x c out Y ca cb cc Q := by
  have := C59_roots_partial h (f := f) (a := 1) (by rw [hf]; simp) one_ne_zero (α := 1) hm (one_pow _)
  simpa using this

/-- the integral of `dx / y^j` between two branch points -/
theorem segInt_two_ne {m j : Nat} (hj : j < m) {a b : ℂ} (hab : a ≠ b) {u : Nat → ℂ} (hu : u 2 ≠ 0) : segIntM a b 0 j (branchY m 2 0 u) ≠ 0 := by
  have hm : (0 : ℝ) < m := by exact_mod_cast (by omega : 0 < m)
  have hs : 0 < 1 - (j : ℝ) / m := by
    rw [sub_pos, div_lt_one hm]
    exact_mod_cast hj
  have e : segIntM a b 0 j (branchY m 2 0 u) = (u 2 ^ j)⁻¹ * ((b - a) / 2) * ∫ t in (-1 : ℝ)..1, ((1 - t ^ 2 : ℝ) : ℂ) ^ (((1 - (j : ℝ) / m : ℝ) : ℂ) - 1) := by
    unfold segIntM
    rw [← intervalIntegral.integral_const_mul]
    apply intervalIntegral.integral_congr
    intro t ht
    rw [Set.uIcc_of_le (by norm_num)] at ht
    have h0 : (0 : ℝ) ≤ 1 - t ^ 2 := by nlinarith [ht.1, ht.2]
    have h1 : ((1 - t ^ 2 : ℝ) : ℂ) ^ (((1 - (j : ℝ) / m : ℝ) : ℂ) - 1) = (((((1 - t ^ 2) ^ ((m : ℝ)⁻¹)) ^ j)⁻¹ : ℝ) : ℂ) := by
      rw [← Real.rpow_mul_natCast h0, ← Real.rpow_neg h0, Complex.ofReal_cpow h0]
      congr 1
      push_cast
      ring
    simp only [branchY, edgeY, Finset.range_zero, Finset.prod_empty, Nat.sub_self, Finset.Ico_self, mul_one, pow_zero, h1]
    rw [mul_pow]
    push_cast
    ring
  rw [e, integral_one_sub_sq hs]
  have h1 : Complex.Gamma ((1 - (j : ℝ) / m : ℝ) : ℂ) ≠ 0 := Complex.Gamma_ne_zero_of_re_pos (by rw [Complex.ofReal_re]; exact hs)
  have h2 : Complex.Gamma (((1 - (j : ℝ) / m : ℝ) : ℂ) + 1 / 2) ≠ 0 := Complex.Gamma_ne_zero_of_re_pos (by
    rw [Complex.add_re, Complex.ofReal_re]
    norm_num
    linarith)
  have h3 : (Real.sqrt Real.pi : ℂ) ≠ 0 := Complex.ofReal_ne_zero.2 (Real.sqrt_pos.2 Real.pi_pos).ne'
  exact mul_ne_zero (mul_ne_zero (inv_ne_zero (pow_ne_zero _ hu)) (div_ne_zero (sub_ne_zero.2 hab.symm) two_ne_zero)) (div_ne_zero (mul_ne_zero h3 h1) h2)

/-- the blocks of differentials for two branch points -/
theorem ni_two {m : Int} {c : Sec} (h : secInit m 2 = .ok c) (hg : 1 ≤ c.shape.g) : ∃ k, c.shape.ni = List.replicate (k + 1) 1 := by
  have hone : ∀ l ∈ c.shape.ni, l = 1 := by
    intro l hl
    simp only [Sec.shape, List.mem_map] at hl
    obtain ⟨q, hq, rfl⟩ := hl
    have := C02_blocks_nonempty (by norm_num) h hq
    omega
  have h1 := List.eq_replicate_of_mem hone
  have hsum := (shape_good (by norm_num) h).sum
  obtain ⟨k, hk⟩ : ∃ k, c.shape.ni.length = k + 1 := by
    refine Nat.exists_eq_succ_of_ne_zero fun h0 => ?_
    rw [List.length_eq_zero_iff.1 h0] at hsum
    simp only [List.sum_nil] at hsum
    omega
  exact ⟨k, by rw [← hk]; exact h1⟩

/-- **C59 does not hold as stated.** Curve `y^m = a (x^2 - 1)`, `m > 2`, with a leading coefficient `a` of modulus different from `1` (for instance any integer `a` other than `0`, `1`, `-1`).  With exact operations on sets, all default options (`--int` and `--big` allowed),
the computation returns and for every differential the cell of the matrix of integrals contains the integral over the elementary closed path for no determination of `y` on the curve `y^m = a (x^2 - 1)`. -/
theorem C59_fails {m : Nat} (hm : 2 < m) {c : Sec} (h : secInit m 2 = .ok c) {a : ℂ} (ha : a ≠ 0) (ha1 : ‖a‖ ≠ 1) (p : DePar (Set ℂ)) {prec : Int} (hp1 : 1 ≤ prec) (hp2 : prec < 2 ^ 62)
    {flag : Nat} (f0 : flag &&& ajUseDe = 0) (f1 : flag &&& ajNoInt = 0) (f3 : flag &&& ajNoTau ≠ 0) :
    (setEnv pm p).Sound (fun s z => z ∈ s) (fun b x => x ∈ b.1) InC ∧ 1 ≤ c.shape.g ∧
    ∃ (out : AjOut (Set ℂ) Unit setMat c.shape.g) (I : Nat → Nat → Set ℂ) (ed : Edge Unit), ajRun (setEnv pm p) 1 c flag prec (treeInit (setEnv pm p).wops 1) = .ok out ∧ out.integrals = some I ∧ out.tree.e = [ed] ∧
      (∀ Z, IsBranchPoly m (Polynomial.C a * (Polynomial.X ^ 2 - 1)) (pm ed.a) (pm ed.b) Z → ∀ r i j, r < c.shape.g → diffOf c.shape.ni c.shape.j1 r = (i, j) → cycleIntM m (pm ed.a) (pm ed.b) i j Z 0 ∉ I 0 r) ∧
      ∀ Z ca cb cc Q, ¬ PolyRight (fun _ => 1) (setEnv pm p) (fun s z => z ∈ s) InC m (Polynomial.C a * (Polynomial.X ^ 2 - 1)) pm c out Z ca cb cc Q := by
  obtain ⟨hm1, e1, e2, eδ, _⟩ := secInit_fields h le_rfl
  have hcn : c.shape.n = 2 := by unfold Sec.shape; simp [e2]
  have hcm : c.shape.m = m := by unfold Sec.shape; simp [e1]
  have hmZ : (2 : Int) < m := by exact_mod_cast hm
  have hty : intType flag c.m c.n = .d2 := by
    unfold intType
    rw [if_neg, if_neg]
    · omega
    · rw [e2]
      push Not
      exact ⟨f0, fun _ => le_rfl⟩
  have hg : 1 ≤ c.shape.g := by
    have hgen := isGenus_shape le_rfl h
    unfold IsGenus at hgen
    have h3 : ((Int.gcd m 2 : Nat) : Int) ≤ 2 := Int.le_of_dvd (by norm_num) (Int.gcd_dvd_right _ _)
    by_contra h0
    have h4 : c.shape.g = 0 := by omega
    rw [h4] at hgen
    have h5 : m = 3 ∨ 4 ≤ m := by omega
    rcases h5 with rfl | h5
    · norm_num at hgen
    · push_cast at hgen
      omega
  have hte : ((treeInit (setEnv pm p).wops 1).n : Int) = treeEdges c := by
    have h3 : ((Int.gcd m 2 : Nat) : Int) ≤ 2 := Int.le_of_dvd (by norm_num) (Int.gcd_dvd_right _ _)
    unfold treeEdges
    rw [if_neg (by rw [eδ, e1]; omega), e2]
    rfl
  obtain ⟨k0, hni⟩ := ni_two h hg
  have fit : (2 : Int) ≤ prec + 1 ∧ FitsSlong (prec + 1) ∧ FitsSlong (prec + 1 + 10) := by
    unfold FitsSlong slongMin slongMax
    omega
  have hlen : ∀ ed : Edge Unit, ed.a < 2 → ed.b < 2 → ed.a ≠ ed.b → ‖pm ed.b - pm ed.a‖ = 2 := by
    intro ed ha hb hab
    rcases (by omega : ed.a = 0 ∧ ed.b = 1 ∨ ed.a = 1 ∧ ed.b = 0) with ⟨e1, e2⟩ | ⟨e1, e2⟩ <;> rw [e1, e2] <;> norm_num [pm]
  refine ⟨setEnv_sound pm p, hg, ?_⟩
  obtain ⟨out, hrun⟩ : ∃ out, ajRun (setEnv pm p) 1 c flag prec (treeInit (setEnv pm p).wops 1) = .ok out := by
    rcases C56_quadratic setMat_encl (setEnv_sound pm p) hm h hte (fuel := 1) le_rfl f0 (prec := prec)
      (fun ed h1 h2 h3 => ⟨1, setMag_extra (x := pm) (by simp) (fun e he => by obtain rfl := List.mem_singleton.1 he; exact hlen _ h1 h2 h3) hni, fit⟩) (x' := fun _ => pm) (fun _ => by norm_num [pm])
      (fun _ k _ => mem_singleton _) with ⟨-, q, a, b, ha, hb, hab, h1, -⟩ | ⟨-, -, -, h', -⟩ | ⟨out, h, -⟩
    · exfalso
      rcases C20_edge_data setArith_pt sndTests (x := fun k => {pm k}) (x' := pm) (fun _ => rfl) ha hb hab (m := m) (by omega) (fun h => hab (pm_inj ha hb h)) with ⟨yd, hyd, -⟩ | ⟨_, s, z, hz, h, h0⟩
      · have : ydataInitEdge setArith sndTests (fun k => {pm k}) a b 2 m = .abort "Cab contains 0" := h1
        rw [hyd] at this
        cases this
      · subst hz
        simp only [sndTests, mem_singleton_iff, decide_eq_true_eq] at h
        exact absurd h.symm h0
    · exact absurd h' f3
    · exact ⟨out, h⟩
  obtain ⟨h1, h2, -, h4, -⟩ := ajRun_ok hrun
  obtain ⟨-, hgr, hec, hes, hdata, -⟩ := ajTree_ok (setEnv_sound pm p).sortEdges (n := 2) le_rfl (by exact_mod_cast h) hte h1
  obtain ⟨-, I, hI, hint, -⟩ := h4 f1
  rw [h2, hty] at hint
  obtain ⟨ed, hed⟩ : ∃ ed, out.tree.e = [ed] := by
    apply List.length_eq_one_iff.1
    rcases edgeCount_of_size hec with h | ⟨h, -⟩
    · omega
    · have := Nat.le_of_dvd (by norm_num) h
      omega
  have hab : ed.a < 2 ∧ ed.b < 2 := hes ed (by rw [hed]; exact List.mem_singleton_self _)
  have hne : ed.a ≠ ed.b := by
    have := (hgr 0 (by rw [hed]; simp)).1
    simpa [hed] using this
  have hxab : pm ed.a ≠ pm ed.b := fun h => hne (pm_inj hab.1 hab.2 h)
  have hk : out.tree.e[0]? = some ed := by rw [hed]; rfl
  rw [hed] at hdata
  -- the data are exact
  obtain ⟨yd, hd0, hyd⟩ : ∃ yd, out.data[0]? = some yd ∧ ydataInitEdge setArith sndTests (fun k => {pm k}) ed.a ed.b 2 m = .ok yd := by
    obtain ⟨g1, g2⟩ := treeYdataInit_get hdata
    obtain ⟨yd, hyd⟩ := List.length_eq_one_iff.1 g1
    have e0 : out.data[0]? = some yd := by rw [hyd]; rfl
    obtain ⟨ed', w1, w2⟩ := g2 0 yd e0
    obtain rfl : ed = ed' := by simpa using w1
    exact ⟨yd, e0, w2⟩
  obtain ⟨hyn, u, hu, hE⟩ : yd.n = 2 ∧ ∃ u' : Nat → ℂ, (∀ i, yd.u i = {u' i}) ∧ EdgeData m 2 pm ed.a ed.b yd.n1 u' := by
    rcases C20_edge_data setArith_pt sndTests (x := fun k => {pm k}) (x' := pm) (fun _ => rfl) hab.1 hab.2 hne (m := m) (by omega) hxab with ⟨yd2, k1, -, k2⟩ | ⟨k1, -⟩
    · obtain rfl := Res.ok.inj (hyd.symm.trans k1)
      exact k2
    · rw [hyd] at k1
      cases k1
  have hn1 : yd.n1 = 0 := by have := hE.n1_le; omega
  obtain ⟨row, row', w1, w2, w3⟩ := d2_row setArith_pt setFns_pt hm h hxab hyn hu hE
  have hI0 : ∀ r, I 0 r = {row' r} := by
    unfold ajIntegrals at hint
    simp only [hd0] at hint
    have w1' : integralD2 ((setEnv pm p).ar out.intprec) ((setEnv pm p).fns out.intprec) c.shape yd = .ok row := w1
    rw [w1', Res.ok_bind] at hint
    obtain rfl := Res.ok.inj hint
    intro r
    simp only [if_true]
    exact w2 r
  -- the determination of the program
  have hfree : ∀ k < 2, k ≠ ed.a → k ≠ ed.b → ∀ t : ℝ, -1 ≤ t → t ≤ 1 → pm k ≠ edgePt (pm ed.a) (pm ed.b) t := by
    intro k hk h1 h2
    omega
  have hB := (branchY_spec (by omega) hE hxab hfree).1
  have hprod : ∀ t : ℝ, ∏ k ∈ Finset.range 2, (edgePt (pm ed.a) (pm ed.b) t - pm k) = (t : ℂ) ^ 2 - 1 := by
    intro t
    rw [Finset.prod_range_succ, Finset.prod_range_one]
    rcases (by omega : ed.a = 0 ∧ ed.b = 1 ∨ ed.a = 1 ∧ ed.b = 0) with ⟨e1, e2⟩ | ⟨e1, e2⟩ <;> rw [e1, e2] <;> norm_num [pm, edgePt] <;> ring
  have hu2 : u 2 ≠ 0 := by
    intro h0
    have := hE.eqn 0
    have h3 := hprod 0
    rw [show ((0 : ℝ) : ℂ) = 0 from rfl] at h3
    rw [h0, h3] at this
    norm_num at this
    rw [zero_pow (by omega)] at this
    norm_num at this
  have hBne : ∀ t ∈ Ioo (-1 : ℝ) 1, branchY m 2 yd.n1 u t ≠ 0 := by
    intro t ht h0
    have := hB.2 t (Ioo_subset_Icc_self ht)
    rw [h0, hprod, zero_pow (by omega)] at this
    have h3 : t ^ 2 - 1 ≠ 0 := by nlinarith [ht.1, ht.2]
    exact h3 (by exact_mod_cast this.symm)
  obtain ⟨α, hα⟩ := IsAlgClosed.exists_pow_nat_eq a (n := m) (by omega)
  have hα0 : α ≠ 0 := by rintro rfl; rw [zero_pow (by omega)] at hα; exact ha hα.symm
  have hwrong : ∀ Z, IsBranchPoly m (Polynomial.C a * (Polynomial.X ^ 2 - 1)) (pm ed.a) (pm ed.b) Z → ∀ r i j, r < c.shape.g → diffOf c.shape.ni c.shape.j1 r = (i, j) → cycleIntM m (pm ed.a) (pm ed.b) i j Z 0 ∉ I 0 r := by
    intro Z hZ r i j hr hij hmem
    rw [hI0, mem_singleton_iff, w3 r i j hr hij, cycleIntM_eq, zero_mul, pow_zero, inv_one, one_mul] at hmem
    obtain ⟨q1, q2, q3⟩ := C28_exponents hmZ h hr
    rw [hij, hcm] at q1
    obtain ⟨rfl, hj⟩ := Prod.mk.inj q1
    rw [hcm] at q2
    have hY : IsBranchM m 2 pm (pm ed.a) (pm ed.b) fun t => α⁻¹ * Z t := by
      refine ⟨continuousOn_const.mul hZ.1, fun t ht => ?_⟩
      rw [mul_pow, hZ.2 t ht, inv_pow, hα, hprod]
      have : (edgePt (pm ed.a) (pm ed.b) t) ^ 2 = (t : ℂ) ^ 2 := by
        rcases (by omega : ed.a = 0 ∧ ed.b = 1 ∨ ed.a = 1 ∧ ed.b = 0) with ⟨e1, e2⟩ | ⟨e1, e2⟩ <;> rw [e1, e2] <;> norm_num [pm, edgePt]
      simp [this, ha]
    obtain ⟨z, hz, hYZ⟩ := branch_unique (by omega) hY hB hBne
    have hZB : ∀ t ∈ Ioo (-1 : ℝ) 1, Z t = (α * z) * branchY m 2 yd.n1 u t := by
      intro t ht
      rw [mul_assoc, ← hYZ t ht, mul_inv_cancel_left₀ hα0]
    rw [segIntM_of_branch hZB, hn1] at hmem
    have hseg := segInt_two_ne (m := m) (j := j) (by omega) hxab hu2
    have hzeta : (1 : ℂ) - (zeta m ^ j)⁻¹ ≠ 0 := by
      rw [sub_ne_zero]
      intro h1
      have h2 : zeta m ^ j = 1 := by rw [← inv_inv (zeta m ^ j), ← h1, inv_one]
      have := (Complex.isPrimitiveRoot_exp m (by omega)).dvd_of_pow_eq_one j h2
      have := Nat.le_of_dvd (by omega) this
      omega
    have hpow : (α * z) ^ j = 1 := by
      have h3 := mul_left_cancel₀ hzeta hmem
      have h4 : ((α * z) ^ j)⁻¹ = 1 := by
        refine mul_right_cancel₀ hseg ?_
        rw [h3, one_mul]
      rw [← inv_inv ((α * z) ^ j), h4, inv_one]
    have hz1 : ‖z‖ = 1 := by
      have : ‖z‖ ^ m = 1 := by rw [← norm_pow, hz, norm_one]
      exact (pow_eq_one_iff_of_nonneg (norm_nonneg _) (by omega)).1 this
    have hα1 : ‖α‖ = 1 := by
      have : ‖α‖ ^ j = 1 := by
        have := congrArg norm hpow
        rw [norm_pow, norm_mul, hz1, mul_one, norm_one] at this
        exact this
      exact (pow_eq_one_iff_of_nonneg (norm_nonneg _) (by omega)).1 this
    apply ha1
    rw [← hα, norm_pow, hα1, one_pow]
  refine ⟨out, I, ed, hrun, hI, hed, hwrong, ?_⟩
  intro Z ca cb cc Q hR
  have h3 := hR.integrals I hI 0 ed hk 0 _ _ hg rfl
  rw [one_mul] at h3
  exact hwrong (Z 0) (hR.branches 0 ed hk).1 0 _ _ hg rfl h3

/-- the conditions of `C59_fails` hold for `y^5 = 2 (x^2 - 1)` with `--big` -/
example : ∃ c : Sec, secInit 5 2 = .ok c ∧ c.shape.g = 2 ∧ (2 : ℂ) ≠ 0 ∧ ‖(2 : ℂ)‖ ≠ 1 ∧ 2 &&& ajUseDe = 0 ∧ 2 &&& ajNoInt = 0 ∧ 2 &&& ajNoTau ≠ 0 :=
  ⟨_, rfl, by decide +kernel, two_ne_zero, by norm_num, by decide⟩

/-- the conditions of `C59_roots_partial` hold for the curve `y^5 = 32 (x^2 - 1)`: the run returns, its output is right for the roots, and `2^5 = 32`. -/
example (p : DePar (Set ℂ)) : ∃ (c : Sec) (out : AjOut (Set ℂ) Unit setMat c.shape.g), secInit 5 2 = .ok c ∧ ajRun (setEnv pm p) 1 c 2 64 (treeInit (setEnv pm p).wops 1) = .ok out ∧ ∃ Z ca cb cc Q,
    PolyRight (fun j => 2 ^ j) (setEnv pm p) (fun s z => z ∈ s) InC 5 (Polynomial.C 32 * (Polynomial.X ^ 2 - 1)) pm c out Z ca cb cc Q := by
  have hc : secInit 5 2 = .ok ⟨5, 2, 1, 2, 3, 2, [1, 1]⟩ := by decide +kernel
  obtain ⟨-, -, out, -, -, hrun, -⟩ := C59_fails (m := 5) (by norm_num) hc (a := 2) two_ne_zero (by norm_num) p (prec := 64) (by norm_num) (by norm_num) (flag := 2) (by decide) (by decide) (by decide)
  refine ⟨_, out, hc, hrun, ?_⟩
  have hlen : ∀ ed : Edge Unit, ed.a < 2 → ed.b < 2 → ed.a ≠ ed.b → ‖pm ed.b - pm ed.a‖ = 2 := by
    intro ed ha hb hab
    rcases (by omega : ed.a = 0 ∧ ed.b = 1 ∨ ed.a = 1 ∧ ed.b = 0) with ⟨e1, e2⟩ | ⟨e1, e2⟩ <;> rw [e1, e2] <;> norm_num [pm]
  rcases C56_quadratic setMat_encl (setEnv_sound pm p) (m := 5) (by norm_num) hc (tr0 := treeInit (setEnv pm p).wops 1) (by rfl) (fuel := 1) le_rfl (flag := 2) (by decide) (prec := 64)
    (fun ed h1 h2 h3 => ⟨1, setMag_extra (x := pm) (k := 1) (by simp) (fun e he => by obtain rfl := List.mem_singleton.1 he; exact hlen _ h1 h2 h3) (by rfl), by decide⟩) (x' := fun _ => pm) (fun _ => by norm_num [pm])
    (fun _ k _ => mem_singleton _) with ⟨h, -⟩ | ⟨h, -⟩ | ⟨out2, h, Y, ca, cb, cc, Q, hR⟩
  · cases hrun.symm.trans h
  · cases hrun.symm.trans h
  · obtain rfl := Res.ok.inj (hrun.symm.trans h)
    refine ⟨_, _, _, cc, Q, C59_roots_partial hR (a := 32) ?_ (by norm_num) (α := 2) (by norm_num) (by norm_num)⟩
    congr 1
    rw [Finset.prod_range_succ, Finset.prod_range_one]
    simp only [pm, if_true, one_ne_zero, if_false, Polynomial.C_neg, Polynomial.C_1]
    ring

end Hcp
