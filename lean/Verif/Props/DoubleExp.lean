import Verif.Proofs.DoubleExp
import Verif.Proofs.Beta
import Verif.Props.YData
import Verif.Props.TurnBall
import Verif.Props.Edge

/-!
# C25, C27, C28: double-exponential integration and the case of two branch points
-/

namespace Hcp

variable {A : Type} {X : Arith A} {R : A → ℂ → Prop}

/-- the sum computed when the roots at the nodes contain the determination of the edge -/
theorem de_sum_all (E : Encloses X exact R) {F : Fns A} (H : EnclosesFns F exactFns R) (T : Tests A) {m n : Int} {c : Sec}
    (hn : 2 ≤ n) (hc : secInit m n = .ok c) {sz d1 d N : Nat} (hN : 0 < N) {u : Nat → A} {u' : Nat → ℂ} {h lam : A} {h' lam' : ℝ} (hh : R h h') (hl : R lam lam')
    (err : A → A) (flag : Nat) (big : Bool)
    (hS : ∀ de, deIntInit X F h lam N err c.shape.m = .ok de → ∀ l < N, ∀ t : A, t = de.x l ∨ t = X.neg (de.x l) → ∀ t' : ℂ, R t t' →
      (∃ l : Int, |l| < N ∧ t' = Spec.dePhi lam' (l * h')) →
      ∃ v, mthRootSel X T flag big sz u d1 d t c.shape.m = .ok v ∧ R v (Spec.edgeY c.shape.m d1 d u' t')) :
    ∃ de r, deIntInit X F h lam N err c.shape.m = .ok de ∧
      deIntegralsPrecomp X T sz u d1 d c.shape de flag big = .ok r ∧
      (∀ k, ∃ z, R (r k) z) ∧ ∀ k i j, k < c.shape.g → Spec.diffOf c.shape.ni c.shape.j1 k = (i, j) →
        R (r k) (h' * ∑ l ∈ Finset.Ioo (-(N : Int)) N, Spec.deTerm c.shape.m d1 d u' lam' i j (l * h')) := by
  have hg := shape_good hn hc
  obtain ⟨de', e', g1, -, g2, g3⟩ := deIntInit_spec h' lam' hN (fun z => z) c.shape.m
  have hr := deIntInit_rel E H hh hl N err (fun z => z) c.shape.m
  rw [e'] at hr
  obtain ⟨de, e, hde⟩ := hr.ok_left
  unfold deIntegralsPrecomp
  have hS : ∀ l < N, ∀ t : A, t = de.x l ∨ t = X.neg (de.x l) → ∀ t' : ℂ, R t t' → (∃ l : Int, |l| < N ∧ t' = Spec.dePhi lam' (l * h')) →
      RelRes R (mthRootSel X T flag big sz u d1 d t c.shape.m) (Res.ok (Spec.edgeY c.shape.m d1 d u' t')) := by
    intro l hl t ht t' hR hex
    obtain ⟨v, e1, e2⟩ := hS de e l hl t ht t' hR hex
    rw [e1]
    exact .ok e2
  obtain ⟨w, ew, hw⟩ := deSumWith_spec (S := fun x => .ok (Spec.edgeY c.shape.m d1 d u' x)) hg (de := de') (by omega)
    fun l _ => ⟨rfl, rfl⟩
  have hrel := deSumWith_rel E c.shape hde (S := fun x => mthRootSel X T flag big sz u d1 d x c.shape.m)
    (S' := fun x => .ok (Spec.edgeY c.shape.m d1 d u' x)) (by
      intro l hl
      have hl' : l < N := by rw [hde.n, g1] at hl; exact hl
      have hx := hde.x l
      have hx' := (g3 l hl').1
      refine ⟨hS l hl' _ (Or.inl rfl) _ hx ⟨l, ?_, ?_⟩, hS l hl' _ (Or.inr rfl) _ (E.neg hx) ⟨-l, ?_, ?_⟩⟩
      · rw [Nat.abs_cast]; exact_mod_cast hl'
      · rw [hx']; push_cast; rfl
      · rw [abs_neg, Nat.abs_cast]; exact_mod_cast hl'
      · show -de'.x l = _
        rw [hx']
        push_cast
        rw [neg_mul, dePhi_neg]
        push_cast
        rfl)
  rw [ew] at hrel
  obtain ⟨r, er, hr⟩ := hrel.ok_left
  refine ⟨de, r, e, er, fun k => ⟨_, hr k⟩, fun k i j hk hij => ?_⟩
  have := hr k
  rw [hw k i j hk hij, g1, g2] at this
  convert! this using 1
  rw [sum_sym, Finset.mul_sum, Finset.mul_sum]
  refine Finset.sum_congr rfl fun l hl => ?_
  obtain ⟨k1, k2, k3⟩ := g3 l (Finset.mem_range.1 hl)
  rw [k1, k2, k3]
  push_cast
  rw [deTerm_eq, neg_mul, deTerm_eq, dePhi_neg, Real.cosh_neg, Real.sinh_neg, mul_neg, Real.cosh_neg]
  push_cast
  by_cases h0 : l = 0
  · rw [if_pos h0, if_pos h0]; ring
  · rw [if_neg h0, if_neg h0]; ring

theorem de_sum_of (E : Encloses X exact R) {F : Fns A} (H : EnclosesFns F exactFns R) (T : Tests A) {m n : Int} {c : Sec}
    (hn : 2 ≤ n) (hc : secInit m n = .ok c) {sz d1 d N : Nat} (hN : 0 < N) {u : Nat → A} {u' : Nat → ℂ} {h lam : A} {h' lam' : ℝ} (hh : R h h') (hl : R lam lam')
    (err : A → A) (flag : Nat) (big : Bool)
    (hS : ∀ de, deIntInit X F h lam N err c.shape.m = .ok de → ∀ l < N, ∀ t : A, t = de.x l ∨ t = X.neg (de.x l) → ∀ t' : ℂ, R t t' →
      (∃ l : Int, |l| < N ∧ t' = Spec.dePhi lam' (l * h')) →
      ∃ v, mthRootSel X T flag big sz u d1 d t c.shape.m = .ok v ∧ R v (Spec.edgeY c.shape.m d1 d u' t')) :
    ∃ de r, deIntInit X F h lam N err c.shape.m = .ok de ∧
      deIntegralsPrecomp X T sz u d1 d c.shape de flag big = .ok r ∧
      ∀ k i j, k < c.shape.g → Spec.diffOf c.shape.ni c.shape.j1 k = (i, j) →
        R (r k) (h' * ∑ l ∈ Finset.Ioo (-(N : Int)) N, Spec.deTerm c.shape.m d1 d u' lam' i j (l * h')) := by
  obtain ⟨de, r, h1, h2, -, h3⟩ := de_sum_all E H T hn hc hN hh hl err flag big hS
  exact ⟨de, r, h1, h2, h3⟩

/-- the roots with `AJ_ROOT_DEF` and `AJ_ROOT_PROD` -/
theorem sel_of_flags (E : Encloses X exact R) (T : Tests A) {sz d1 d N m : Nat} (hd : d ≤ sz) (h1 : d1 ≤ d)
    {u : Nat → A} {u' : Nat → ℂ} (hu : ∀ k, R (u k) (u' k)) {h' lam' : ℝ} (flag : Nat) (big : Bool)
    (hsel : flag.testBit 5 = true ∨ ((flag.testBit 7 = true ∨ flag.testBit 6 = false ∧ big = false) ∧
      ∀ k < d, ∀ l : Int, |l| < N → u' k ≠ Spec.dePhi lam' (l * h'))) {t : A} {t' : ℂ} (ht : R t t') (hex : ∃ l : Int, |l| < N ∧ t' = Spec.dePhi lam' (l * h')) :
    ∃ v, mthRootSel X T flag big sz u d1 d t m = .ok v ∧ R v (Spec.edgeY m d1 d u' t') := by
  obtain ⟨l, hl, hlt⟩ := hex
  have hdef := mthRootPolDef_rel E (sz := sz) hu d1 d ht m
  rw [mthRootPolDef_spec hd, edgeY_eq u' h1 m] at hdef
  unfold mthRootSel
  rcases hsel with h5 | ⟨h7, hne⟩
  · rw [if_pos h5]
    exact hdef.ok_left
  · have hprod := mthRootPolProd_rel E (sz := sz) hu d1 d ht m
    rw [C22_prod_agrees hd h1 u' t' (fun k hk => by rw [hlt]; exact hne k hk l hl)] at hprod
    by_cases h5 : flag.testBit 5 = true
    · rw [if_pos h5]; exact hdef.ok_left
    · rw [if_neg h5]
      by_cases h7' : flag.testBit 7 = true
      · rw [if_pos h7']; exact hprod.ok_left
      · rw [if_neg h7']
        obtain ⟨h6, hb⟩ := h7.resolve_left h7'
        rw [if_neg (by rw [h6]; simp), if_neg (by rw [hb]; simp)]
        exact hprod.ok_left

/-- the roots by turning numbers decided by the balls -/
theorem sel_of_turn (E : Encloses X exact R) {T : Tests A} (hT : SoundTests T R) (hI : Spec.RealPoint T R) {sz d1 d N m : Nat} (hm : 0 < m) (hd : d ≤ sz) (hd0 : 1 ≤ d) (h1 : d1 ≤ d)
    {u : Nat → A} {u' : Nat → ℂ} (hu : ∀ k, R (u k) (u' k)) {h' lam' : ℝ} (flag : Nat) (big : Bool)
    (hne : ∀ k < d, ∀ l : Int, |l| < N → u' k ≠ Spec.dePhi lam' (l * h')) {t : A} (hok : TurnOk X T sz u d1 d t) {t' : ℂ} (hR : R t t') (hex : ∃ l : Int, |l| < N ∧ t' = Spec.dePhi lam' (l * h')) :
    ∃ v, mthRootSel X T flag big sz u d1 d t m = .ok v ∧ R v (Spec.edgeY m d1 d u' t') := by
  have hdef := mthRootPolDef_rel E (sz := sz) hu d1 d hR m
  rw [mthRootPolDef_spec hd, edgeY_eq u' h1 m] at hdef
  obtain ⟨k, hk, hkt⟩ := hex
  have hne' : ∀ i < d, u' i ≠ t' := fun i hi => by rw [hkt]; exact hne i hi k hk
  have hprod := mthRootPolProd_rel E (sz := sz) hu d1 d hR m
  rw [C22_prod_agrees hd h1 u' t' hne'] at hprod
  have hturn : ∃ v, mthRootPolTurn X T sz u d1 d t m (unitRoots X m) m = .ok v ∧ R v (Spec.edgeY m d1 d u' t') := by
    exact C23_turn_balls_partial E hT hI hd hd0 h1 hm hu hR hne' (fun k _ => unitRoots_rel E _ k) hok
  unfold mthRootSel
  split
  · exact hdef.ok_left
  · split
    · exact hprod.ok_left
    · split
      · exact hturn
      · split
        · exact hturn
        · exact hprod.ok_left

/-- **C25.** For every curve, every number of points `N ≥ 1`, all real steps `h` and scalings `lam`, all points `u` split in two groups, on
balls: `de_int_init` followed by `de_integrals_precomp` stays in the arrays, and the cell of the differential `x^i dx / y^j`
contains the trapezoidal sum with step `h`, over `-(N-1) … N-1`, of the integrand `x^i / (y(x) (1-x^2)^(1/m))^j` pulled back by `x = tanh(lam sinh t)`.
The routine is `mth_root_pol_def` with `AJ_ROOT_DEF`, or `mth_root_pol_prod` (no node may be a branch point then). -/
theorem C25_trapezoidal (E : Encloses X exact R) {F : Fns A} (H : EnclosesFns F exactFns R) (T : Tests A) {m n : Int} {c : Sec}
    (hn : 2 ≤ n) (hc : secInit m n = .ok c) {sz d1 d N : Nat} (hN : 0 < N) (hd : d ≤ sz) (h1 : d1 ≤ d)
    {u : Nat → A} {u' : Nat → ℂ} (hu : ∀ k, R (u k) (u' k)) {h lam : A} {h' lam' : ℝ} (hh : R h h') (hl : R lam lam')
    (err : A → A) (flag : Nat) (big : Bool)
    (hsel : flag.testBit 5 = true ∨ ((flag.testBit 7 = true ∨ flag.testBit 6 = false ∧ big = false) ∧
      ∀ k < d, ∀ l : Int, |l| < N → u' k ≠ Spec.dePhi lam' (l * h'))) :
    ∃ de r, deIntInit X F h lam N err c.shape.m = .ok de ∧
      deIntegralsPrecomp X T sz u d1 d c.shape de flag big = .ok r ∧
      ∀ k i j, k < c.shape.g → Spec.diffOf c.shape.ni c.shape.j1 k = (i, j) →
        R (r k) (h' * ∑ l ∈ Finset.Ioo (-(N : Int)) N, Spec.deTerm c.shape.m d1 d u' lam' i j (l * h')) := by
  exact de_sum_of E H T hn hc hN hh hl err flag big fun de _ l _ t _ t' ht hex => sel_of_flags E T hd h1 hu flag big hsel ht hex

/-- **C25 (any options, partial).** The same sum for all options and precisions, when there is a factor, no node is a branch point and the balls decide the turning numbers at the nodes.
Missing: nodes where they do not (see C23). -/
theorem C25_turn_balls_partial (E : Encloses X exact R) {F : Fns A} (H : EnclosesFns F exactFns R) {T : Tests A} (hT : SoundTests T R) (hI : Spec.RealPoint T R) {m n : Int} {c : Sec}
    (hn : 2 ≤ n) (hc : secInit m n = .ok c) {sz d1 d N : Nat} (hN : 0 < N) (hd : d ≤ sz) (hd0 : 1 ≤ d) (h1 : d1 ≤ d)
    {u : Nat → A} {u' : Nat → ℂ} (hu : ∀ k, R (u k) (u' k)) {h lam : A} {h' lam' : ℝ} (hh : R h h') (hl : R lam lam')
    (err : A → A) (flag : Nat) (big : Bool) (hne : ∀ k < d, ∀ l : Int, |l| < N → u' k ≠ Spec.dePhi lam' (l * h'))
    (hok : ∀ de, deIntInit X F h lam N err c.shape.m = .ok de → ∀ l < N, TurnOk X T sz u d1 d (de.x l) ∧ TurnOk X T sz u d1 d (X.neg (de.x l))) :
    ∃ de r, deIntInit X F h lam N err c.shape.m = .ok de ∧
      deIntegralsPrecomp X T sz u d1 d c.shape de flag big = .ok r ∧
      ∀ k i j, k < c.shape.g → Spec.diffOf c.shape.ni c.shape.j1 k = (i, j) →
        R (r k) (h' * ∑ l ∈ Finset.Ioo (-(N : Int)) N, Spec.deTerm c.shape.m d1 d u' lam' i j (l * h')) := by
  have hm : 0 < c.shape.m := by have := (shape_good hn hc).m; omega
  refine de_sum_of E H T hn hc hN hh hl err flag big fun de hde l hl t ht t' hR hex => sel_of_turn E hT hI hm hd hd0 h1 hu flag big hne ?_ hR hex
  rcases ht with rfl | rfl
  · exact (hok de hde l hl).1
  · exact (hok de hde l hl).2

/-- Instance: `y^3 = f_4(x)`, two points in two groups, none of them a node (`|u| ≥ 2`). -/
example : ∃ c, secInit 3 4 = .ok c ∧ ∀ k < 2, ∀ l : Int, |l| < (10 : Nat) →
    ((fun k => if k = 0 then 2 else -3 : Nat → ℂ) k) ≠ Spec.dePhi (Real.pi / 2) (l * (1 / 4)) := by
  refine ⟨_, rfl, ?_⟩
  intro k hk l _ heq
  have hlt : Spec.dePhi (Real.pi / 2) (l * (1 / 4)) ^ 2 < 1 := by
    have := one_sub_dePhi_sq (Real.pi / 2) (l * (1 / 4))
    have h2 : 0 < (Real.cosh (Real.pi / 2 * Real.sinh (l * (1 / 4))) ^ 2)⁻¹ :=
      inv_pos.2 (pow_pos (Real.cosh_pos _) 2)
    linarith
  have hre := congrArg Complex.re heq
  rw [Complex.ofReal_re] at hre
  rw [← hre] at hlt
  interval_cases k
  · norm_num at hlt
  · norm_num at hlt

/-! ## C27 -/

theorem deReplace_false {old n cn cg : Nat} : deReplace old n cn cg = false ↔
    old ≠ 0 ∧ toUlong (((old : Int) - n) * (cn + cg)) ≤ toUlong n := by
  unfold deReplace
  simp only [decide_eq_false_iff_not, not_or, not_lt, ne_eq, gt_iff_lt]

theorem deIntInit_n {F : Fns A} {h lam : A} {n : Nat} {err : A → A} {m : Nat} {de : DeInt A}
    (e : deIntInit X F h lam n err m = .ok de) : de.n = n := by
  unfold deIntInit at e
  by_cases h0 : n ≠ 0
  · rw [if_pos h0, wrV_ok (Nat.pos_of_ne_zero h0), wrV_ok (Nat.pos_of_ne_zero h0)] at e
    simp only [Res.ok_bind] at e
    revert e
    cases loopUp (deIntStep X F h lam n m) (n - 1) 1 _ with
    | ok s => intro e; cases e; rfl
    | abort w => intro e; cases e
    | ub w => intro e; cases e
    | diverge => intro e; cases e
  · rw [if_neg h0] at e
    push Not at h0
    cases e
    exact h0.symm

theorem deIntInit_err {F : Fns A} {h lam : A} {n : Nat} {err : A → A} {m : Nat} {de : DeInt A}
    (e : deIntInit X F h lam n err m = .ok de) : de.err = err := by
  unfold deIntInit at e
  by_cases h0 : n ≠ 0
  · rw [if_pos h0, wrV_ok (Nat.pos_of_ne_zero h0), wrV_ok (Nat.pos_of_ne_zero h0)] at e
    simp only [Res.ok_bind] at e
    revert e
    cases loopUp (deIntStep X F h lam n m) (n - 1) 1 _ with
    | ok s => intro e; cases e; rfl
    | abort w => intro e; cases e
    | ub w => intro e; cases e
    | diverge => intro e; cases e
  · rw [if_neg h0] at e
    cases e
    rfl

/-- **C27 (points).** Without `AJ_DE_SAME`, for every history of the scheme (any previous number of points), every arithmetic and every
requirement with `need (n + g + 1) < 2^64`: the scheme used for the edge has at least the required number of points.  When the
previous one is too small the difference wraps around to a huge unsigned number, so that the scheme is recomputed. -/
theorem C27_enough_points (X : Arith A) (F : Fns A) (c : Shape) {flag : Nat} (hflag : flag.testBit 8 = false) (p : DePar A)
    (hc : 0 < c.n + c.g) (hp : p.n * (c.n + c.g + 1) < 2 ^ 64) (de de1 : DeInt A) (h : deScheme X F c flag p de = .ok de1) :
    p.n ≤ de1.n := by
  unfold deScheme at h
  rw [hflag] at h
  simp only [Bool.not_false, Bool.or_true, Bool.true_and] at h
  by_cases hr : deReplace de.n p.n c.n c.g = true
  · rw [if_pos hr] at h
    exact (deIntInit_n h).ge
  · rw [if_neg hr] at h
    cases h
    rw [Bool.not_eq_true, deReplace_false] at hr
    obtain ⟨h0, hle⟩ := hr
    by_contra hlt
    push Not at hlt
    have hpn : p.n < 2 ^ 64 := lt_of_le_of_lt (Nat.le_mul_of_pos_right _ (by omega)) hp
    have e1 : toUlong (p.n : Int) = p.n := by
      unfold toUlong
      rw [Int.emod_eq_of_lt (by omega) (by exact_mod_cast hpn)]
      rfl
    rw [e1] at hle
    obtain ⟨δ, hδ⟩ : ∃ δ : Nat, p.n = de.n + δ := ⟨p.n - de.n, by omega⟩
    have hδ0 : 0 < δ := by omega
    have hprod : δ * (c.n + c.g) + p.n < 2 ^ 64 := by
      have : δ * (c.n + c.g) ≤ p.n * (c.n + c.g) := Nat.mul_le_mul_right _ (by omega)
      have h2 : p.n * (c.n + c.g + 1) = p.n * (c.n + c.g) + p.n := by ring
      omega
    have hpos : 0 < δ * (c.n + c.g) := Nat.mul_pos hδ0 hc
    have hmod : (((de.n : Int) - p.n) * (c.n + c.g)) % (2 ^ 64 : Int) = 2 ^ 64 - (δ * (c.n + c.g) : Nat) := by
      have e2 : (((de.n : Int) - p.n) * (c.n + c.g)) = -((δ * (c.n + c.g) : Nat) : Int) := by
        rw [hδ]; push_cast; ring
      rw [e2]
      have h3 : ((δ * (c.n + c.g) : Nat) : Int) < 2 ^ 64 := by exact_mod_cast (by omega : δ * (c.n + c.g) < 2 ^ 64)
      have h4 : 0 < ((δ * (c.n + c.g) : Nat) : Int) := by exact_mod_cast hpos
      generalize ((δ * (c.n + c.g) : Nat) : Int) = q at h3 h4
      rw [← Int.add_emod_right]
      rw [Int.emod_eq_of_lt (by omega) (by omega)]
      ring
    unfold toUlong at hle
    rw [hmod] at hle
    have h5 : ((2 ^ 64 : Int) - (δ * (c.n + c.g) : Nat)).toNat = 2 ^ 64 - δ * (c.n + c.g) := by omega
    rw [h5] at hle
    omega

/-- Instance: a curve with `n + g = 7`, a scheme of 10 points, requirement 1000. -/
example : deReplace 10 1000 4 3 = true ∧ 1000 * (4 + 3 + 1) < 2 ^ 64 := by decide

/-- **C27 (negation: error bound).** A reused scheme keeps the step and the error bound of the edge it was made for: whenever the previous
number of points is at least the requirement and not much larger, the row does not depend on the step, the scaling or the error bound
required by this edge. -/
theorem C27_bound_of_other_edge (X : Arith A) (T : Tests A) (F : Fns A) (c : Shape) (flag : Nat) (big : Bool) (ye : YData A)
    (p : DePar A) (de : DeInt A) (hpos : 0 < de.n) (h1 : p.n ≤ de.n) (h2 : (de.n - p.n) * (c.n + c.g) ≤ p.n) (h3 : p.n < 2 ^ 64) :
    integralsEdgeDe X T F c flag big ye p de = (do
      let r ← deIntegralsPrecomp X T (c.n + 3) ye.u ye.n1 (c.n - 2) c de flag big
      let r1 ← edgeFactors X c ye.ba2 ye.ab ye.c fun i => if i < c.g then de.err (r i) else r i
      .ok (de, r1)) := by
  have hr : deReplace de.n p.n c.n c.g = false := by
    rw [deReplace_false]
    refine ⟨hpos.ne', ?_⟩
    have e1 : toUlong (p.n : Int) = p.n := by
      unfold toUlong
      rw [Int.emod_eq_of_lt (by omega) (by exact_mod_cast h3)]
      rfl
    have e2 : (((de.n : Int) - p.n) * (c.n + c.g)) = ((de.n - p.n) * (c.n + c.g) : Nat) := by
      push_cast [Nat.cast_sub h1]; ring
    rw [e1, e2]
    unfold toUlong
    rw [Int.emod_eq_of_lt (by omega) (by exact_mod_cast (lt_of_le_of_lt h2 h3))]
    exact h2
  have hs : deScheme X F c flag p de = .ok de := by
    unfold deScheme
    rw [hr, Bool.and_false]
    rfl
  unfold integralsEdgeDe
  rw [hs]
  rfl

/-- **C27 (negation, witness).** Two edges with the same number of points whose error bounds differ: the second row gets the bound `1` of
the first edge, although `5` is required. -/
theorem C27_error_bound_fails (T : Tests ℂ) (ye : YData ℂ) (c : Shape) (flag : Nat) (big : Bool) (N : Nat) (hN : 0 < N)
    (hN2 : N < 2 ^ 64) (h lam : ℂ) :
    ∃ de, deIntInit exact exactFns h lam N (fun z => z + 1) c.m = .ok de ∧
      integralsEdgeDe exact T exactFns c flag big ye ⟨N, h, lam, fun z => z + 5⟩ de = (do
        let r ← deIntegralsPrecomp exact T (c.n + 3) ye.u ye.n1 (c.n - 2) c de flag big
        let r1 ← edgeFactors exact c ye.ba2 ye.ab ye.c fun i => if i < c.g then r i + 1 else r i
        .ok (de, r1)) := by
  have hex : ∃ de, deIntInit exact exactFns h lam N (fun z => z + 1) c.m = .ok de ∧ de.err = fun z => z + 1 := by
    unfold deIntInit
    rw [if_pos hN.ne', wrV_ok hN, wrV_ok hN]
    simp only [Res.ok_bind]
    have key := loopUp_inv (body := deIntStep exact exactFns h lam N c.m) (fun _ _ => True) (N - 1) 1
      ((fun j => if j = 0 then exact.zero else exact.zero), (fun j => if j = 0 then exact.one else exact.zero),
        (fun j => if j = 0 then exact.one else exact.zero)) trivial (by
        rintro k ⟨x, dx, ch⟩ _ hk _
        exact ⟨_, by unfold deIntStep; simp only [wrV_ok (show k < N by omega), Res.ok_bind]; rfl, trivial⟩)
    obtain ⟨s, e, -⟩ := key
    rw [e, Res.ok_bind]
    exact ⟨_, rfl, rfl⟩
  obtain ⟨de, e, he⟩ := hex
  have hn := deIntInit_n e
  refine ⟨de, e, ?_⟩
  rw [C27_bound_of_other_edge exact T exactFns c flag big ye ⟨N, h, lam, fun z => z + 5⟩ de (by omega) hn.ge
    (by simp [hn]) hN2, he]

/-- **C27 (negation: `AJ_DE_SAME`).** With this option the first scheme is used for all edges, whatever they require. -/
theorem C27_same_fails (X : Arith A) (F : Fns A) (c : Shape) {flag : Nat} (hflag : flag.testBit 8 = true) (p : DePar A)
    (de : DeInt A) (h : 0 < de.n) (_hlt : de.n < p.n) : deScheme X F c flag p de = .ok de := by
  unfold deScheme
  rw [hflag, decide_eq_false h.ne']
  rfl

/-! ## C28 -/

/-- **C28 (shape).** For every `m > 2` the curve `y^m = quadratic` has one differential `dx / y^j` per exponent
`j = m - g, …, m - 1`. -/
theorem C28_exponents {m : Int} {c : Sec} (hm : 2 < m) (h : secInit m 2 = .ok c) {p : Nat} (hp : p < c.shape.g) :
    Spec.diffOf c.shape.ni c.shape.j1 p = (0, c.shape.m - c.shape.g + p) ∧ c.shape.g < c.shape.m ∧ c.shape.m = m.toNat := by
  obtain ⟨_, e1, e2, eδ, eg, ej, enj, hnj, eni⟩ := secInit_fields h (by norm_num)
  have hg := shape_good (by norm_num) h
  have hδ : c.delta = if m % 2 = 0 then 2 else 1 := by
    rw [eδ]
    split
    · rename_i h0
      obtain ⟨k, hk⟩ := Int.dvd_of_emod_eq_zero h0
      have : Int.gcd m 2 = 2 := by
        rw [hk]; simp
      rw [this]; rfl
    · rename_i h0
      have : Int.gcd m 2 = 1 := by
        rw [show m = 1 + 2 * (m / 2) by omega]; simp
      rw [this]; rfl
  have hni : ∀ x ∈ c.shape.ni, x = 1 := by
    have hlen : c.shape.ni.length = c.shape.g := by
      show (c.ni.map Int.toNat).length = c.g.toNat
      rw [List.length_map, eni, List.length_map, List.length_range, enj, eg, ej]
      split at hδ <;> rw [hδ] <;> omega
    have hsum := hg.sum
    have hpos := hg.pos
    have gen : ∀ l : List Nat, (∀ k ∈ l, 0 < k) → l.length ≤ l.sum ∧ (l.sum = l.length → ∀ x ∈ l, x = 1) := by
      intro l
      induction l with
      | nil => intro _; simp
      | cons a l ih =>
        intro hp
        obtain ⟨i1, i2⟩ := ih fun k hk => hp k (List.mem_cons_of_mem _ hk)
        have ha := hp a List.mem_cons_self
        simp only [List.sum_cons, List.length_cons]
        refine ⟨by omega, fun he x hx => ?_⟩
        rcases List.mem_cons.1 hx with rfl | hx
        · omega
        · exact i2 (by omega) x hx
    exact (gen _ hpos).2 (by rw [hsum, hlen])
  have hj1 : c.shape.j1 = c.shape.m - c.shape.g ∧ c.shape.g < c.shape.m := by
    show c.j1.toNat = c.m.toNat - c.g.toNat ∧ c.g.toNat < c.m.toNat
    rw [eg, ej, e1]
    split at hδ <;> rw [hδ] <;> constructor <;> omega
  have gen : ∀ (l : List Nat) (j p : Nat), (∀ x ∈ l, x = 1) → p < l.sum → Spec.diffOf l j p = (0, j + p) := by
    intro l
    induction l with
    | nil => intro j p _ h; simp at h
    | cons a l ih =>
      intro j p hl hp
      have ha := hl a List.mem_cons_self
      subst ha
      unfold Spec.diffOf
      by_cases h0 : p < 1
      · rw [if_pos h0]
        have : p = 0 := by omega
        subst this; rfl
      · rw [if_neg h0, ih _ _ (fun x hx => hl x (List.mem_cons_of_mem _ hx)) (by
          simp only [List.sum_cons] at hp; omega)]
        congr 1
        omega
  refine ⟨?_, hj1.2, by show c.m.toNat = _; rw [e1]⟩
  rw [gen _ _ _ hni (by rw [hg.sum]; exact hp), hj1.1]

/-- **C28.** For every `m > 2`, on balls: before the edge factors, the cell of `dx / y^j` contains `∫_{-1}^{1} (1 - u^2)^(-j/m) du`; all
cells are written, in range. -/
theorem C28_closed_form (E : Encloses X exact R) {F : Fns A} (H : EnclosesFns F exactFns R) {m : Int} {c : Sec} (hm : 2 < m)
    (h : secInit m 2 = .ok c) :
    ∃ r, integralD2Vals X F c.shape = .ok r ∧ (∀ p, ∃ z, R (r p) z) ∧ ∀ p j, p < c.shape.g → Spec.diffOf c.shape.ni c.shape.j1 p = (0, j) →
      R (r p) (∫ u in (-1 : ℝ)..1, ((1 - u ^ 2 : ℝ) : ℂ) ^ (-(j : ℂ) / c.shape.m)) := by
  unfold integralD2Vals
  have key := loopUp_inv (body := fun p res => do
      let j := c.shape.g - p
      let r := X.mul F.sqrtPi (F.gammaQ j c.shape.m)
      wrV c.shape.g res p (X.div r (F.gammaQ (2 * j + c.shape.m) (2 * c.shape.m))))
    (fun k r => (∀ p, ∃ z, R (r p) z) ∧ ∀ p < k, p < c.shape.g → R (r p) (Real.sqrt Real.pi * Complex.Gamma (((c.shape.g - p : Nat) : ℂ) / c.shape.m) /
      Complex.Gamma (((2 * (c.shape.g - p) + c.shape.m : Nat) : ℂ) / (2 * c.shape.m : Nat)))) c.shape.g 0 (fun _ => X.zero)
    ⟨fun _ => ⟨_, E.zero⟩, by intro p hp; omega⟩ (by
      rintro p r _ hp ⟨hr0, hr⟩
      refine ⟨_, by dsimp only; rw [wrV_ok (show p < c.shape.g by omega)], fun q => ?_, fun q hq hq2 => ?_⟩
      · split
        · exact ⟨_, E.div (E.mul H.sqrtPi (H.gammaQ _ _)) (H.gammaQ _ _)⟩
        · exact hr0 q
      by_cases hpq : q = p
      · subst hpq
        rw [if_pos rfl]
        exact E.div (E.mul H.sqrtPi (H.gammaQ _ _)) (H.gammaQ _ _)
      · rw [if_neg hpq]
        exact hr q (by omega) hq2)
  obtain ⟨r, e, hr0, hr⟩ := key
  refine ⟨r, e, hr0, fun p j hp hj => ?_⟩
  obtain ⟨h1, h2, h3⟩ := C28_exponents hm h hp
  rw [h1] at hj
  simp only [Prod.mk.injEq, true_and] at hj
  have hcm : 0 < c.shape.m := by omega
  have hm0 : (c.shape.m : ℝ) ≠ 0 := by exact_mod_cast hcm.ne'
  have hs : 0 < ((c.shape.g - p : Nat) : ℝ) / c.shape.m := by
    apply div_pos
    · exact_mod_cast (by omega : 0 < c.shape.g - p)
    · exact_mod_cast hcm
  have hint := integral_one_sub_sq hs
  have := hr p (by omega) hp
  have hexp : ((((c.shape.g - p : Nat) : ℝ) / c.shape.m : ℝ) : ℂ) - 1 = -(j : ℂ) / c.shape.m := by
    have hm1 : (c.shape.m : ℂ) ≠ 0 := by exact_mod_cast hcm.ne'
    rw [← hj]
    push_cast [Nat.cast_sub hp.le, Nat.cast_sub h2.le]
    field_simp
    ring
  rw [hexp] at hint
  rw [hint]
  convert! this using 2
  · push_cast; rfl
  · congr 1
    have hm1 : (c.shape.m : ℂ) ≠ 0 := by exact_mod_cast hcm.ne'
    push_cast
    field_simp

/-- **C28 (edge).** On exact numbers the row of the only edge `(a, b)` holds, for each differential `dx / y^j`,
`(1 - zeta^-j) C^-j ∫_{-1}^{1} ((1-u^2)^(1/m))^-j x'(u) du`, with `x'(u) = (b-a)/2`. -/
theorem C28_edge {m : Int} {c : Sec} (hm : 2 < m) (h : secInit m 2 = .ok c) (a b cab : ℂ) :
    ∃ r y, integralD2Vals exact exactFns c.shape = .ok r ∧
      edgeFactors exact c.shape ((b - a) / 2) ((a + b) / (b - a)) cab r = .ok y ∧
      ∀ p j, p < c.shape.g → Spec.diffOf c.shape.ni c.shape.j1 p = (0, j) →
        y p = (1 - (Spec.zeta c.shape.m ^ j)⁻¹) / cab ^ j *
          ∫ u in (-1 : ℝ)..1, ((1 - u ^ 2 : ℝ) : ℂ) ^ (-(j : ℂ) / c.shape.m) * ((b - a) / 2) := by
  obtain ⟨r, e, -, hr⟩ := C28_closed_form exact_encloses exactFns_encloses hm h
  obtain ⟨y, ey, hy⟩ := C19_edge_factors (by norm_num) h ((b - a) / 2) ((a + b) / (b - a)) cab r
  refine ⟨r, y, e, ey, fun p j hp hj => ?_⟩
  rw [hy p 0 j hp hj, intervalIntegral.integral_mul_const, ← hr p j hp hj]
  simp
  ring

/-- Instance: `y^5 = f_2(x)`, genus `2`, exponents `3` and `4`. -/
example : ∃ c, secInit 5 2 = .ok c ∧ c.shape.g = 2 ∧ Spec.diffOf c.shape.ni c.shape.j1 1 = (0, 4) :=
  ⟨_, rfl, by decide, by decide⟩

end Hcp
