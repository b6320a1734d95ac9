import Verif.Props.Affine
import Verif.Props.DeTau

/-!
# C87: `tau` after an affine change of the variable
-/

namespace Hcp

open Set Spec MeasureTheory

variable {x : Nat → ℂ} {m n : Nat}

theorem edgePt_moved (a b p q : ℂ) (t : ℂ) : edgePt (a * p + b) (a * q + b) t = a * edgePt p q t + b := by
  unfold edgePt
  ring

/-- the differentials are integrable along the edges -/
theorem branch_integrable (hx : InjOn x (Iio n)) {a b : Nat} (ha : a < n) (hb : b < n) (hab : a ≠ b) (hfree : ∀ k < n, k ≠ a → k ≠ b → ∀ t : ℝ, -1 ≤ t → t ≤ 1 → x k ≠ edgePt (x a) (x b) t)
    {Y : ℝ → ℂ} (hY : IsBranchM m n x (x a) (x b) Y) {j : Nat} (hj : j < m) (i : Nat) : IntervalIntegrable (fun t : ℝ => edgePt (x a) (x b) t ^ i / Y t ^ j * ((x b - x a) / 2)) volume (-1) 1 := by
  have hm0 : (0 : ℝ) < m := by exact_mod_cast (by omega : 0 < m)
  let S := ((Finset.range n).erase a).erase b
  let q : ℝ → ℂ := fun t => ∏ k ∈ S, (edgePt (x a) (x b) t - x k)
  have hE : Continuous fun t : ℝ => edgePt (x a) (x b) t := by
    unfold edgePt
    fun_prop
  have hq : Continuous q := continuous_finsetProd _ fun k _ => hE.sub continuous_const
  have hba : x b - x a ≠ 0 := sub_ne_zero.2 fun h => hab (hx hb ha h).symm
  have hprod : ∀ t : ℝ, ∏ k ∈ Finset.range n, (edgePt (x a) (x b) t - x k) = -((1 - (t : ℂ) ^ 2) * ((x b - x a) / 2) ^ 2 * q t) := by
    intro t
    rw [← Finset.mul_prod_erase _ _ (Finset.mem_range.2 ha), ← Finset.mul_prod_erase _ _ (Finset.mem_erase.2 ⟨hab.symm, Finset.mem_range.2 hb⟩)]
    show (edgePt (x a) (x b) t - x a) * ((edgePt (x a) (x b) t - x b) * q t) = _
    unfold edgePt
    ring
  have hq0 : ∀ t ∈ Icc (-1 : ℝ) 1, q t ≠ 0 := fun t ht => Finset.prod_ne_zero_iff.2 fun k hk => by
    obtain ⟨k1, k2⟩ := Finset.mem_erase.1 hk
    obtain ⟨k2, k3⟩ := Finset.mem_erase.1 k2
    exact sub_ne_zero.2 (hfree k (Finset.mem_range.1 k3) k2 k1 t ht.1 ht.2).symm
  obtain ⟨t0, ht0, hmin⟩ := isCompact_Icc.exists_isMinOn (nonempty_Icc.2 (by norm_num : (-1 : ℝ) ≤ 1)) hq.norm.continuousOn
  obtain ⟨t1, ht1, hmax⟩ := isCompact_Icc.exists_isMaxOn (nonempty_Icc.2 (by norm_num : (-1 : ℝ) ≤ 1)) (hE.pow i).norm.continuousOn
  let κ : ℝ := ‖(x b - x a) / 2‖ ^ 2 * ‖q t0‖
  have hκ : 0 < κ := mul_pos (pow_pos (norm_pos_iff.2 (div_ne_zero hba two_ne_zero)) 2) (norm_pos_iff.2 (hq0 t0 ht0))
  have hlow : ∀ t ∈ Ioo (-1 : ℝ) 1, (κ * (1 - t ^ 2)) ^ ((j : ℝ) / m) ≤ ‖Y t‖ ^ j := by
    intro t ht
    have ht' : t ∈ Icc (-1 : ℝ) 1 := ⟨ht.1.le, ht.2.le⟩
    have hw : 0 < 1 - t ^ 2 := by nlinarith [ht.1, ht.2]
    have h1 : κ * (1 - t ^ 2) ≤ ‖Y t‖ ^ m := by
      rw [← norm_pow, hY.2 t ht', hprod, norm_neg, norm_mul, norm_mul, norm_pow, show ‖1 - (t : ℂ) ^ 2‖ = 1 - t ^ 2 by
        rw [show (1 - (t : ℂ) ^ 2) = ((1 - t ^ 2 : ℝ) : ℂ) by push_cast; rfl, Complex.norm_real, Real.norm_of_nonneg hw.le]]
      have := mul_le_mul_of_nonneg_left (hmin ht') (mul_nonneg hw.le (pow_nonneg (norm_nonneg ((x b - x a) / 2)) 2))
      refine le_trans (le_of_eq ?_) this
      show ‖(x b - x a) / 2‖ ^ 2 * ‖q t0‖ * (1 - t ^ 2) = _
      ring
    calc (κ * (1 - t ^ 2)) ^ ((j : ℝ) / m) ≤ (‖Y t‖ ^ m) ^ ((j : ℝ) / m) := Real.rpow_le_rpow (mul_pos hκ hw).le h1 (by positivity)
      _ = ‖Y t‖ ^ j := by
        rw [← Real.rpow_natCast, ← Real.rpow_mul (norm_nonneg _), mul_div_cancel₀ _ hm0.ne', Real.rpow_natCast]
  have hYne : ∀ t ∈ Ioo (-1 : ℝ) 1, Y t ≠ 0 := by
    intro t ht h
    have hw : (1 - (t : ℂ) ^ 2) ≠ 0 := by
      have : (0 : ℝ) < 1 - t ^ 2 := by nlinarith [ht.1, ht.2]
      exact_mod_cast this.ne'
    have h1 := hY.2 t ⟨ht.1.le, ht.2.le⟩
    rw [h, zero_pow (by omega), hprod] at h1
    exact neg_ne_zero.2 (mul_ne_zero (mul_ne_zero hw (pow_ne_zero 2 (div_ne_zero hba two_ne_zero))) (hq0 t ⟨ht.1.le, ht.2.le⟩)) h1.symm
  have hgi := (one_sub_sq_rpow_integrable (a := (j : ℝ) / m) (by rw [div_lt_one hm0]; exact_mod_cast hj)).const_mul (‖edgePt (x a) (x b) t1 ^ i‖ * ‖(x b - x a) / 2‖ * κ ^ (-((j : ℝ) / m)))
  refine hgi.mono_fun' ?_ ?_
  · rw [uIoc_of_le (by norm_num), ← Measure.restrict_congr_set Ioo_ae_eq_Ioc]
    refine ContinuousOn.aestronglyMeasurable ?_ measurableSet_Ioo
    exact ((hE.pow i).continuousOn.div ((hY.1.mono Ioo_subset_Icc_self).pow j) fun t ht => pow_ne_zero j (hYne t ht)).mul continuousOn_const
  · rw [uIoc_of_le (by norm_num), ← Measure.restrict_congr_set Ioo_ae_eq_Ioc]
    refine (ae_restrict_iff' measurableSet_Ioo).2 (Filter.Eventually.of_forall fun t ht => ?_)
    have hw : 0 < 1 - t ^ 2 := by nlinarith [ht.1, ht.2]
    have hl := hlow t ht
    have hp : 0 < (κ * (1 - t ^ 2)) ^ ((j : ℝ) / m) := Real.rpow_pos_of_pos (mul_pos hκ hw) _
    dsimp only
    rw [norm_mul, norm_div, norm_pow (Y t)]
    calc ‖edgePt (x a) (x b) t ^ i‖ / ‖Y t‖ ^ j * ‖(x b - x a) / 2‖ ≤ ‖edgePt (x a) (x b) t1 ^ i‖ / (κ * (1 - t ^ 2)) ^ ((j : ℝ) / m) * ‖(x b - x a) / 2‖ := by
          refine mul_le_mul_of_nonneg_right ?_ (norm_nonneg _)
          exact div_le_div₀ (norm_nonneg _) (hmax ⟨ht.1.le, ht.2.le⟩) hp hl
      _ = _ := by
          rw [Real.mul_rpow hκ.le hw.le, Real.rpow_neg hκ.le, Real.rpow_neg hw.le]
          field_simp

/-- coefficient of `x^l dx / y^j` in the form `x^i dx / y^j` after the change of variable -/
noncomputable def formCoeff (a b ρ : ℂ) (i j l : Nat) : ℂ := (i.choose l : ℂ) * a ^ (l + 1) * b ^ (i - l) * (ρ ^ j)⁻¹

theorem segIntM_moved (hx : InjOn x (Iio n)) {p q : Nat} (hp : p < n) (hq : q < n) (hpq : p ≠ q) (hfree : ∀ k < n, k ≠ p → k ≠ q → ∀ t : ℝ, -1 ≤ t → t ≤ 1 → x k ≠ edgePt (x p) (x q) t)
    {Y : ℝ → ℂ} (hY : IsBranchM m n x (x p) (x q) Y) {j : Nat} (hj : j < m) (i : Nat) (a b ρ : ℂ) :
    segIntM (moved a b x p) (moved a b x q) i j (fun t => ρ * Y t) = ∑ l ∈ Finset.range (i + 1), formCoeff a b ρ i j l * segIntM (x p) (x q) l j Y := by
  unfold segIntM
  simp only [← intervalIntegral.integral_const_mul]
  rw [← intervalIntegral.integral_finsetSum fun l _ => (branch_integrable hx hp hq hpq hfree hY hj l).const_mul _]
  refine intervalIntegral.integral_congr fun t _ => ?_
  show edgePt (a * x p + b) (a * x q + b) t ^ i / (ρ * Y t) ^ j * ((a * x q + b - (a * x p + b)) / 2) = _
  rw [edgePt_moved, add_pow, Finset.sum_div, Finset.sum_mul]
  refine Finset.sum_congr rfl fun l _ => ?_
  unfold formCoeff
  rw [mul_pow, mul_pow, div_eq_mul_inv, div_eq_mul_inv, mul_inv]
  ring

/-- the closed paths over an edge: all sheets give multiples of the same integral -/
theorem cycleIntM_seg (m : Nat) (a b : ℂ) (i j : Nat) (Y : ℝ → ℂ) (s : Nat) : cycleIntM m a b i j Y s = (((zeta m ^ s) ^ j)⁻¹ - ((zeta m ^ (s + 1)) ^ j)⁻¹) * segIntM a b i j Y := by
  unfold cycleIntM
  rw [segIntM_smul, segIntM_smul, sub_mul]

/-- the edges join distinct branch points, meet no other one and carry determinations of `y` -/
def GoodEdges (m n : Nat) (x : Nat → ℂ) (es : List (Edge ℝ)) (Y : Nat → ℝ → ℂ) : Prop :=
  ∀ (k : Nat) (ed : Edge ℝ), es[k]? = some ed → ed.a < n ∧ ed.b < n ∧ ed.a ≠ ed.b ∧ IsBranchM m n x (x ed.a) (x ed.b) (Y k)

theorem loopPeriodM_moved (hx : InjOn x (Iio n)) {es : List (Edge ℝ)} {Y : Nat → ℝ → ℂ} (hE : GoodEdges m n x es Y) (hfree : FreeEdges x n es) {j : Nat} (hj : j < m) (i : Nat) (a b ρ : ℂ) (l : List Gamma) :
    loopPeriodM m (moved a b x) es (fun k t => ρ * Y k t) i j l = ∑ e ∈ Finset.range (i + 1), formCoeff a b ρ i j e * loopPeriodM m x es Y e j l := by
  unfold loopPeriodM
  induction l with
  | nil => simp
  | cons t l ih =>
    simp only [List.map_cons, List.sum_cons]
    rw [ih]
    simp only [mul_add, Finset.sum_add_distrib]
    congr 1
    cases h : es[t.index]? with
    | none => simp
    | some ed =>
      obtain ⟨h1, h2, h3, h4⟩ := hE _ _ h
      dsimp only
      simp only [cycleIntM_seg]
      rw [segIntM_moved hx h1 h2 h3 (hfree ed (List.mem_of_getElem? h)) h4 hj, Finset.mul_sum, Finset.mul_sum]
      exact Finset.sum_congr rfl fun e _ => by ring

/-- **C87, periods.** With `x_k` replaced by `a x_k` and `y` by `ρ y`, the periods of `x^i dx / y^j` over all loops are multiplied by `a^(i+1) / ρ^j`; with `x_k + b` and the same `y`, the period of `x^i dx / y^j` is the sum of those of `binom(i, l) b^(i-l) x^l dx / y^j`. -/
theorem C87_periods (hx : InjOn x (Iio n)) {es : List (Edge ℝ)} {Y : Nat → ℝ → ℂ} (hE : GoodEdges m n x es Y) (hfree : FreeEdges x n es) {j : Nat} (hj : j < m) (i : Nat) (l : List Gamma) :
    (∀ a ρ : ℂ, loopPeriodM m (fun k => a * x k) es (fun k t => ρ * Y k t) i j l = a ^ (i + 1) / ρ ^ j * loopPeriodM m x es Y i j l) ∧
      ∀ b : ℂ, loopPeriodM m (fun k => x k + b) es Y i j l = ∑ e ∈ Finset.range (i + 1), (i.choose e : ℂ) * b ^ (i - e) * loopPeriodM m x es Y e j l := by
  refine ⟨fun a ρ => ?_, fun b => ?_⟩
  · have h := loopPeriodM_moved hx hE hfree hj i a 0 ρ l
    rw [show moved a 0 x = fun k => a * x k from funext fun k => add_zero _] at h
    rw [h, Finset.sum_eq_single i]
    · unfold formCoeff
      rw [Nat.choose_self, Nat.sub_self, pow_zero, div_eq_mul_inv]
      push_cast
      ring
    · intro e he hne
      have : i - e ≠ 0 := by
        have := Finset.mem_range.1 he
        omega
      unfold formCoeff
      rw [zero_pow this]
      ring
    · intro h
      exact absurd (Finset.mem_range.2 (Nat.lt_succ_self i)) h
  · have h := loopPeriodM_moved hx hE hfree hj i 1 b 1 l
    rw [show moved 1 b x = fun k => x k + b from funext fun k => by unfold moved; rw [one_mul]] at h
    simp only [one_mul] at h
    rw [h]
    refine Finset.sum_congr rfl fun e _ => ?_
    unfold formCoeff
    simp

/-- the rows of the differentials `x^l dx / y^j`, `l ≤ i` -/
theorem row_below {c : Shape} (hc : c.Good) {r i j : Nat} (hr : r < c.g) (h : diffOf c.ni c.j1 r = (i, j)) {l : Nat} (hl : l ≤ i) : ∃ s < c.g, diffOf c.ni c.j1 s = (l, j) := by
  obtain ⟨k, nij, i', h1, h2, h3, h4⟩ := diffOf_spec c.ni c.j1 r (by rw [hc.sum]; exact hr)
  obtain ⟨rfl, rfl⟩ := Prod.mk.inj (h.symm.trans h4)
  refine ⟨(c.ni.take k).sum + l, ?_, diffOf_block _ _ _ _ _ h1 (by omega)⟩
  omega

theorem tau_moved (hn : 2 ≤ n) (hx : InjOn x (Iio n)) {c : Sec} (hc : secInit m n = .ok c) {es : List (Edge ℝ)} {Y : Nat → ℝ → ℂ} (hE : GoodEdges m n x es Y) (hfree : FreeEdges x n es) (a b ρ : ℂ) (la lb : List (List Gamma))
    (tau : Matrix (Fin c.shape.g) (Fin c.shape.g) ℂ) (h : periodsOf m x es Y c.shape la * tau = periodsOf m x es Y c.shape lb) :
    periodsOf m (moved a b x) es (fun k t => ρ * Y k t) c.shape la * tau = periodsOf m (moved a b x) es (fun k t => ρ * Y k t) c.shape lb := by
  have hg := shape_good (by exact_mod_cast hn : (2 : Int) ≤ n) hc
  ext r k
  have hb := diffOf_bounds hn hc r.2
  obtain ⟨i, j, hij⟩ : ∃ i j, diffOf c.shape.ni c.shape.j1 r = (i, j) := ⟨_, _, rfl⟩
  rw [hij] at hb
  have hent : ∀ ls : List (List Gamma), ∀ q : Fin c.shape.g, periodsOf m (moved a b x) es (fun k t => ρ * Y k t) c.shape ls r q = ∑ e ∈ Finset.range (i + 1), formCoeff a b ρ i j e * loopPeriodM m x es Y e j (ls.getD q []) := by
    intro ls q
    show loopPeriodM m (moved a b x) es (fun k t => ρ * Y k t) (diffOf c.shape.ni c.shape.j1 r).1 (diffOf c.shape.ni c.shape.j1 r).2 (ls.getD q []) = _
    rw [hij]
    exact loopPeriodM_moved hx hE hfree hb.2.1 i a b ρ _
  rw [Matrix.mul_apply, hent]
  simp only [hent, Finset.sum_mul]
  rw [Finset.sum_comm]
  refine Finset.sum_congr rfl fun e he => ?_
  obtain ⟨s, hs, hse⟩ := row_below hg r.2 hij (Nat.lt_succ_iff.1 (Finset.mem_range.1 he))
  have := congrFun (congrFun h ⟨s, hs⟩) k
  rw [Matrix.mul_apply] at this
  have hpe : ∀ ls : List (List Gamma), ∀ q : Fin c.shape.g, periodsOf m x es Y c.shape ls ⟨s, hs⟩ q = loopPeriodM m x es Y e j (ls.getD q []) := fun ls q => by
    show loopPeriodM m x es Y (diffOf c.shape.ni c.shape.j1 s).1 (diffOf c.shape.ni c.shape.j1 s).2 (ls.getD q []) = _
    rw [hse]
  simp only [hpe] at this
  rw [← this, Finset.mul_sum]
  exact Finset.sum_congr rfl fun q _ => by ring

theorem moved_inj {a : ℂ} (ha : a ≠ 0) (b : ℂ) (hx : InjOn x (Iio n)) : InjOn (moved a b x) (Iio n) := fun _ hi _ hj h => hx hi hj (mul_left_cancel₀ ha (add_right_cancel h))

theorem moved_free {a : ℂ} (ha : a ≠ 0) (b : ℂ) {es : List (Edge ℝ)} (h : FreeEdges x n es) : FreeEdges (moved a b x) n es := fun f hf k hk k1 k2 t t1 t2 e => by
  have e' : a * x k + b = edgePt (a * x f.a + b) (a * x f.b + b) t := e
  rw [edgePt_moved] at e'
  exact h f hf k hk k1 k2 t t1 t2 (mul_left_cancel₀ ha (add_right_cancel e'))

theorem moved_good {a ρ : ℂ} (b : ℂ) (hρ : ρ ^ m = a ^ n) {es : List (Edge ℝ)} {Y : Nat → ℝ → ℂ} (h : GoodEdges m n x es Y) : GoodEdges m n (moved a b x) es fun k t => ρ * Y k t := fun k ed hed => by
  obtain ⟨h1, h2, h3, h4, h5⟩ := h k ed hed
  refine ⟨h1, h2, h3, continuousOn_const.mul h4, fun t ht => ?_⟩
  show (ρ * Y k t) ^ m = ∏ l ∈ Finset.range n, (edgePt (a * x ed.a + b) (a * x ed.b + b) t - (a * x l + b))
  rw [mul_pow, h5 t ht, hρ, edgePt_moved]
  simp only [show ∀ l, a * edgePt (x ed.a) (x ed.b) t + b - (a * x l + b) = a * (edgePt (x ed.a) (x ed.b) t - x l) from fun l => by ring]
  rw [Finset.prod_mul_distrib, Finset.prod_const, Finset.card_range]

/-- **C87, `tau`.** Let the branch points be moved by `z ↦ a z + b`, `a ≠ 0`, and `y` be multiplied by `ρ` with `ρ^m = a^n`.  The determinations `ρ Y` are determinations for the new curve, and for all lists of loops `la`, `lb`
the equations `omega0 tau = omega1` of the two curves have the same solutions `tau`. -/
theorem C87_tau (hm : 2 ≤ m) (hn : 2 ≤ n) (hx : InjOn x (Iio n)) {c : Sec} (hc : secInit m n = .ok c) {es : List (Edge ℝ)} {Y : Nat → ℝ → ℂ} (hE : GoodEdges m n x es Y) (hfree : FreeEdges x n es)
    {a ρ : ℂ} (ha : a ≠ 0) (b : ℂ) (hρ : ρ ^ m = a ^ n) :
    GoodEdges m n (moved a b x) es (fun k t => ρ * Y k t) ∧ ∀ (la lb : List (List Gamma)) (tau : Matrix (Fin c.shape.g) (Fin c.shape.g) ℂ),
      periodsOf m (moved a b x) es (fun k t => ρ * Y k t) c.shape la * tau = periodsOf m (moved a b x) es (fun k t => ρ * Y k t) c.shape lb ↔ periodsOf m x es Y c.shape la * tau = periodsOf m x es Y c.shape lb := by
  refine ⟨moved_good b hρ hE, fun la lb tau => ⟨fun h => ?_, tau_moved hn hx hc hE hfree a b ρ la lb tau⟩⟩
  have hρ0 : ρ ≠ 0 := fun h => by
    rw [h, zero_pow (by omega)] at hρ
    exact pow_ne_zero n ha hρ.symm
  have h' := tau_moved hn (moved_inj ha b hx) hc (moved_good b hρ hE) (moved_free ha b hfree) a⁻¹ (-(a⁻¹ * b)) ρ⁻¹ la lb tau h
  have hxx : moved a⁻¹ (-(a⁻¹ * b)) (moved a b x) = x := funext fun k => by
    show a⁻¹ * (a * x k + b) + -(a⁻¹ * b) = x k
    field_simp
    ring
  have hYY : (fun k t => ρ⁻¹ * (ρ * Y k t)) = Y := funext fun k => funext fun t => inv_mul_cancel_left₀ hρ0 _
  rw [hxx, hYY] at h'
  exact h'

theorem moved_plain {a : ℂ} (ha : a ≠ 0) (b : ℂ) {es : List (Edge ℝ)} (h : PlainEdges x es) : PlainEdges (moved a b x) es := fun k l f g hkl hf hg s t s1 s2 t1 t2 e => by
  have e' : edgePt (a * x f.a + b) (a * x f.b + b) s = edgePt (a * x g.a + b) (a * x g.b + b) t := e
  rw [edgePt_moved, edgePt_moved] at e'
  exact h k l f g hkl hf hg s t s1 s2 t1 t2 (mul_left_cancel₀ ha (add_right_cancel e'))

theorem storedY_moved {r : ℝ} {es : List (Edge ℝ)} {x' : Nat → ℂ} {data data' : List (YData (Set ℂ))} {u u' : Nat → Nat → ℂ} (hl : data.length = es.length) (hs : List.Forall₂ (Scaled r m n) data data')
    (hu : ExactData (fun s z => s = {z}) m n x es data u) (hu' : ExactData (fun s z => s = {z}) m n x' es data' u') :
    storedY m n data' u' = fun k t => (cabScale r n m : ℂ) * storedY m n data u k t := by
  funext k t
  unfold storedY
  by_cases hk : k < data.length
  · have hk' : k < data'.length := hs.length_eq ▸ hk
    have sc1 : Scaled r m n data[k] data'[k] := hs.get hk hk'
    obtain ⟨n1, p1, hED⟩ := hu k _ _ (List.getElem?_eq_getElem (hl ▸ hk)) (List.getElem?_eq_getElem hk)
    obtain ⟨n1', p1', -⟩ := hu' k _ _ (List.getElem?_eq_getElem (hl ▸ hk)) (List.getElem?_eq_getElem hk')
    rw [List.getElem?_eq_getElem hk, List.getElem?_eq_getElem hk']
    have hpt : ∀ i < n - 2, u' k i = u k i := fun i hi => by
      have := sc1.pts i hi
      rw [p1, p1', singleton_eq_singleton_iff] at this
      exact this
    have hcc : u' k n = cabScale r n m * u k n := by
      have := sc1.c
      unfold YData.c at this
      rw [n1, n1', p1, p1', show sc (cabScale r n m) {u k n} = {(cabScale r n m : ℂ) * u k n} from image_singleton, singleton_eq_singleton_iff] at this
      exact this
    have hy : edgeY m data[k].n1 (n - 2) (u' k) t = edgeY m data[k].n1 (n - 2) (u k) t := by
      unfold edgeY
      congr 1
      · exact Finset.prod_congr rfl fun i hi => by rw [hpt i (lt_of_lt_of_le (Finset.mem_range.1 hi) hED.n1_le)]
      · exact Finset.prod_congr rfl fun i hi => by rw [hpt i (Finset.mem_Ico.1 hi).2]
    dsimp only
    unfold branchY
    rw [sc1.n1, hcc, hy]
    ring
  · rw [List.getElem?_eq_none (not_lt.1 hk), List.getElem?_eq_none (hs.length_eq ▸ not_lt.1 hk)]
    simp

variable {sort : List (Edge ℝ) → List (Edge ℝ)} {ord : List (Edge ℝ) → List Nat}

/-- `tau` as it is computed for the branch points `y_k`, loops `la`, `lb`, converges to the matrix `T0`: at every precision from `P0` on, `tau_matrix` succeeds and is within `K 2^(-prec/(m-1))` of `T0`; a call of `abel_jacobi_compute` which returns without `tau`
returns with it, and it is as close. -/
def TauTendsTo (y : Nat → ℂ) (lam : ℝ) (sort : List (Edge ℝ) → List (Edge ℝ)) (ord : List (Edge ℝ) → List Nat) (m2 : ℝ → ℝ) (m : Nat) (c : Sec) (flag : Nat) (tr : Tree ℝ) (data : List (YData (Set ℂ))) (la lb : List (List Gamma))
    (T0 : Matrix (Fin c.shape.g) (Fin c.shape.g) ℂ) : Prop :=
  ∃ (K : ℝ) (P0 : Nat),
    (∀ (prec : Int) (fuel : Nat) (I om0 om1 : Nat → Nat → Set ℂ), 2 ≤ prec → P0 ≤ prec → ajIntegrals (idealDe y lam sort ord lam m2) fuel c.shape (flag ||| ajNoTau) prec .de tr.e data = .ok I →
      periodMatrix setArith c.shape la tr.e.length I = .ok om0 → periodMatrix setArith c.shape lb tr.e.length I = .ok om1 →
        ∃ t : Set (Matrix (Fin c.shape.g) (Fin c.shape.g) ℂ), tauMatrix setMat (n := c.shape.g) (m := c.shape.g) (matBox c.shape.g om0) (matBox c.shape.g om1) = .ok t ∧
          (∀ T ∈ t, ∀ i k, ‖T i k - T0 i k‖ ≤ K * 2 ^ (-(prec / (m - 1) : ℝ))) ∧ ((∀ ρ, 0 ≤ m2 ρ) → t.Nonempty)) ∧
    ∀ (prec : Int) (fuel : Nat) (out : AjOut (Set ℂ) ℝ setMat c.shape.g), ajRun (idealDe y lam sort ord lam m2) fuel c (flag ||| ajNoTau) prec (treeInit (WOps.ofOrder (-1)) (treeEdges c).toNat) = .ok out → P0 ≤ out.intprec →
      out.tree = tr ∧ out.loopA = la ∧ out.loopB = lb ∧ ∃ t : Set (Matrix (Fin c.shape.g) (Fin c.shape.g) ℂ),
        ajRun (idealDe y lam sort ord lam m2) fuel c flag prec (treeInit (WOps.ofOrder (-1)) (treeEdges c).toNat) = .ok { out with tau := some t } ∧
          (∀ T ∈ t, ∀ i k, ‖T i k - T0 i k‖ ≤ K * 2 ^ (-(out.intprec / (m - 1) : ℝ))) ∧ ((∀ ρ, 0 ≤ m2 ρ) → t.Nonempty)

/-- **C87, computed `tau`.** Take `n ≥ 3` distinct branch points known exactly and options which select the double-exponential rule.  For `x_k` and `r x_k + d`, `r > 0`, the tree is the same, the loops are the same, and, when the edges meet only at common ends, the
computed matrices `tau` converge to the same Riemann matrix. -/
theorem C87_same_tau (hs : SortsByR sort) (ho : OrdersByR ord) {lam : ℝ} (hlam : 0 < lam) (hlam2 : lam ≤ Real.pi / 2) (m2 : ℝ → ℝ) (hm : 2 ≤ m) (hn : 3 ≤ n) (hx : InjOn x (Iio n))
    {c : Sec} (hc : secInit m n = .ok c) {flag : Nat} (hty : intType flag c.m c.n = .de) (hni : flag &&& ajNoInt = 0) (hna : flag &&& ajNoAb = 0) (hnt : flag &&& ajNoTau = 0) (hroot : RootsDefault flag n) {r : ℝ} (hr : 0 < r) (d : ℂ) :
    ∃ (tr : Tree ℝ) (data data' : List (YData (Set ℂ))), spanningTreeOf (exactCOps lam) (WOps.ofOrder (-1)) sort x (treeInit (WOps.ofOrder (-1)) (treeEdges c).toNat) n .de = .ok tr ∧
      spanningTreeOf (exactCOps lam) (WOps.ofOrder (-1)) sort (moved r d x) (treeInit (WOps.ofOrder (-1)) (treeEdges c).toNat) n .de = .ok tr ∧ GrowsAsTree (tr.e.map fun f => (f.a, f.b)) ∧ (∀ ed ∈ tr.e, ed.a < n ∧ ed.b < n) ∧ FreeEdges x n tr.e ∧
      treeYdataInit setArith sndTests (fun k => {x k}) n m tr.e = .ok data ∧ treeYdataInit setArith sndTests (fun k => {moved r d x k}) n m tr.e = .ok data' ∧
      ∀ (fuel : Nat) (la lb : List (List Gamma)), PlainEdges x tr.e → symplecticBasis XGcd.std fuel (shiftOracle setArith sndTests data m) tr.e m c.shape.g = .ok (la, lb) →
        symplecticBasis XGcd.std fuel (shiftOracle setArith sndTests data' m) tr.e m c.shape.g = .ok (la, lb) ∧
          ∃ tau, IsRiemannMatrix tau ∧ TauTendsTo x lam sort ord m2 m c flag tr data la lb tau ∧ TauTendsTo (moved r d x) lam sort ord m2 m c flag tr data' la lb tau := by
  have hr' : (r : ℂ) ≠ 0 := by exact_mod_cast hr.ne'
  obtain ⟨tr, data, Y, ht, hd, -, hgr, hfree, ⟨u, hu, hY⟩, -, hbr, H⟩ := tau_converges_stored (x := x) hs ho hlam hlam2 m2 hm hn hx hc hty hni hna hnt hroot
  obtain ⟨tr', data', Y', ht', hd', -, -, -, ⟨u', hu', hY'⟩, -, -, H'⟩ := tau_converges_stored (x := moved r d x) hs ho hlam hlam2 m2 hm hn (moved_inj hr' d hx) hc hty hni hna hnt hroot
  obtain rfl : tr = tr' := by
    have := ht'
    rw [C87_tree lam hr' d x] at this
    exact Res.ok.inj (ht.symm.trans this)
  have hes : ∀ ed ∈ tr.e, ed.a < n ∧ ed.b < n ∧ ed.a ≠ ed.b := fun ed hed => by
    obtain ⟨k, hk, rfl⟩ := List.getElem_of_mem hed
    obtain ⟨q1, q2, q3, -⟩ := hbr k _ (List.getElem?_eq_getElem hk)
    exact ⟨q1, q2, q3⟩
  have hms : movedSet r d (fun k => {x k}) = fun k => {moved r d x k} := funext fun k => image_singleton
  have hrel := treeYdataInit_moved hr d (fun k => {x k}) (by omega : 0 < m) tr.e hes
  rw [hms, hd, hd'] at hrel
  have hsd : List.Forall₂ (Scaled r m n) data data' := by
    cases hrel with
    | ok h => exact h
  have hYY := storedY_moved (treeYdataInit_get hd).1 hsd hu hu'
  have hcs : ((cabScale r n m : ℝ) : ℂ) ^ m = (r : ℂ) ^ n := by
    have : cabScale r n m ^ m = r ^ n := Real.rpow_inv_natCast_pow (pow_nonneg hr.le n) (by omega)
    exact_mod_cast this
  obtain ⟨-, hT⟩ := C87_tau hm (by omega) hx hc hbr hfree hr' d hcs
  refine ⟨tr, data, data', ht, ht', hgr, fun ed hed => ⟨(hes ed hed).1, (hes ed hed).2.1⟩, hfree, hd, hd', fun fuel la lb hp hsb => ?_⟩
  have hsb' : symplecticBasis XGcd.std fuel (shiftOracle setArith sndTests data' m) tr.e m c.shape.g = .ok (la, lb) := by
    rw [shiftOracle_moved hr hsd]
    exact hsb
  obtain ⟨tau, g1, g2, g3⟩ := H fuel la lb hp hsb
  obtain ⟨tau', -, g2', g3'⟩ := H' fuel la lb (moved_plain hr' d hp) hsb'
  obtain rfl : tau' = tau := by
    have h1 := (g2' tau').2 rfl
    rw [hY', hYY, ← hY, hT] at h1
    exact (g2 tau').1 h1
  exact ⟨hsb', tau', g1, g3, g3'⟩

/-- The curve `y^3 = ∏ (x - x_k)` over the equilateral triangle, and over its image by `z ↦ 2 z + 1 + 2i`, with the default options: at all large precisions both calls return a `tau`, and both are within `K 2^(-ip/2)` of the same Riemann matrix. -/
example (m2 : ℝ → ℝ) (h2 : ∀ ρ, 0 ≤ m2 ρ) : ∃ (c : Sec) (tau : Matrix (Fin c.shape.g) (Fin c.shape.g) ℂ), secInit (3 : Nat) (3 : Nat) = .ok c ∧ c.shape.g = 1 ∧ IsRiemannMatrix tau ∧
    ∀ y ∈ ({tri, moved (2 : ℝ) (1 + 2 * Complex.I) tri} : Set (Nat → ℂ)), ∃ (K : ℝ) (P0 : Nat) (extra : Int), ∀ ip : Nat, P0 ≤ ip → (ip : Int) < 2 ^ 62 → ∃ (out : AjOut (Set ℂ) ℝ setMat c.shape.g) (t : Set (Matrix (Fin c.shape.g) (Fin c.shape.g) ℂ)),
      ajRun (idealDe y (Real.pi / 2) sortByR orderByR (Real.pi / 2) m2) 1 c 0 (ip - extra) (treeInit (WOps.ofOrder (-1)) (treeEdges c).toNat) = .ok out ∧ out.tau = some t ∧ t.Nonempty ∧ ∀ T ∈ t, ∀ i k, ‖T i k - tau i k‖ ≤ K * 2 ^ (-(ip / (3 - 1) : ℝ)) := by
  obtain ⟨c, hc, hg, hty⟩ : ∃ c, secInit (3 : Nat) (3 : Nat) = .ok c ∧ c.shape.g = 1 ∧ intType 0 c.m c.n = .de := ⟨_, rfl, by decide, by decide⟩
  have hty' : intType ajNoTau c.m c.n = .de := by
    obtain rfl := Res.ok.inj hc
    decide
  have hroot : RootsDefault 0 3 := Or.inr (Or.inr ⟨by decide, by decide⟩)
  have hroot' : RootsDefault ajNoTau 3 := Or.inr (Or.inr ⟨by decide, by decide⟩)
  have hlam : 0 < Real.pi / 2 := by positivity
  have h2' : ((2 : ℝ) : ℂ) ≠ 0 := by norm_num
  obtain ⟨tr, data, data', ht, -, hgr, hes, hfree, hd, -, H⟩ := C87_same_tau (x := tri) sortByR_sorts orderByR_orders hlam le_rfl m2 (by norm_num : 2 ≤ 3) le_rfl tri_inj hc hty (by decide) (by decide) (by decide) hroot (by norm_num : (0 : ℝ) < 2) (1 + 2 * Complex.I)
  obtain ⟨tr', data1, Y', la, lb, ht', hd', -, -, -, -, -, -, -, -, -, -, -, HR⟩ := de_all (x := tri) sortByR_sorts orderByR_orders hlam le_rfl m2 (by norm_num : 2 ≤ 3) le_rfl tri_inj hc hty' (by decide) hroot'
  obtain rfl := Res.ok.inj (ht.symm.trans ht')
  obtain rfl := Res.ok.inj (hd.symm.trans hd')
  have run : ∀ y : Nat → ℂ, InjOn y (Iio 3) → ∃ extra : Int, ∀ ip : Nat, 2 ≤ ip → (ip : Int) < 2 ^ 62 → ∃ out : AjOut (Set ℂ) ℝ setMat c.shape.g,
      ajRun (idealDe y (Real.pi / 2) sortByR orderByR (Real.pi / 2) m2) 1 c ajNoTau (ip - extra) (treeInit (WOps.ofOrder (-1)) (treeEdges c).toNat) = .ok out ∧ out.intprec = ip := by
    intro y hy
    obtain ⟨tr', extra, -, -, -, -, -, cc, Y', ca, cb, P, -, -, -, -, hrun⟩ := C79_returns (x := y) sortByR_sorts orderByR_orders.perm hlam.ne' hlam le_rfl m2 (by norm_num : 2 ≤ 3) (by norm_num) (by norm_num) hy hc hty' (by decide) hroot'
    refine ⟨extra, fun ip h1 h3 => ?_⟩
    obtain ⟨out, -, o1, -, o2, -⟩ := (hrun (ip - extra) ip 1 (by omega) h1 h3 le_rfl).1 (Or.inl (by norm_num)) (Or.inr ⟨Or.inl (by norm_num), by decide⟩)
    exact ⟨out, o1, o2⟩
  obtain ⟨fuel0, hsb⟩ : ∃ fuel, symplecticBasis XGcd.std fuel (shiftOracle setArith sndTests data 3) tr.e 3 c.shape.g = .ok (la, lb) := by
    obtain ⟨extra, hr⟩ := run _ tri_inj
    obtain ⟨out, o1, -⟩ := hr 2 le_rfl (by norm_num)
    exact (HR _ _ _ o1).2.2.2.1
  obtain ⟨-, tau, g1, g2, g3⟩ := H fuel0 la lb (plainEdges_three hgr hes tri_inj hfree) hsb
  have fin : ∀ (y : Nat → ℂ) (data : List (YData (Set ℂ))), InjOn y (Iio 3) → TauTendsTo y (Real.pi / 2) sortByR orderByR m2 3 c 0 tr data la lb tau → ∃ (K : ℝ) (P0 : Nat) (extra : Int), ∀ ip : Nat, P0 ≤ ip → (ip : Int) < 2 ^ 62 →
      ∃ (out : AjOut (Set ℂ) ℝ setMat c.shape.g) (t : Set (Matrix (Fin c.shape.g) (Fin c.shape.g) ℂ)),
        ajRun (idealDe y (Real.pi / 2) sortByR orderByR (Real.pi / 2) m2) 1 c 0 (ip - extra) (treeInit (WOps.ofOrder (-1)) (treeEdges c).toNat) = .ok out ∧ out.tau = some t ∧ t.Nonempty ∧ ∀ T ∈ t, ∀ i k, ‖T i k - tau i k‖ ≤ K * 2 ^ (-(ip / (3 - 1) : ℝ)) := by
    rintro y data hy ⟨K, P0, -, k2⟩
    obtain ⟨extra, hr⟩ := run y hy
    refine ⟨K, max P0 2, extra, fun ip h1 h3 => ?_⟩
    obtain ⟨out, o1, o2⟩ := hr ip (by omega) h3
    obtain ⟨-, -, -, t, t1, t2, t3⟩ := k2 (ip - extra) 1 out (by rw [Nat.zero_or]; exact o1) (by rw [o2]; omega)
    rw [o2] at t2
    exact ⟨_, t, t1, rfl, t3 h2, fun T hT i k => by exact_mod_cast t2 T hT i k⟩
  refine ⟨c, tau, hc, hg, g1, fun y hy => ?_⟩
  rcases hy with rfl | rfl
  · exact fin _ _ tri_inj g2
  · exact fin _ _ (moved_inj h2' _ tri_inj) g3

/-- a turn of the triangle: `z ↦ (1 + i) z + 3`, with `y` multiplied by `1 + i` -/
example : ∃ (c : Sec) (es : List (Edge ℝ)) (Y : Nat → ℝ → ℂ), secInit (3 : Nat) (3 : Nat) = .ok c ∧ es.length = 1 ∧ GoodEdges 3 3 tri es Y ∧ FreeEdges tri 3 es ∧ GoodEdges 3 3 (moved (1 + Complex.I) 3 tri) es (fun k t => (1 + Complex.I) * Y k t) := by
  obtain ⟨c, hc, hty⟩ : ∃ c, secInit (3 : Nat) (3 : Nat) = .ok c ∧ intType 0 c.m c.n = .de := ⟨_, rfl, by decide⟩
  obtain ⟨tr, data, Y, ht, hd, h1, hgr, hfree, htot, hbr, H⟩ := C86_tau_converges (x := tri) sortByR_sorts orderByR_orders (by positivity : 0 < Real.pi / 2) le_rfl (fun _ => 0) (by norm_num : 2 ≤ 3) le_rfl tri_inj hc hty (by decide) (by decide) (by decide)
    (Or.inr (Or.inr ⟨by decide, by decide⟩))
  have ha : (1 + Complex.I : ℂ) ≠ 0 := fun h => by simpa using congrArg Complex.re h
  exact ⟨c, tr.e, Y, hc, by simpa [TreeSize] using h1, hbr, hfree, (C87_tau (by norm_num) (by norm_num) tri_inj hc hbr hfree ha 3 rfl).1⟩

/-- the period of `dx/y²` on `y^3 = ∏ (x - x_k)` over the triangle, doubled in size: multiplied by `2 / 2^2` -/
example : ∃ (es : List (Edge ℝ)) (Y : Nat → ℝ → ℂ), es.length = 1 ∧ ∀ l : List Gamma, loopPeriodM 3 (fun k => 2 * tri k) es (fun k t => 2 * Y k t) 0 2 l = 1 / 2 * loopPeriodM 3 tri es Y 0 2 l := by
  obtain ⟨c, hc, hty⟩ : ∃ c, secInit (3 : Nat) (3 : Nat) = .ok c ∧ intType 0 c.m c.n = .de := ⟨_, rfl, by decide⟩
  obtain ⟨tr, data, Y, ht, hd, h1, hgr, hfree, htot, hbr, H⟩ := C86_tau_converges (x := tri) sortByR_sorts orderByR_orders (by positivity : 0 < Real.pi / 2) le_rfl (fun _ => 0) (by norm_num : 2 ≤ 3) le_rfl tri_inj hc hty (by decide) (by decide) (by decide)
    (Or.inr (Or.inr ⟨by decide, by decide⟩))
  refine ⟨tr.e, Y, by simpa [TreeSize] using h1, fun l => ?_⟩
  rw [(C87_periods tri_inj hbr hfree (by norm_num : 2 < 3) 0 l).1 2 2]
  norm_num

end Hcp
