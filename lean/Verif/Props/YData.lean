import Verif.Proofs.EdgeData
import Mathlib.Algebra.BigOperators.Field

/-!
# C20, C21, C22: the data of an edge
-/

namespace Hcp

variable {A : Type} {X : Arith A} {R : A → ℂ → Prop}

/-- **C20.** For all numbers of branch points, all `m ≥ 1`, all edges `a ≠ b`, all balls containing branch points with
`x_a ≠ x_b`, and whatever the sign tests answer, `ydata_init_edge` either returns an array whose
balls contain data satisfying the local equation of the edge (`Spec.EdgeData`), or aborts because the ball of the constant contains
zero. -/
theorem C20_edge_data (E : Encloses X exact R) (T : Tests A) {x : Nat → A} {x' : Nat → ℂ}
    (hR : ∀ k, R (x k) (x' k)) {a b n m : Nat} (ha : a < n) (hb : b < n) (hab : a ≠ b) (hm : 0 < m)
    (hx : x' a ≠ x' b) :
    (∃ yd, ydataInitEdge X T x a b n m = .ok yd ∧ yd.m = m ∧ yd.n = n ∧
      ∃ u', (∀ i, R (yd.u i) (u' i)) ∧ Spec.EdgeData m n x' a b yd.n1 u') ∨
    (ydataInitEdge X T x a b n m = .abort "Cab contains 0" ∧ ∃ c c', R c c' ∧ T.hasZero c = true ∧ c' ≠ 0) := by
  rcases ydataInitEdge_spec E T hR ha hb hab hm hx with ⟨yd, e, h1, h2, -, -, h3⟩ | ⟨e, c, c', n1, h1, h2, h3⟩
  · exact Or.inl ⟨yd, e, h1, h2, h3⟩
  · refine Or.inr ⟨e, c, c', h1, h2, ?_⟩
    rintro rfl
    rw [zero_pow hm.ne'] at h3
    have h4 : (x' b - x' a) / 2 ≠ 0 := div_ne_zero (sub_ne_zero.2 hx.symm) two_ne_zero
    have h5 : (-1 : ℂ) ^ (n1 + 1) ≠ 0 := pow_ne_zero _ (by norm_num)
    exact mul_ne_zero h5 (pow_ne_zero n h4) h3.symm

/-- **C20 (exact data).** On exact numbers there is no abort: every edge between distinct branch points has data satisfying the
local equation, and the half-plane condition of the partition holds. -/
theorem C20_exact {x : Nat → ℂ} {a b n m : Nat} (ha : a < n) (hb : b < n) (hab : a ≠ b) (hm : 0 < m)
    (hx : x a ≠ x b) :
    ∃ yd, ydataInitEdge exact exactTests x a b n m = .ok yd ∧ yd.m = m ∧ yd.n = n ∧
      Spec.EdgeData m n x a b yd.n1 yd.u ∧
      ∀ i < n - 2, (i < yd.n1 → 0 < (yd.u i).re) ∧ (yd.n1 ≤ i → (yd.u i).re ≤ 0) := by
  rcases ydataInitEdge_spec exact_encloses exactTests (fun k => rfl) ha hb hab hm hx with
    ⟨yd, e, h1, h2, -, h4, u', h3, h5⟩ | ⟨e, c, c', n1, h1, h2, h3⟩
  · have hu : yd.u = u' := funext h3
    refine ⟨yd, e, h1, h2, hu ▸ h5, fun i hi => ?_⟩
    simpa [exactTests] using h4 i hi
  · exfalso
    subst h1
    have hc : c = 0 := by simpa [exactTests] using h2
    subst hc
    rw [zero_pow hm.ne'] at h3
    have h4 : (x b - x a) / 2 ≠ 0 := div_ne_zero (sub_ne_zero.2 hx.symm) two_ne_zero
    have h5 : (-1 : ℂ) ^ (n1 + 1) ≠ 0 := pow_ne_zero _ (by norm_num)
    exact mul_ne_zero h5 (pow_ne_zero n h4) h3.symm

/-- **C20 (one determination).** If no other branch point lies on the segment, the determination chosen by the code is continuous
along the whole edge: no factor meets the cut of its root. -/
theorem C20_continuous {x : Nat → ℂ} {a b n m : Nat} (ha : a < n) (hb : b < n) (hab : a ≠ b) (hm : 0 < m)
    (hx : x a ≠ x b)
    (hseg : ∀ k < n, k ≠ a → k ≠ b → ∀ t : ℝ, -1 ≤ t → t ≤ 1 → x k ≠ Spec.edgePt (x a) (x b) t) :
    ∃ yd, ydataInitEdge exact exactTests x a b n m = .ok yd ∧
      ContinuousOn (fun t : ℝ => yd.c * Spec.edgeY m yd.n1 (n - 2) yd.u t) (Set.Icc (-1) 1) := by
  obtain ⟨yd, e, _, _, h3, h4⟩ := C20_exact ha hb hab hm hx
  refine ⟨yd, e, ?_⟩
  obtain ⟨τ, hτ, hp⟩ := h3.pts
  have hne : ∀ i < n - 2, ∀ t : ℝ, -1 ≤ t → t ≤ 1 → yd.u i ≠ t := by
    intro i hi t h1 h2 heq
    have hk := hτ.mapsTo (show i ∈ Set.Iio (n - 2) from hi)
    simp only [Set.mem_ofPred_eq] at hk
    exact hseg (τ i) hk.1 hk.2.1 hk.2.2 t h1 h2 (by rw [← hp i hi, heq])
  unfold Spec.edgeY
  refine ContinuousOn.mul continuousOn_const (ContinuousOn.mul ?_ ?_)
  · refine continuousOn_finsetProd _ fun k hk => ?_
    have hk1 : k < yd.n1 := Finset.mem_range.1 hk
    have hk2 : k < n - 2 := lt_of_lt_of_le hk1 h3.n1_le
    refine ContinuousOn.cpow (by fun_prop) continuousOn_const ?_
    intro t ht
    rw [Complex.mem_slitPlane_iff]
    by_contra hcon
    push Not at hcon
    simp only [Complex.sub_re, Complex.ofReal_re, Complex.sub_im, Complex.ofReal_im, sub_zero] at hcon
    have hre := (h4 k hk2).1 hk1
    exact hne k hk2 (yd.u k).re (by linarith) (by linarith [hcon.1, ht.2])
      (Complex.ext rfl (by rw [hcon.2, Complex.ofReal_im]))
  · refine continuousOn_finsetProd _ fun k hk => ?_
    have hk1 : yd.n1 ≤ k := (Finset.mem_Ico.1 hk).1
    have hk2 : k < n - 2 := (Finset.mem_Ico.1 hk).2
    refine ContinuousOn.cpow (by fun_prop) continuousOn_const ?_
    intro t ht
    rw [Complex.mem_slitPlane_iff]
    by_contra hcon
    push Not at hcon
    simp only [Complex.sub_re, Complex.ofReal_re, Complex.sub_im, Complex.ofReal_im, zero_sub, neg_eq_zero] at hcon
    have hre := (h4 k hk2).2 hk1
    exact hne k hk2 (yd.u k).re (by linarith [hcon.1, ht.1]) (by linarith)
      (Complex.ext rfl (by rw [hcon.2, Complex.ofReal_im]))

/-- Instance: three branch points `0, 1, i` with `m = 3`, the edge `(0, 1)`; the third is not on the segment. -/
example : ∃ x : Nat → ℂ, x 0 ≠ x 1 ∧
    ∀ k < 3, k ≠ 0 → k ≠ 1 → ∀ t : ℝ, -1 ≤ t → t ≤ 1 → x k ≠ Spec.edgePt (x 0) (x 1) t := by
  refine ⟨fun k => if k = 0 then 0 else if k = 1 then 1 else Complex.I, by simp, ?_⟩
  intro k hk h0 h1 t _ _ h
  have : k = 2 := by omega
  subst this
  have := congrArg Complex.im h
  simp [Spec.edgePt] at this

/-- **C21.** For every arithmetic, every array of `n ≥ 2` branch points and any answers of the sign test, `ab_points` terminates without
an access outside its array; the `n - 2` cells hold the transformed points of the other branch points, each exactly
once; the last `n - 2 - n1` are those whose real part is decided non-positive, the first `n1` the others. -/
theorem C21_partition (X : Arith A) (T : Tests A) (x : Nat → A) {a b n : Nat} (ha : a < n) (hb : b < n)
    (hab : a ≠ b) (u : Nat → A) :
    ∃ n1 v τ, abPoints X T x a b n u = .ok (n1, v) ∧ n1 ≤ n - 2 ∧
      Set.BijOn τ (Set.Iio (n - 2)) {k | k < n ∧ k ≠ a ∧ k ≠ b} ∧
      ∀ i < n - 2, v i = X.div (X.sub (X.mul2exp (x (τ i)) 1) (X.add (x b) (x a))) (X.sub (x b) (x a)) ∧
        (T.reNonpos (v i) = true ↔ n1 ≤ i) := by
  obtain ⟨n1, v, τ, h1, h2, -, -, -, h3, h4⟩ := abPoints_spec X T x ha hb hab u
  refine ⟨n1, v, τ, h1, h2, h3, fun i hi => ⟨(h4 i hi).1, ?_, (h4 i hi).2.2⟩⟩
  intro h
  by_contra hlt
  rw [(h4 i hi).2.1 (by omega)] at h
  cases h

/-- **C21 (a degenerate edge).** When both ends are the same index the routine aborts, as documented in the code: it never
returns wrong data. -/
theorem C21_degenerate (X : Arith A) (T : Tests A) (x : Nat → A) {a n : Nat} (ha : a < n) (hn : 2 ≤ n)
    (u : Nat → A) : abPoints X T x a a n u = .abort "ab_points" := by
  have hlen : ∀ k, (others a a k).length = if a < k then k - 1 else k := by
    intro k
    induction k with
    | zero => simp [others]
    | succ k ih =>
      rw [others_succ]
      by_cases h : k = a
      · rw [if_pos (Or.inl h), ih, if_neg (by omega), if_pos (by omega)]; omega
      · rw [if_neg (by omega), List.length_append, List.length_singleton, ih]
        split_ifs <;> omega
  have key := loopUp_inv (body := abStep X n x a a) (fun k s => s.1 = (others a a k).length) n 0
    (0, fun j => if j = n - 2 then X.sub (x a) (x a)
        else if j = n - 1 then X.add (x a) (x a) else if j = n - 2 then x a else u j) (by simp [others]) (by
      rintro k ⟨l, v⟩ _ hk g
      simp only at g
      unfold abStep
      by_cases hs : k = a ∨ k = a
      · refine ⟨(l, v), if_pos hs, ?_⟩
        rw [others_succ, if_pos hs]; exact g
      · have hl : l < n + 3 := by rw [g, hlen]; split_ifs <;> omega
        refine ⟨_, by rw [if_neg hs]; simp only [rdV_ok (show k < n by omega),
          rdV_ok (show n - 1 < n + 3 by omega), rdV_ok (show n - 2 < n + 3 by omega), wrV_ok hl, Res.ok_bind]; rfl, ?_⟩
        rw [others_succ, if_neg hs, List.length_append, List.length_singleton, g])
  obtain ⟨⟨l, v⟩, e, g⟩ := key
  simp only [Nat.zero_add] at g
  rw [hlen, if_pos ha] at g
  unfold abPoints
  simp only [rdV_ok ha, wrV_ok (show n - 2 < n + 3 by omega), wrV_ok (show n - 1 < n + 3 by omega), Res.ok_bind]
  rw [e, Res.ok_bind]
  simp only
  rw [if_pos (by omega)]

/-- **C22 (power).** For all `m ≥ 1`, all numbers of points, all sizes of the first group and all arguments,
`mth_root_pol_def` returns a number whose `m`-th power is `(-1)^d1 ∏ (t - u_k)`, that is
the product of `u_k - t` over the first group and of `t - u_k` over the second. -/
theorem C22_def_power {sz d d1 m : Nat} (hd : d ≤ sz) (h1 : d1 ≤ d) (hm : 0 < m) (u : Nat → ℂ) (t : ℂ) :
    ∃ y, mthRootPolDef exact sz u d1 d t m = .ok y ∧ y = Spec.edgeY m d1 d u t ∧
      y ^ m = (-1) ^ d1 * ∏ k ∈ Finset.range d, (t - u k) :=
  ⟨_, mthRootPolDef_spec hd u d1 t m, edgeY_eq u h1 m t, by rw [edgeY_eq u h1]; exact edgeY_pow u h1 hm t⟩

/-- **C22 (square roots).** `sqrt_pol_def` is the case `m = 2`. -/
theorem C22_sqrt_power {sz d d1 : Nat} (hd : d ≤ sz) (h1 : d1 ≤ d) (u : Nat → ℂ) (t : ℂ) :
    ∃ y, sqrtPolDef exact sz u d1 d t = .ok y ∧ y = Spec.edgeY 2 d1 d u t ∧
      y ^ 2 = (-1) ^ d1 * ∏ k ∈ Finset.range d, (t - u k) :=
  ⟨_, sqrtPolDef_spec hd u d1 t, edgeY_eq u h1 2 t, by rw [edgeY_eq u h1]; exact edgeY_pow u h1 (by norm_num) t⟩

/-- **C22 (logarithms).** `mth_root_pol_prod` returns the same number as `mth_root_pol_def` as soon as no factor vanishes: the
sum of principal logarithms divided by `m` is the right logarithm, whatever the arguments are. -/
theorem C22_prod_agrees {sz d d1 m : Nat} (hd : d ≤ sz) (h1 : d1 ≤ d) (u : Nat → ℂ) (t : ℂ)
    (hne : ∀ k < d, u k ≠ t) :
    mthRootPolProd exact sz u d1 d t m = .ok (Spec.edgeY m d1 d u t) := by
  unfold mthRootPolProd
  have key := loopUp_inv (body := fun k y => do
      let s ← factorAt exact sz u d1 t k
      .ok (exact.add y (exact.log s)))
    (fun k y => y = ∑ i ∈ Finset.range k, Complex.log (sgnFactor u d1 t i)) d 0 exact.zero
    (by simp [exact]) (by
      rintro k y _ hk rfl
      refine ⟨_, by rw [factorAt_exact u d1 t (show k < sz by omega), Res.ok_bind], ?_⟩
      rw [Finset.sum_range_succ]; rfl)
  obtain ⟨y, e, hy⟩ := key
  rw [Nat.zero_add] at hy
  rw [e, Res.ok_bind, hy, ← edgeY_eq u h1]
  congr 1
  show Complex.exp (_ / _) = _
  rw [Finset.sum_div, Complex.exp_sum]
  refine Finset.prod_congr rfl fun k hk => ?_
  have hk0 : sgnFactor u d1 t k ≠ 0 := by
    unfold sgnFactor
    have := hne k (Finset.mem_range.1 hk)
    split
    · exact sub_ne_zero.2 this
    · exact sub_ne_zero.2 this.symm
  show _ = _ ^ ((m : ℂ)⁻¹)
  rw [Complex.cpow_def_of_ne_zero hk0, div_eq_mul_inv]
  rfl

/-- **C22 (enclosure).** On balls the three routines return balls containing the value of the definition. -/
theorem C22_encloses (E : Encloses X exact R) {sz d d1 m : Nat} (hd : d ≤ sz) (h1 : d1 ≤ d)
    {u : Nat → A} {u' : Nat → ℂ} (hu : ∀ k, R (u k) (u' k)) {t : A} {t' : ℂ} (ht : R t t') :
    (∃ y, mthRootPolDef X sz u d1 d t m = .ok y ∧ R y (Spec.edgeY m d1 d u' t')) ∧
    (∃ y, sqrtPolDef X sz u d1 d t = .ok y ∧ R y (Spec.edgeY 2 d1 d u' t')) ∧
    ((∀ k < d, u' k ≠ t') → ∃ y, mthRootPolProd X sz u d1 d t m = .ok y ∧ R y (Spec.edgeY m d1 d u' t')) := by
  refine ⟨?_, ?_, fun hne => ?_⟩
  · have := mthRootPolDef_rel E (sz := sz) hu d1 d ht m
    rw [mthRootPolDef_spec hd, edgeY_eq u' h1] at this
    exact this.ok_left
  · have := sqrtPolDef_rel E (sz := sz) hu d1 d ht
    rw [sqrtPolDef_spec hd, edgeY_eq u' h1] at this
    exact this.ok_left
  · have := mthRootPolProd_rel E (sz := sz) hu d1 d ht m
    rw [C22_prod_agrees hd h1 u' t' hne] at this
    exact this.ok_left

/-- the products have factors in both groups: `(2 - t)^(1/3) (t + 3)^(1/3)` at `t = 1` -/
example : Spec.edgeY 3 1 2 (fun k => if k = 0 then 2 else -3) 1 ^ 3 = 4 := by
  rw [edgeY_pow _ (by norm_num) (by norm_num)]
  norm_num [Finset.prod_range_succ]

end Hcp
