import Verif.Proofs.GaussCheb
import Verif.Props.YData
import Verif.Props.TurnBall
import Mathlib.Analysis.SpecialFunctions.Trigonometric.Chebyshev.ChebyshevGauss

/-!
# C24, C26: Gauss-Chebyshev integration
-/

namespace Hcp

variable {A : Type} {X : Arith A} {R : A → ℂ → Prop}

/-- **C24 (nodes).** For every `n`, `gc_int_init` writes and reads in range; it stores `n / 2` nodes, ball number `k` contains
`cos((2k+1)pi/2n)`; the nodes that are not stored are the opposites of those, and `0` when `n` is odd. -/
theorem C24_nodes (E : Encloses X exact R) {F : Fns A} (H : EnclosesFns F exactFns R) (n : Nat) :
    ∃ gc, gcIntInit X F n = .ok gc ∧ gc.n = n ∧ gc.len = n / 2 ∧
      (∀ k < n / 2, R (gc.x k) (Real.cos ((2 * k + 1) / (2 * n) * Real.pi))) ∧
      (∀ k < n / 2, Real.cos ((2 * (n - 1 - k : Nat) + 1) / (2 * n) * Real.pi) =
        -Real.cos ((2 * k + 1) / (2 * n) * Real.pi)) ∧
      (n % 2 = 1 → Real.cos ((2 * (n / 2 : Nat) + 1) / (2 * n) * Real.pi) = 0) := by
  obtain ⟨gc', e', h1, h2, h3⟩ := gcIntInit_spec n
  have hr := gcIntInit_rel E H n
  rw [e'] at hr
  obtain ⟨gc, e, hgc⟩ := hr.ok_left
  refine ⟨gc, e, hgc.n.trans h1, hgc.len.trans h2, fun k hk => ?_, fun k hk => ?_, fun h => ?_⟩
  · have := hgc.x k
    rw [h3 k hk] at this
    exact this
  · exact chebNode_symm (n := n) (j := n - 1 - k) (k := k) (by omega)
  · exact chebNode_mid (n := n) (k := n / 2) (by omega)

/-- **C24 (exactness of the rule).** For all `n ≥ 1` and all complex polynomials of degree `< 2n`, the rule `pi/n ∑ p(x_k)` on the
nodes is the integral of `p(x) / sqrt(1 - x^2)` over `[-1, 1]`. -/
theorem C24_exact_degree {n : Nat} (hn : 0 < n) (p : Polynomial ℂ) (hp : p.natDegree < 2 * n) :
    ∫ x in (-1 : ℝ)..1, p.eval (x : ℂ) * ((√(1 - x ^ 2)⁻¹ : ℝ) : ℂ) =
      (Real.pi / n : ℂ) * ∑ k ∈ Finset.range n, p.eval (Real.cos ((2 * k + 1) / (2 * n) * Real.pi) : ℂ) := by
  have hmono : ∀ i < 2 * n, ∫ x in (-1 : ℝ)..1, ((x ^ i * √(1 - x ^ 2)⁻¹ : ℝ) : ℂ) =
      (Real.pi / n : ℂ) * ∑ k ∈ Finset.range n, (Real.cos ((2 * k + 1) / (2 * n) * Real.pi) : ℂ) ^ i := by
    intro i hi
    rw [intervalIntegral.integral_ofReal, ← Polynomial.Chebyshev.integral_measureT]
    have := Polynomial.Chebyshev.integral_eq_sumZeroes (n := n) (P := Polynomial.X ^ i) hn.ne' (by
      rw [Polynomial.degree_X_pow]; exact_mod_cast hi)
    simp only [Polynomial.eval_pow, Polynomial.eval_X] at this
    rw [this]
    unfold Polynomial.Chebyshev.sumZeroes
    simp only [Polynomial.eval_pow, Polynomial.eval_X]
    push_cast
    rfl
  have hint : ∀ i, IntervalIntegrable (fun x : ℝ => ((x ^ i * √(1 - x ^ 2)⁻¹ : ℝ) : ℂ)) MeasureTheory.volume (-1) 1 := by
    intro i
    have h : IntervalIntegrable (fun x : ℝ => x ^ i * √(1 - x ^ 2)⁻¹) MeasureTheory.volume (-1) 1 :=
      Polynomial.Chebyshev.intervalIntegrable_sqrt_one_sub_sq_inv.continuousOn_mul (by fun_prop)
    exact ⟨h.1.ofReal, h.2.ofReal⟩
  simp only [Polynomial.eval_eq_sum_range]
  have h1 : ∀ x : ℝ, (∑ i ∈ Finset.range (p.natDegree + 1), p.coeff i * (x : ℂ) ^ i) * ((√(1 - x ^ 2)⁻¹ : ℝ) : ℂ) =
      ∑ i ∈ Finset.range (p.natDegree + 1), p.coeff i * ((x ^ i * √(1 - x ^ 2)⁻¹ : ℝ) : ℂ) := by
    intro x
    rw [Finset.sum_mul]
    refine Finset.sum_congr rfl fun i _ => ?_
    push_cast
    ring
  simp only [h1]
  rw [intervalIntegral.integral_finsetSum fun i _ => (hint i).const_mul _, Finset.sum_comm, Finset.mul_sum]
  refine Finset.sum_congr rfl fun i hi => ?_
  rw [intervalIntegral.integral_const_mul, hmono i (by have := Finset.mem_range.1 hi; omega), ← Finset.mul_sum]
  ring

/-- The values enclosed by the row, in all its cells, when the square roots contain the determination of the edge. -/
theorem gcIntegrals_sum_of (E : Encloses X exact R) {F : Fns A} (H : EnclosesFns F exactFns R) (T : Tests A) {sz d1 d g : Nat} (hg : 0 < g)
    (hd : d ≤ sz) (h1 : d1 ≤ d) {u : Nat → A} {u' : Nat → ℂ} (hu : ∀ k, R (u k) (u' k)) (n flag : Nat)
    (hS : ∀ gc, gcIntInit X F n = .ok gc → ∀ l < n / 2, ∀ t : A, t = gc.x l ∨ t = X.neg (gc.x l) → ∀ t' : ℝ, -1 ≤ t' → t' ≤ 1 → R t t' →
      ∃ v, sqrtPolSel X T flag sz u d1 d t = .ok v ∧ R v (Spec.edgeY 2 d1 d u' t')) :
    ∃ (r : Nat → A) (r' : Nat → ℂ), gcIntegrals X T F sz u d1 d g n flag = .ok r ∧ (∀ i, R (r i) (r' i)) ∧ ∀ i < g,
      r' i = (Real.pi / n * ∑ k ∈ Finset.range n, (Real.cos ((2 * k + 1) / (2 * n) * Real.pi) : ℂ) ^ i /
        Spec.edgeY 2 d1 d u' (Real.cos ((2 * k + 1) / (2 * n) * Real.pi))) := by
  obtain ⟨gc', e', g1, g2, g3⟩ := gcIntInit_spec n
  have hr := gcIntInit_rel E H n
  rw [e'] at hr
  obtain ⟨gc, e, hgc⟩ := hr.ok_left
  unfold gcIntegrals
  rw [e, Res.ok_bind]
  unfold gcIntegralsPrecomp
  obtain ⟨r', er, hr'⟩ := gcSumWith_spec (S := fun x => .ok (Spec.edgeY 2 d1 d u' x)) hg hd h1 u'
    (fun t => Spec.edgeY 2 d1 d u' t) g1 g2 g3 (fun k _ => ⟨rfl, by push_cast; rfl⟩) (by push_cast; rfl)
  have hr2 := gcSumWith_rel E (sz := sz) (d1 := d1) (d := d) (g := g) hu hgc
    (S := sqrtPolSel X T flag sz u d1 d) (S' := fun x => .ok (Spec.edgeY 2 d1 d u' x)) (by
      intro l hl
      have hl2 : l < n / 2 := by rw [hgc.len, g2] at hl; exact hl
      have hx := hgc.x l
      have hnx := E.neg hx
      rw [g3 l hl2] at hx hnx ⊢
      have b1 : -1 ≤ Spec.chebNode n l := Real.neg_one_le_cos _
      have b2 : Spec.chebNode n l ≤ 1 := Real.cos_le_one _
      constructor
      · obtain ⟨v, e1, e2⟩ := hS gc e l hl2 _ (Or.inl rfl) (Spec.chebNode n l) b1 b2 hx
        rw [e1]
        exact .ok e2
      · have hneg : exact.neg (Spec.chebNode n l : ℂ) = ((-Spec.chebNode n l : ℝ) : ℂ) := by
          show -(Spec.chebNode n l : ℂ) = _
          push_cast
          rfl
        rw [hneg] at hnx ⊢
        obtain ⟨v, e1, e2⟩ := hS gc e l hl2 _ (Or.inr rfl) (-Spec.chebNode n l) (by linarith) (by linarith) hnx
        rw [e1]
        exact .ok e2)
  rw [er] at hr2
  obtain ⟨r, e2, h2⟩ := hr2.ok_left
  exact ⟨r, r', e2, h2, fun i hi => hr' i hi⟩

/-- What is asked from the square roots at the nodes: they are products of roots of the factors (option `AJ_ROOT_DEF`), or there is one factor (three branch points), or the turning numbers are decided by the balls. -/
def RootsOk (X : Arith A) (T : Tests A) (F : Fns A) (R : A → ℂ → Prop) (sz : Nat) (u : Nat → A) (d1 d n flag : Nat) : Prop :=
  flag.testBit 5 = true ∨ d = 1 ∨ (SoundTests T R ∧ Spec.RealPoint T R ∧ ∀ gc, gcIntInit X F n = .ok gc → ∀ l < n / 2,
    TurnOk X T sz u d1 d (gc.x l) ∧ TurnOk X T sz u d1 d (X.neg (gc.x l)))

/-- with one factor nothing turns -/
theorem sqrt_turn_one (E : Encloses X exact R) (T : Tests A) {sz d1 : Nat} (hsz : 1 ≤ sz) (h1 : d1 ≤ 1) {u : Nat → A} {u' : Nat → ℂ} (hu : ∀ k, R (u k) (u' k)) {x : A} {x' : ℂ} (hx : R x x') :
    ∃ v, sqrtPolTurn X T sz u d1 1 x = .ok v ∧ R v (Spec.edgeY 2 d1 1 u' x') := by
  have hs : ∀ z : ℂ, exact.root 2 z = exact.sqrt z := by intro z; simp [exact]
  have hr : rdV sz u 0 = .ok (u 0) := if_pos hsz
  have e : sqrtPolTurn X T sz u d1 1 x = .ok (X.sqrt (if d1 = 0 then X.neg (X.sub (u 0) x) else X.sub (u 0) x)) := by
    unfold sqrtPolTurn prodTurn
    rw [hr]
    rfl
  refine ⟨_, e, ?_⟩
  rw [← edgeY_eq u' h1 2, Finset.prod_range_one, hs]
  refine E.sqrt ?_
  have hsub : R (X.sub (u 0) x) (u' 0 - x') := E.sub (hu 0) hx
  unfold sgnFactor
  by_cases h0 : d1 = 0
  · subst h0
    rw [if_pos rfl, if_neg (by omega), ← neg_sub]
    exact E.neg hsub
  · rw [if_neg h0, if_pos (by omega)]
    exact hsub

/-- The values enclosed by the row, in all its cells. -/
theorem gcIntegrals_sum (E : Encloses X exact R) {F : Fns A} (H : EnclosesFns F exactFns R) (T : Tests A) {sz d1 d g : Nat} (hg : 0 < g)
    (hd : d ≤ sz) (h1 : d1 ≤ d) {u : Nat → A} {u' : Nat → ℂ} (hu : ∀ k, R (u k) (u' k)) (n flag : Nat)
    (hf : RootsOk X T F R sz u d1 d n flag) (hne : flag.testBit 5 = false → 1 ≤ d ∧ ∀ t : ℝ, -1 ≤ t → t ≤ 1 → ∀ i < d, u' i ≠ t) :
    ∃ (r : Nat → A) (r' : Nat → ℂ), gcIntegrals X T F sz u d1 d g n flag = .ok r ∧ (∀ i, R (r i) (r' i)) ∧ ∀ i < g,
      r' i = (Real.pi / n * ∑ k ∈ Finset.range n, (Real.cos ((2 * k + 1) / (2 * n) * Real.pi) : ℂ) ^ i /
        Spec.edgeY 2 d1 d u' (Real.cos ((2 * k + 1) / (2 * n) * Real.pi))) := by
  refine gcIntegrals_sum_of E H T hg hd h1 hu n flag fun gc hgc l hl t ht t' b1 b2 hR => ?_
  unfold sqrtPolSel
  cases hb : flag.testBit 5 with
  | true =>
    rw [if_pos rfl]
    have h := sqrtPolDef_rel E (sz := sz) hu d1 d hR
    rw [sqrtPolDef_spec hd, edgeY_eq u' h1 2] at h
    exact h.ok_left
  | false =>
    rw [if_neg (by decide)]
    obtain ⟨n1, n2⟩ := hne hb
    rcases hf with hf | rfl | ⟨k1, k2, k3⟩
    · rw [hb] at hf; cases hf
    · exact sqrt_turn_one E T hd h1 hu hR
    · refine C23_sqrt_turn_balls_partial E k1 k2 hd n1 h1 hu hR (fun i hi => n2 t' b1 b2 i hi) ?_
      rcases ht with rfl | rfl
      · exact (k3 gc hgc l hl).1
      · exact (k3 gc hgc l hl).2

/-- **C24 (summation).** For every genus `g ≥ 1`, every number of points `n`, all points `u` split in two groups, on balls and with
`AJ_ROOT_DEF`: `gc_integrals` stays in its arrays and cell `i` contains `pi/n ∑ x_k^i / y(x_k)` over all `n` nodes, where
`y` is the determination of the edge. -/
theorem C24_sum (E : Encloses X exact R) {F : Fns A} (H : EnclosesFns F exactFns R) (T : Tests A) {sz d1 d g : Nat} (hg : 0 < g)
    (hd : d ≤ sz) (h1 : d1 ≤ d) {u : Nat → A} {u' : Nat → ℂ} (hu : ∀ k, R (u k) (u' k)) (n flag : Nat)
    (hf : flag.testBit 5 = true) :
    ∃ r, gcIntegrals X T F sz u d1 d g n flag = .ok r ∧ ∀ i < g,
      R (r i) (Real.pi / n * ∑ k ∈ Finset.range n, (Real.cos ((2 * k + 1) / (2 * n) * Real.pi) : ℂ) ^ i /
        Spec.edgeY 2 d1 d u' (Real.cos ((2 * k + 1) / (2 * n) * Real.pi))) := by
  obtain ⟨r, r', e, h2, h3⟩ := gcIntegrals_sum E H T (sz := sz) hg hd h1 hu n flag (Or.inl hf) (fun h => by rw [hf] at h; cases h)
  exact ⟨r, e, fun i hi => h3 i hi ▸ h2 i⟩

/-- **C24 (summation with turning numbers, balls, partial).** The default routine gives the same enclosures when no point `u` is on the segment `[-1, 1]` and the turning numbers
at the nodes are decided by the balls (`RootsOk`). -/
theorem C24_sum_turn_balls_partial (E : Encloses X exact R) {F : Fns A} (H : EnclosesFns F exactFns R) (T : Tests A) {sz d1 d g : Nat} (hg : 0 < g)
    (hd : d ≤ sz) (hd0 : 1 ≤ d) (h1 : d1 ≤ d) {u : Nat → A} {u' : Nat → ℂ} (hu : ∀ k, R (u k) (u' k)) (n flag : Nat) (hne : ∀ t : ℝ, -1 ≤ t → t ≤ 1 → ∀ i < d, u' i ≠ t)
    (hf : RootsOk X T F R sz u d1 d n flag) :
    ∃ r, gcIntegrals X T F sz u d1 d g n flag = .ok r ∧ ∀ i < g,
      R (r i) (Real.pi / n * ∑ k ∈ Finset.range n, (Real.cos ((2 * k + 1) / (2 * n) * Real.pi) : ℂ) ^ i /
        Spec.edgeY 2 d1 d u' (Real.cos ((2 * k + 1) / (2 * n) * Real.pi))) := by
  obtain ⟨r, r', e, h2, h3⟩ := gcIntegrals_sum E H T (sz := sz) hg hd h1 hu n flag hf fun _ => ⟨hd0, hne⟩
  exact ⟨r, e, fun i hi => h3 i hi ▸ h2 i⟩

/-- Instance of the condition on the roots, for the default option and any number of nodes: exact numbers, `u_0 = u_1 = 2 + i`. -/
example (n : Nat) : RootsOk exact exactTests exactFns Eq 2 (fun _ => 2 + Complex.I) 2 2 n 0 := by
  refine Or.inr <| Or.inr ⟨exactTests_sound, fun a h => ⟨a, rfl, by simpa [exactTests] using h⟩, fun gc hgc l hl => ?_⟩
  obtain ⟨gc', e', -, -, g3⟩ := gcIntInit_spec n
  obtain rfl := Res.ok.inj (hgc.symm.trans e')
  have key : ∀ t : ℝ, t ≤ 1 → Spec.TurnDecided exact exactTests (fun _ => 2 + Complex.I) 2 2 (t : ℂ) := by
    intro t ht
    have f : ∀ k < 2, Spec.ballFactor exact (fun _ => 2 + Complex.I) 2 t k = ((2 - t : ℝ) : ℂ) + Complex.I := by
      intro k hk
      unfold Spec.ballFactor
      rw [if_pos hk]
      show 2 + Complex.I - (t : ℂ) = _
      push_cast
      ring
    have p1 : (Spec.ballProd exact (fun _ => 2 + Complex.I) 2 t 1).im ≠ 0 := by
      show (exact.mul (Spec.ballFactor exact (fun _ => 2 + Complex.I) 2 t 0) (Spec.ballFactor exact (fun _ => 2 + Complex.I) 2 t 1)).im ≠ 0
      rw [f 0 (by norm_num), f 1 (by norm_num)]
      show ((((2 - t : ℝ) : ℂ) + Complex.I) * (((2 - t : ℝ) : ℂ) + Complex.I)).im ≠ 0
      simp only [Complex.mul_im, Complex.add_re, Complex.add_im, Complex.ofReal_re, Complex.ofReal_im, Complex.I_re, Complex.I_im]
      intro h
      linarith
    refine ⟨Or.inr (Or.inl ?_), fun k hk _ _ _ h => ?_⟩
    · simpa [exactTests] using p1
    · obtain rfl : k = 0 := by omega
      exact absurd (by simpa [exactTests] using h) p1
  rw [g3 l hl]
  refine ⟨Or.inr (key _ (Real.cos_le_one _)), Or.inr ?_⟩
  have := key (-Spec.chebNode n l) (by have : -1 ≤ Spec.chebNode n l := Real.neg_one_le_cos _; linarith)
  rw [Complex.ofReal_neg] at this
  exact this

/-- **C24 (summation, any options).** Whatever values `Y` the selected square root routine returns at the nodes, `gc_integrals` computes the
full rule `pi/n ∑ x_k^i / Y(x_k)` over all `n` nodes: each stored node is used with both signs, the middle one once. -/
theorem C24_sum_any_root (T : Tests ℂ) {sz d1 d g : Nat} (hg : 0 < g) (hd : d ≤ sz) (h1 : d1 ≤ d) (u : Nat → ℂ) (n flag : Nat)
    (Y : ℝ → ℂ) (h0 : Y 0 = Spec.edgeY 2 d1 d u 0)
    (hY : ∀ k < n, 2 * k + 1 ≠ n → sqrtPolSel exact T flag sz u d1 d (Real.cos ((2 * k + 1) / (2 * n) * Real.pi) : ℝ) =
      .ok (Y (Real.cos ((2 * k + 1) / (2 * n) * Real.pi)))) :
    ∃ r, gcIntegrals exact T exactFns sz u d1 d g n flag = .ok r ∧ ∀ i < g,
      r i = Real.pi / n * ∑ k ∈ Finset.range n, (Real.cos ((2 * k + 1) / (2 * n) * Real.pi) : ℂ) ^ i /
        Y (Real.cos ((2 * k + 1) / (2 * n) * Real.pi)) := by
  obtain ⟨gc, e, g1, g2, g3⟩ := gcIntInit_spec n
  unfold gcIntegrals
  rw [e, Res.ok_bind]
  unfold gcIntegralsPrecomp
  refine gcSumWith_spec hg hd h1 u Y g1 g2 g3 (fun k hk => ⟨hY k (by omega) (by omega), ?_⟩) h0
  have := hY (n - 1 - k) (by omega) (by omega)
  change sqrtPolSel exact T flag sz u d1 d (Spec.chebNode n (n - 1 - k) : ℂ) = .ok (Y (Spec.chebNode n (n - 1 - k))) at this
  rw [chebNode_symm (n := n) (j := n - 1 - k) (k := k) (by omega)] at this
  push_cast at this
  exact this

/-- **C24 (summation with turning numbers, partial).** The default routine gives the same sum on exact numbers as long as no product of
factors at a node is a negative real number.
Missing: nodes where the product is negative (`C23_negative_product_fails`), no factor at all. -/
theorem C24_sum_turn_partial {sz d1 d g : Nat} (hg : 0 < g) (hd : d ≤ sz) (hd0 : 1 ≤ d) (h1 : d1 ≤ d) (u : Nat → ℂ) (n flag : Nat)
    (hne : ∀ k < n, ∀ i < d, u i ≠ (Real.cos ((2 * k + 1) / (2 * n) * Real.pi) : ℂ))
    (hcut : d = 1 ∨ ∀ k < n, ¬ ∃ r : ℝ, r < 0 ∧
      (-1) ^ d1 * ∏ i ∈ Finset.range d, ((Real.cos ((2 * k + 1) / (2 * n) * Real.pi) : ℂ) - u i) = r) :
    ∃ r, gcIntegrals exact exactTests exactFns sz u d1 d g n flag = .ok r ∧ ∀ i < g,
      r i = Real.pi / n * ∑ k ∈ Finset.range n, (Real.cos ((2 * k + 1) / (2 * n) * Real.pi) : ℂ) ^ i /
        Spec.edgeY 2 d1 d u (Real.cos ((2 * k + 1) / (2 * n) * Real.pi)) := by
  obtain ⟨gc, e, g1, g2, g3⟩ := gcIntInit_spec n
  unfold gcIntegrals
  rw [e, Res.ok_bind]
  unfold gcIntegralsPrecomp
  have hS : ∀ k < n, sqrtPolSel exact exactTests flag sz u d1 d (Spec.chebNode n k : ℂ) =
      .ok (Spec.edgeY 2 d1 d u (Spec.chebNode n k)) := by
    intro k hk
    unfold sqrtPolSel
    split
    · rw [sqrtPolDef_spec hd, edgeY_eq u h1 2]
    · rw [C23_sqrt_turn_partial hd hd0 h1 u (Spec.chebNode n k) (fun i hi => hne k hk i hi) (hcut.imp_right fun h => h k hk),
        sqrtPolDef_spec hd, edgeY_eq u h1 2]
  refine gcSumWith_spec hg hd h1 u (fun t => Spec.edgeY 2 d1 d u t) g1 g2 g3 (fun k hk => ⟨hS k (by omega), ?_⟩)
    (by push_cast; rfl)
  have := hS (n - 1 - k) (by omega)
  rw [chebNode_symm (n := n) (j := n - 1 - k) (k := k) (by omega)] at this
  push_cast at this
  push_cast
  exact this

/-- Instance: a node, its opposite and the middle one for `n = 3`; degree `5 < 6`. -/
example : (Polynomial.X ^ 5 + 1 : Polynomial ℂ).natDegree < 2 * 3 ∧ Nat.testBit 32 5 = true := by
  refine ⟨?_, by decide⟩
  have : (Polynomial.X ^ 5 + 1 : Polynomial ℂ).natDegree ≤ 5 := by compute_degree
  omega

/-- with a genuine edge: `u_0 = 2`, first group, and two nodes -/
example : ∃ r, gcIntegrals exact exactTests exactFns 1 (fun _ => 2) 1 1 2 2 32 = .ok r ∧
    r 1 = Real.pi / (2 : Nat) * ∑ k ∈ Finset.range 2, (Real.cos ((2 * k + 1) / (2 * (2 : Nat)) * Real.pi) : ℂ) ^ 1 /
      Spec.edgeY 2 1 1 (fun _ => 2) (Real.cos ((2 * k + 1) / (2 * (2 : Nat)) * Real.pi)) := by
  obtain ⟨r, e, h⟩ := C24_sum exact_encloses exactFns_encloses exactTests (sz := 1) (d1 := 1) (d := 1) (g := 2) (by norm_num)
    le_rfl le_rfl (u := fun _ => 2) (u' := fun _ => 2) (fun _ => rfl) 2 32 (by decide)
  exact ⟨r, e, h 1 (by norm_num)⟩

/-! ## C26 -/

theorem gcReplace_false {old n cn cg : Nat} : gcReplace old n cn cg = false ↔
    old ≠ 0 ∧ ((old : Int) - n) * (cn + cg) ≤ n := by
  unfold gcReplace
  simp only [decide_eq_false_iff_not, not_or, not_lt, ne_eq]

/-- **C26 (partial).** If the edges come in an order of non-increasing requirements, then, whatever the arithmetic, the options and the
determinations, every row is computed with the rule on at least the required number of points, this number being the one required by one of the edges.
Missing: orders with an increase (`C26_increase_fails`). -/
theorem C26_enough_points_partial (X : Arith A) (T : Tests A) (F : Fns A) (c : Shape) (flag : Nat) (data : List (YData A))
    (need : Nat → Nat) (err : Nat → A → A) (ks : List Nat) (hnd : ks.Nodup)
    (hmono : ks.Pairwise fun k l => need l ≤ need k) (I I' : Nat → Nat → A) (gc0 : GcInt A) (h0 : gc0.n = 0)
    (h : integralsTreeGc X T F c flag data need err ks gc0 I = .ok I') :
    ∀ k ∈ ks, ∃ ye n r, data[k]? = some ye ∧ need k ≤ n ∧ (∃ j ∈ ks, n = need j) ∧
      gcIntegrals X T F (c.n + 3) ye.u ye.n1 (c.n - 2) c.g n flag = .ok r ∧
      edgeFactors X c ye.ba2 ye.ab ye.c (fun i => if i < c.g then err k (r i) else r i) = .ok (I' k) := by
  have gen : ∀ (ls : List Nat), (∀ l ∈ ls, l ∈ ks) → ls.Nodup → (ls.Pairwise fun k l => need l ≤ need k) → ∀ (I I' : Nat → Nat → A)
      (gc : GcInt A), (gc.n = 0 ∨ gcIntInit X F gc.n = .ok gc ∧ (∃ j ∈ ks, gc.n = need j) ∧ ∀ k ∈ ls, need k ≤ gc.n) →
      integralsTreeGc X T F c flag data need err ls gc I = .ok I' →
      (∀ k ∉ ls, I' k = I k) ∧ ∀ k ∈ ls, ∃ ye n r, data[k]? = some ye ∧ need k ≤ n ∧ (∃ j ∈ ks, n = need j) ∧
        gcIntegrals X T F (c.n + 3) ye.u ye.n1 (c.n - 2) c.g n flag = .ok r ∧
        edgeFactors X c ye.ba2 ye.ab ye.c (fun i => if i < c.g then err k (r i) else r i) = .ok (I' k) := by
    intro ls
    induction ls with
    | nil =>
      intro _ _ _ I I' gc _ h
      have : I = I' := by simpa [integralsTreeGc] using h
      exact ⟨fun k _ => by rw [this], fun k hk => by cases hk⟩
    | cons k ls ih =>
      intro hsub hnd hmono I I' gc hgc h
      rw [integralsTreeGc] at h
      cases hk : data[k]? with
      | none => rw [hk] at h; cases h
      | some ye =>
        rw [hk] at h
        simp only at h
        unfold integralsEdgeGc at h
        have hsel : ∀ gc1, gcScheme X F c (need k) gc = .ok gc1 →
            gcIntInit X F gc1.n = .ok gc1 ∧ (∃ j ∈ ks, gc1.n = need j) ∧ ∀ l ∈ k :: ls, need l ≤ gc1.n := by
          intro gc1 h1
          unfold gcScheme at h1
          have hle : ∀ l ∈ k :: ls, need l ≤ need k := by
            intro l hl
            rcases List.mem_cons.1 hl with rfl | hl
            · exact le_rfl
            · exact (List.pairwise_cons.1 hmono).1 l hl
          by_cases hrep : gcReplace gc.n (need k) c.n c.g = true
          · rw [if_pos hrep] at h1
            have hn : gc1.n = need k := by
              unfold gcIntInit at h1
              by_cases h0 : need k ≠ 0
              · rw [if_pos h0] at h1
                cases hx : cosPi X F (need k / 2) (need k) with
                | ok x => rw [hx] at h1; cases h1; rfl
                | abort w => rw [hx] at h1; cases h1
                | ub w => rw [hx] at h1; cases h1
                | diverge => rw [hx] at h1; cases h1
              · rw [if_neg h0] at h1
                push Not at h0
                cases h1
                exact h0.symm
            exact ⟨by rw [hn]; exact h1, ⟨k, hsub k List.mem_cons_self, hn⟩, fun l hl => by rw [hn]; exact hle l hl⟩
          · rw [if_neg hrep] at h1
            cases h1
            exact hgc.resolve_left (gcReplace_false.1 (by simpa using hrep)).1
        cases h1 : gcScheme X F c (need k) gc with
        | abort w => rw [h1] at h; cases h
        | ub w => rw [h1] at h; cases h
        | diverge => rw [h1] at h; cases h
        | ok gc1 =>
          rw [h1, Res.ok_bind] at h
          have hs' := hsel gc1 h1
          cases h2 : gcIntegralsPrecomp X T (c.n + 3) ye.u ye.n1 (c.n - 2) c.g gc1 flag with
          | abort w => rw [h2] at h; cases h
          | ub w => rw [h2] at h; cases h
          | diverge => rw [h2] at h; cases h
          | ok r =>
            rw [h2, Res.ok_bind] at h
            cases h3 : edgeFactors X c ye.ba2 ye.ab ye.c (fun i => if i < c.g then err k (r i) else r i) with
            | abort w => rw [h3] at h; cases h
            | ub w => rw [h3] at h; cases h
            | diverge => rw [h3] at h; cases h
            | ok r1 =>
              rw [h3, Res.ok_bind, Res.ok_bind] at h
              simp only at h
              have hnk : k ∉ ls := (List.nodup_cons.1 hnd).1
              obtain ⟨i1, i2⟩ := ih (fun l hl => hsub l (List.mem_cons_of_mem _ hl)) (List.nodup_cons.1 hnd).2 (List.pairwise_cons.1 hmono).2 _ I' gc1
                (Or.inr ⟨hs'.1, hs'.2.1, fun l hl => hs'.2.2 l (List.mem_cons_of_mem _ hl)⟩) h
              refine ⟨fun l hl => ?_, fun l hl => ?_⟩
              · rw [i1 l fun h => hl (List.mem_cons_of_mem _ h),
                  if_neg fun (h : l = k) => hl (h ▸ List.mem_cons_self)]
              · rcases List.mem_cons.1 hl with rfl | hl
                · refine ⟨ye, gc1.n, r, hk, hs'.2.2 _ List.mem_cons_self, hs'.2.1, ?_, ?_⟩
                  · unfold gcIntegrals
                    rw [hs'.1, Res.ok_bind, h2]
                  · rw [i1 _ hnk, if_pos rfl, h3]
                · exact i2 l hl
  exact (gen ks (fun _ h => h) hnd hmono I I' gc0 (Or.inl h0) h).2

/-- Instance: requirements `12, 12, 7` in this order. -/
example : [0, 1, 2].Nodup ∧ [0, 1, 2].Pairwise fun k l =>
    (fun i => if i = 2 then 7 else 12 : Nat → Nat) l ≤ (fun i => if i = 2 then 7 else 12 : Nat → Nat) k := by
  decide

/-- **C26 (negation).** When the requirement increases, the coarser scheme of the previous edge is kept: for all `0 < old < need`, all
curves, all data and any arithmetic, the row is the one of the rule on `old` points, with the error bound computed for `need`
points. -/
theorem C26_increase_fails (X : Arith A) (T : Tests A) (F : Fns A) (c : Shape) (flag : Nat) (ye : YData A) {old need : Nat}
    (h0 : 0 < old) (h : old < need) (err : A → A) {gc : GcInt A} (hgc : gcIntInit X F old = .ok gc) (hn : gc.n = old) :
    gcScheme X F c need gc = .ok gc ∧ gc.n < need ∧
    integralsEdgeGc X T F c flag ye need err gc = (do
      let r ← gcIntegrals X T F (c.n + 3) ye.u ye.n1 (c.n - 2) c.g old flag
      let r1 ← edgeFactors X c ye.ba2 ye.ab ye.c fun i => if i < c.g then err (r i) else r i
      .ok (gc, r1)) := by
  have hs : gcScheme X F c need gc = .ok gc := by
    unfold gcScheme
    rw [if_neg]
    rw [Bool.not_eq_true, gcReplace_false, hn]
    refine ⟨h0.ne', ?_⟩
    have h1 : ((old : Int) - need) * (c.n + c.g) ≤ 0 :=
      mul_nonpos_of_nonpos_of_nonneg (by omega) (by positivity)
    omega
  refine ⟨hs, hn ▸ h, ?_⟩
  unfold integralsEdgeGc gcIntegrals
  rw [hs, hgc]
  rfl

/-- Instance: one point although a thousand are required, and a rule on one point is far from one on two:
for `p = x^2` the sums are `0` and `pi / 2`. -/
example : ∃ gc, gcIntInit exact exactFns 1 = .ok gc ∧
    (Real.pi / (1 : Nat) * ∑ k ∈ Finset.range 1, (Spec.chebNode 1 k) ^ 2 = 0) ∧
    (Real.pi / (2 : Nat) * ∑ k ∈ Finset.range 2, (Spec.chebNode 2 k) ^ 2 = Real.pi / 2) := by
  obtain ⟨gc, e, -⟩ := gcIntInit_spec 1
  refine ⟨gc, e, ?_, ?_⟩
  · rw [Finset.sum_range_one, chebNode_mid (by norm_num)]; norm_num
  · rw [Finset.sum_range_succ, Finset.sum_range_one, chebNode_symm (n := 2) (j := 1) (k := 0) (by norm_num)]
    have : Spec.chebNode 2 0 = √2 / 2 := by
      unfold Spec.chebNode
      rw [← Real.cos_pi_div_four]
      congr 1
      push_cast
      ring
    rw [this, neg_sq, div_pow, Real.sq_sqrt (by norm_num)]
    push_cast
    ring

end Hcp
