import Verif.Proofs.GcParams
import Mathlib.Analysis.Complex.ExponentialBounds
import Mathlib.Analysis.Real.Pi.Bounds
import Mathlib.Analysis.SpecialFunctions.Trigonometric.DerivHyp

/-!
# C45: the error bound of the Gauss-Chebyshev integrals
-/

namespace Hcp

variable {A B : Type} {P : ParOps A B} {D : DblOps} {RA : A → ℂ → Prop} {RB : B → ℝ → Prop}

theorem exp_chain {r0 q : ℝ} (h0 : 0 < r0) (hq : 0 < q) (d : Nat) (prec : Int) :
    Real.exp (Real.log (Real.sqrt (2 * Real.pi)) * 2 ^ (1 : Int) + Real.log r0 * (d : Int) + Real.log 2 * prec - Real.log q / 2) * 2 ^ (-prec) =
      2 * Real.pi * (r0 ^ d / q ^ (1 / (2 : Nat) : ℝ)) := by
  have hp := Real.pi_pos
  have e1 : Real.log (Real.sqrt (2 * Real.pi)) * 2 ^ (1 : Int) = Real.log (2 * Real.pi) := by
    rw [Real.log_sqrt (by positivity), zpow_one]
    ring
  have e2 : Real.exp (Real.log r0 * (d : Int)) = r0 ^ d := by
    rw [Int.cast_natCast, mul_comm, Real.exp_nat_mul, Real.exp_log h0]
  have e3 : Real.exp (Real.log 2 * prec) = 2 ^ prec := by
    rw [← Real.rpow_def_of_pos (by norm_num), Real.rpow_intCast]
  have e4 : Real.exp (Real.log q / 2) = q ^ (1 / (2 : Nat) : ℝ) := by
    rw [Real.rpow_def_of_pos hq]
    push_cast
    ring_nf
  rw [e1, Real.exp_sub, Real.exp_add, Real.exp_add, Real.exp_log (by positivity), e2, e3, e4, zpow_neg]
  have : (2 : ℝ) ^ prec ≠ 0 := zpow_ne_zero _ (by norm_num)
  field_simp

theorem gcParams_sep (H : Spec.ParSound P RA RB) {u : List A} {u' : List ℂ} (hu : List.Forall₂ RA u u') {fuel d : Nat} {prec : Int}
    {p : GcPar} (h : gcParams P D fuel u d prec = .ok p) (h1 : 1 < p.r) (h2 : p.r ≤ p.r0) : ∀ z ∈ u', p.r < Spec.rOf z := by
  simp only [gcParams, Res.bind_eq_ok] at h
  obtain ⟨⟨r0, vr⟩, hv, ⟨r, m⟩, hl, n, hn', n2, hn2, h⟩ := h
  obtain rfl := Res.ok.inj h
  simp only at h1 h2
  obtain ⟨k1, -, k3⟩ := vecR_sound H hu hv
  have hr0 : 0 < r0.getD 0 := by linarith
  have hm0 := H.add (H.add (H.mul2exp 1 H.logSqrt2pi) (H.mulSi (d : Int) (H.log (H.ball (r0.getD 0) 0 (le_refl _)) hr0))) (H.mulSi prec H.log2)
  have hle : ∀ z ∈ u', P.mid r ≤ Spec.rOf z := by
    intro z hz
    obtain ⟨s, rfl, hs⟩ := k3 z hz
    exact h2.trans hs
  exact (majYr_sound H hm0 k1 hle (gcParLoop_ok hl)).1

/-- **C45 (partial).** Let the balls `u` contain the points `u'`, and let the computation of the parameters return the number of points `p.n` and the error
`e`.  If the ellipse parameter `p.r` it settles on is in `(1, r0]`, then with `N ≥ p.n` points the Gauss-Chebyshev sum of `x^i / y` differs from the integral
by at most `e`, for every exponent `i ≤ d`.  Not proved: that the choice of `r` in double precision satisfies `1 < r ≤ r0`; see `C45_choice_fails`. -/
theorem C45_error_partial (H : Spec.ParSound P RA RB) {u : List A} {u' : List ℂ} (hu : List.Forall₂ RA u u') {fuel d : Nat} {prec : Int}
    {p : GcPar} {e : ℝ} (h : gcParams P D fuel u d prec = .ok p) (he : p.e = some e) (h1 : 1 < p.r) (h2 : p.r ≤ p.r0) (hn : 1 ≤ p.n)
    {N : Nat} (hN : p.n ≤ N) {i : Nat} (hi : i ≤ d) {n1 : Nat} (hn1 : n1 ≤ u'.length) :
    ‖(Real.pi / N : ℂ) * ∑ k ∈ Finset.range N, (Real.cos ((2 * k + 1) / (2 * N) * Real.pi) : ℂ) ^ i /
        Spec.edgeY 2 n1 u'.length (fun k => u'.getD k 0) (Real.cos ((2 * k + 1) / (2 * N) * Real.pi)) -
      ∫ x in (-1 : ℝ)..1, (x : ℂ) ^ i / Spec.edgeY 2 n1 u'.length (fun k => u'.getD k 0) x * ((√(1 - x ^ 2)⁻¹ : ℝ) : ℂ)‖ ≤ e := by
  simp only [gcParams, Res.bind_eq_ok] at h
  obtain ⟨⟨r0, vr⟩, hv, ⟨r, m⟩, hl, n, hn', n2, hn2, h⟩ := h
  obtain rfl := Res.ok.inj h
  simp only at he h1 h2 hn hN
  have hn2' : n2 = 2 * n := by
    unfold chk at hn2
    split at hn2
    · exact (Res.ok.inj hn2).symm
    · cases hn2
  subst hn2'
  obtain ⟨k1, -, k3⟩ := vecR_sound H hu hv
  have hr0 : 0 < r0.getD 0 := by linarith
  have hm0 := H.add (H.add (H.mul2exp 1 H.logSqrt2pi) (H.mulSi (d : Int) (H.log (H.ball (r0.getD 0) 0 (le_refl _)) hr0))) (H.mulSi prec H.log2)
  have hle : ∀ z ∈ u', P.mid r ≤ Spec.rOf z := by
    intro z hz
    obtain ⟨s, rfl, hs⟩ := k3 z hz
    exact h2.trans hs
  obtain ⟨hlt, hm⟩ := majYr_sound H hm0 k1 hle (gcParLoop_ok hl)
  have hpos : 0 < (u'.map fun z => Spec.rOf z - P.mid r).prod := by
    apply List.prod_pos
    intro a ha
    obtain ⟨z, hz, rfl⟩ := List.mem_map.1 ha
    linarith [hlt z hz]
  have hnum := H.mul2exp (-prec) (H.exp hm)
  rw [exp_chain hr0 hpos] at hnum
  have ha := H.acosh (H.mid r) h1.le
  have hapos : 0 < Real.arcosh (P.mid r) := Real.arcosh_pos h1
  set a := Real.arcosh (P.mid r) with had
  have hR : 1 < Real.exp a := by
    rw [← Real.exp_zero]
    exact Real.exp_lt_exp.2 hapos
  have hRr : Real.exp a + (Real.exp a)⁻¹ = 2 * P.mid r := by
    rw [← Real.exp_neg, ← Real.cosh_arcosh h1.le, ← had, Real.cosh_eq]
    ring
  have hden := H.sub1 (H.exp (H.mulSi (2 * n) ha))
  have hne : Real.exp (a * (2 * n : Int)) - 1 = Real.exp a ^ (2 * n.toNat) - 1 := by
    rw [← Real.exp_nat_mul]
    congr 2
    have : ((n.toNat : ℕ) : ℝ) = (n : ℝ) := by exact_mod_cast Int.toNat_of_nonneg (by omega : 0 ≤ n)
    push_cast
    rw [this]
    ring
  rw [hne] at hden
  have hpow : ∀ k : Nat, 0 < k → 1 < Real.exp a ^ (2 * k) := fun k hk => one_lt_pow₀ hR (by omega)
  have hd1 := hpow n.toNat (by omega)
  have hbound := H.mag he (H.div hnum hden (by linarith))
  have hlt' : ∀ k < u'.length, P.mid r < Spec.rOf (u'.getD k 0) := by
    intro k hk
    rw [List.getD_eq_getElem?_getD, List.getElem?_eq_getElem hk]
    exact hlt _ (List.getElem_mem hk)
  have key := edge_rule_error hR hRr (m := 2) (n1 := n1) hn1 (u := fun k => u'.getD k 0) hlt' i (n := N) (by omega)
  refine key.trans (le_trans ?_ ((le_abs_self _).trans hbound))
  rw [list_prod_range u' fun z => Spec.rOf z - P.mid r] at hpos ⊢
  have hq := Real.rpow_pos_of_pos hpos (1 / (2 : Nat) : ℝ)
  have hmono : Real.exp a ^ (2 * n.toNat) ≤ Real.exp a ^ (2 * N) := pow_le_pow_right₀ hR.le (by omega)
  have hnumle : P.mid r ^ i ≤ r0.getD 0 ^ d := calc
    P.mid r ^ i ≤ P.mid r ^ d := pow_le_pow_right₀ h1.le hi
    _ ≤ r0.getD 0 ^ d := by gcongr
  have hden0 : 0 < Real.exp a ^ (2 * n.toNat) - 1 := by linarith
  have hp := Real.pi_pos
  have : 0 ≤ P.mid r ^ i := by positivity
  gcongr

/-! ## Exact arithmetic -/

theorem exactPar_sound : Spec.ParSound exactPar (fun a z => a = z) (fun b x => b = x) where
  addSi k h := by subst h; rfl
  abs h := by subst h; rfl
  add h1 h2 := by subst h1 h2; rfl
  sub h1 h2 := by subst h1 h2; rfl
  mul h1 h2 := by subst h1 h2; rfl
  div h1 h2 _ := by subst h1 h2; rfl
  mulSi k h := by subst h; rfl
  mul2exp k h := by subst h; rfl
  sub1 h := by subst h; rfl
  subArf t h := by subst h; rfl
  log h _ := by subst h; rfl
  exp h := by subst h; rfl
  acosh h _ := by subst h; rfl
  logSqrt2pi := rfl
  log2 := rfl
  one := rfl
  isPositive h1 h2 := by subst h2; simpa [exactPar] using h1
  overlaps h1 h2 h3 := by subst h2; simp [exactPar] at h1; exact h1 h3.symm
  ball _ _ _ := rfl
  mid _ := rfl
  mid_ball _ _ := rfl
  absLbound h := by subst h; exact le_refl _
  ubound h1 h2 := by subst h2; simp only [exactPar, Option.some.injEq] at h1; exact h1.le
  mag h1 h2 := by subst h2; simp only [exactPar, Option.some.injEq] at h1; exact h1.le

/-- **C45 (precision).** In exact arithmetic the number of points is large enough for the precision: if the bound of the integrand `2 pi r0^d / sqrt(∏ (r_k - r))` is at least `2^(1-prec)`
(otherwise no point would be needed), the returned error is at most `2^(1-prec)`. -/
theorem C45_precision {u : List ℂ} {fuel d : Nat} {prec : Int} {p : GcPar} (h : gcParams exactPar D fuel u d prec = .ok p) (h1 : 1 < p.r) (h2 : p.r ≤ p.r0)
    (hbig : (2 : ℝ) ^ (1 - prec) ≤ 2 * Real.pi * (p.r0 ^ d / (∏ k ∈ Finset.range u.length, (Spec.rOf (u.getD k 0) - p.r)) ^ (1 / (2 : Nat) : ℝ))) :
    1 ≤ p.n ∧ ∃ e, p.e = some e ∧ e ≤ 2 ^ (1 - prec) := by
  have hsep := gcParams_sep exactPar_sound (u' := u) (List.forall₂_same.2 fun _ _ => rfl) h h1 h2
  simp only [gcParams, Res.bind_eq_ok] at h
  obtain ⟨⟨r0, vr⟩, hv, ⟨r, m⟩, hl, n, hn', n2, hn2, h⟩ := h
  obtain rfl := Res.ok.inj h
  simp only at h1 h2 hbig hsep
  have hn2' : n2 = 2 * n := by
    unfold chk at hn2
    split at hn2
    · exact (Res.ok.inj hn2).symm
    · cases hn2
  subst hn2'
  obtain ⟨k1, -, k3⟩ := vecR_sound exactPar_sound (u' := u) (List.forall₂_same.2 fun _ _ => rfl) hv
  have hr0 : 0 < r0.getD 0 := by linarith
  have hm := (majYr_sound exactPar_sound (u' := u) rfl k1 (fun z hz => (hsep z hz).le) (gcParLoop_ok hl)).2
  have hpos : 0 < (u.map fun z => Spec.rOf z - exactPar.mid r).prod := by
    apply List.prod_pos
    intro a ha
    obtain ⟨z, hz, rfl⟩ := List.mem_map.1 ha
    linarith [hsep z hz]
  have hchain := exp_chain hr0 hpos d prec
  rw [← list_prod_range u fun z => Spec.rOf z - exactPar.mid r, ← hchain] at hbig
  have hm' : m = Real.log (Real.sqrt (2 * Real.pi)) * 2 ^ (1 : Int) + Real.log (r0.getD 0) * (d : Int) + Real.log 2 * prec - Real.log (u.map fun z => Spec.rOf z - exactPar.mid r).prod / 2 := hm
  rw [← hm'] at hbig
  have h2p : (0 : ℝ) < 2 ^ (-prec) := zpow_pos (by norm_num) _
  have hE : 2 ≤ Real.exp m := by
    rw [show (1 - prec : Int) = 1 + (-prec) by ring, zpow_add₀ (by norm_num), zpow_one] at hbig
    exact le_of_mul_le_mul_right hbig h2p
  have hmpos : 0 < m := by
    by_contra hcon
    have := Real.exp_le_one_iff.2 (not_lt.1 hcon)
    linarith
  have hr' : exactPar.mid r = r := rfl
  rw [hr'] at h1
  have hapos : 0 < Real.arcosh r := Real.arcosh_pos h1
  have hnval : n = ⌈m / Real.arcosh r * 2 ^ (-1 : Int)⌉ := by
    simp only [arfGetSi, exactPar] at hn'
    split at hn'
    · exact (Res.ok.inj hn').symm
    · cases hn'
  have hle : m ≤ Real.arcosh r * (2 * n : Int) := by
    have := Int.le_ceil (m / Real.arcosh r * 2 ^ (-1 : Int))
    rw [← hnval, zpow_neg_one, ← div_eq_mul_inv, div_div, div_le_iff₀ (by positivity)] at this
    push_cast
    linarith
  have hn1 : 1 ≤ n := by
    rw [hnval]
    exact Int.one_le_ceil_iff.2 (by positivity)
  refine ⟨hn1, _, rfl, ?_⟩
  change |Real.exp m * 2 ^ (-prec) / (Real.exp (Real.arcosh r * (2 * n : Int)) - 1)| ≤ 2 ^ (1 - prec)
  have hexp := Real.exp_le_exp.2 hle
  have hd0 : 0 < Real.exp (Real.arcosh r * (2 * n : Int)) - 1 := by linarith
  rw [abs_of_nonneg (by positivity), div_le_iff₀ hd0, show (1 - prec : Int) = 1 + (-prec) by ring, zpow_add₀ (by norm_num), zpow_one]
  nlinarith

/-- double precision functions of the instance below: the parameter chosen is `3/2` -/
noncomputable def dblInst : DblOps where
  acosh _ := some 1
  affine _ _ := some 1
  eps _ _ := some 1
  coshMul _ _ := some (3 / 2)

theorem half_lt_arcosh : 1 / 2 < Real.arcosh (3 / 2) := by
  by_contra hcon
  rw [not_lt] at hcon
  have h0 : 0 ≤ Real.arcosh (3 / 2) := Real.arcosh_nonneg (by norm_num)
  have h1 : Real.cosh (Real.arcosh (3 / 2)) ≤ Real.cosh (1 / 2) := by
    rw [Real.cosh_le_cosh, abs_of_nonneg h0, abs_of_pos (by norm_num)]
    exact hcon
  rw [Real.cosh_arcosh (by norm_num)] at h1
  have h2 : Real.exp (-(1 / 2)) < 1 := by
    rw [← Real.exp_zero]
    exact Real.exp_lt_exp.2 (by norm_num)
  have h3 := Real.exp_bound_div_one_sub_of_interval (x := 1 / 2) (by norm_num) (by norm_num)
  rw [Real.cosh_eq] at h1
  norm_num at h3 h1
  linarith

/-- Instance of `C45_error_partial` and `C45_precision`: one other branch point, at `2`, 64 bits. -/
theorem gcParams_inst : ∃ p e, gcParams exactPar dblInst 2 [2] (1 : Nat) 64 = .ok p ∧ p.e = some e ∧ 1 < p.r ∧ p.r ≤ p.r0 ∧ 1 ≤ p.n ∧
    (2 : ℝ) ^ (1 - 64 : Int) ≤ 2 * Real.pi * (p.r0 ^ 1 / (∏ k ∈ Finset.range [(2 : ℂ)].length, (Spec.rOf ([(2 : ℂ)].getD k 0) - p.r)) ^ (1 / (2 : Nat) : ℝ)) := by
  have hr : funcRGc exactPar 2 = .ok (2 : ℝ) := by
    have e : exactPar.mul2exp (exactPar.add (exactPar.abs (exactPar.addSi 2 (-1))) (exactPar.abs (exactPar.addSi 2 1))) (-1) = (2 : ℝ) := by
      simp only [exactPar]
      norm_num
    unfold funcRGc
    rw [e]
    rw [if_pos]
    simp only [exactPar, decide_eq_true_eq]
    norm_num
  have hv : vecR exactPar [2] none = .ok (some 2, [2]) := by
    simp only [vecR, hr, Res.ok_bind]
    simp [exactPar]
  have hmaj1 : ∀ m0 : ℝ, majYr exactPar m0 (2 : ℝ) [2] = .ok (m0, 1) := by
    intro m0
    simp [majYr, majLoop, exactPar]
  have hmaj2 : ∀ m0 : ℝ, majYr exactPar m0 (3 / 2 : ℝ) [2] = .ok (m0 - Real.log (1 / 2) / 2, 0) := by
    intro m0
    have h1 : ¬ ((3 / 2 : ℝ) = 2) := by norm_num
    simp only [majYr, majLoop, exactPar, decide_eq_true_eq, h1, if_false, if_true]
    norm_num
    ring
  have hch : ∀ m : ℝ, chooseR exactPar dblInst 2 m 1 = .ok (3 / 2 : ℝ) := by
    intro m
    have e : (do
      let R ← dblInst.acosh 2
      let A ← dblInst.affine (exactPar.mid m) 1
      let eps ← dblInst.eps A R
      dblInst.coshMul R eps) = some (3 / 2 : ℝ) := rfl
    unfold chooseR
    rw [e]
    simp only
    rw [if_neg (by norm_num)]
    rfl
  have hl : ∀ m0 : ℝ, gcParLoop exactPar dblInst 2 m0 [2] 2 (2 : ℝ) = .ok (3 / 2, m0 - Real.log (1 / 2) / 2) := by
    intro m0
    simp only [gcParLoop, hmaj1, hmaj2, hch, Res.ok_bind, if_true, one_ne_zero, if_false]
  obtain ⟨M, hM, hM0, hM1⟩ : ∃ M : ℝ, M = Real.log (Real.sqrt (2 * Real.pi)) * 2 ^ (1 : Int) + Real.log 2 * ((1 : Nat) : Int) + Real.log 2 * (64 : Int) - Real.log (1 / 2) / 2 ∧
      0 < M ∧ M ≤ 100 := by
    refine ⟨_, rfl, ?_, ?_⟩
    all_goals
      rw [Real.log_sqrt (by positivity), zpow_one, one_div, Real.log_inv]
      push_cast
      have h2 : 0 < Real.log 2 := Real.log_pos (by norm_num)
      have h3 := Real.log_two_lt_d9
    · have : 0 < Real.log (2 * Real.pi) := Real.log_pos (by linarith [Real.pi_gt_three])
      linarith
    · have := Real.log_le_sub_one_of_pos (x := 2 * Real.pi) (by positivity)
      linarith [Real.pi_le_four]
  have ha := half_lt_arcosh
  have ht : 0 < M / Real.arcosh (3 / 2) * 2 ^ (-1 : Int) ∧ M / Real.arcosh (3 / 2) * 2 ^ (-1 : Int) ≤ 100 := by
    rw [zpow_neg_one]
    constructor
    · positivity
    · rw [← div_eq_mul_inv, div_div, div_le_iff₀ (by positivity)]
      nlinarith
  have hn1 : 1 ≤ ⌈M / Real.arcosh (3 / 2) * 2 ^ (-1 : Int)⌉ := Int.one_le_ceil_iff.2 ht.1
  have hn2 : ⌈M / Real.arcosh (3 / 2) * 2 ^ (-1 : Int)⌉ ≤ 100 := Int.ceil_le.2 (by exact_mod_cast ht.2)
  have hrun : ∃ e, gcParams exactPar dblInst 2 [2] (1 : Nat) 64 = .ok { n := ⌈M / Real.arcosh (3 / 2) * 2 ^ (-1 : Int)⌉, e := some e, r := 3 / 2, r0 := 2 } := by
    have hb : (exactPar.ball 2 (2 / ((64 : Int) : ℝ)) : ℝ) = 2 := rfl
    simp only [gcParams, hv, Res.ok_bind, Option.getD_some, hb, hl]
    have hsi : arfGetSi (exactPar.ubound (exactPar.mul2exp (exactPar.div (exactPar.add (exactPar.add (exactPar.mul2exp exactPar.logSqrt2pi 1) (exactPar.mulSi (exactPar.log (exactPar.ball 2 0)) ((1 : Nat) : Int))) (exactPar.mulSi exactPar.log2 64) - Real.log (1 / 2) / 2) (exactPar.acosh (3 / 2))) (-1))) = .ok ⌈M / Real.arcosh (3 / 2) * 2 ^ (-1 : Int)⌉ := by
      have : exactPar.ubound (exactPar.mul2exp (exactPar.div (exactPar.add (exactPar.add (exactPar.mul2exp exactPar.logSqrt2pi 1) (exactPar.mulSi (exactPar.log (exactPar.ball 2 0)) ((1 : Nat) : Int))) (exactPar.mulSi exactPar.log2 64) - Real.log (1 / 2) / 2) (exactPar.acosh (3 / 2))) (-1)) =
          some (M / Real.arcosh (3 / 2) * 2 ^ (-1 : Int)) := by
        rw [hM]
        rfl
      rw [this]
      unfold arfGetSi
      simp only
      rw [if_pos]
      unfold FitsSlong slongMin slongMax
      omega
    rw [hsi, Res.ok_bind, chk_ok (by unfold FitsSlong slongMin slongMax; omega), Res.ok_bind]
    exact ⟨|_|, rfl⟩
  obtain ⟨e, hrun⟩ := hrun
  refine ⟨_, e, hrun, rfl, by norm_num, by norm_num, hn1, ?_⟩
  simp only [List.length_singleton, Finset.prod_range_one]
  have e1 : Spec.rOf ([(2 : ℂ)].getD 0 0) = 2 := by
    simp only [List.getD_cons_zero, Spec.rOf]
    norm_num
  rw [e1]
  have h1 : ((2 : ℝ) - 3 / 2) ^ (1 / (2 : Nat) : ℝ) ≤ 1 := Real.rpow_le_one (by norm_num) (by norm_num) (by norm_num)
  have h2 : 0 < ((2 : ℝ) - 3 / 2) ^ (1 / (2 : Nat) : ℝ) := Real.rpow_pos_of_pos (by norm_num) _
  have h3 : (2 : ℝ) ≤ 2 ^ 1 / ((2 : ℝ) - 3 / 2) ^ (1 / (2 : Nat) : ℝ) := by
    rw [le_div_iff₀ h2]
    linarith
  have h4 : (2 : ℝ) ^ (1 - 64 : Int) ≤ 1 := by
    rw [show (1 - 64 : Int) = -(63 : Nat) by norm_num, zpow_neg, zpow_natCast]
    exact inv_le_one_of_one_le₀ (one_le_pow₀ (by norm_num))
  have h5 := Real.pi_gt_three
  nlinarith

/-- **C45 (choice of the ellipse).** Without rounding in the double precision computations, as soon as `1 + 2 M / K > acosh r0` the next parameter lies in `(1, r0)`, as
`C45_error_partial` needs. -/
theorem C45_choice_partial {r0 : ℝ} (h0 : 1 < r0) {m r : B} {K : Nat} (hA : Real.arcosh r0 < 1 + 2 * P.mid m / K)
    (h : chooseR P exactDbl r0 m K = .ok r) : ∃ ρ, r = P.ball ρ 0 ∧ 1 < ρ ∧ ρ < r0 := by
  have hR := Real.arcosh_pos h0
  set R := Real.arcosh r0 with hRd
  set A := 1 + 2 * P.mid m / K with hAd
  have hlog : 0 < Real.log (A / R) := Real.log_pos (by rw [lt_div_iff₀ hR]; linarith)
  have e : (do
      let R ← exactDbl.acosh r0
      let A ← exactDbl.affine (P.mid m) K
      let eps ← exactDbl.eps A R
      exactDbl.coshMul R eps) = some (Real.cosh (R * (1 - R / (A + Real.log (A / R))))) := by
    simp only [exactDbl, if_pos h0.le, Option.bind_eq_bind, Option.bind_some, ← hRd, ← hAd]
    rw [if_neg (by linarith), if_neg hR.ne', if_neg (by linarith), if_neg (by linarith)]
    rfl
  unfold chooseR at h
  rw [e] at h
  simp only at h
  split at h
  · cases h
  refine ⟨_, (Res.ok.inj h).symm, ?_, ?_⟩
  all_goals
    have hd : R < A + Real.log (A / R) := by linarith
    have hq : 0 < R / (A + Real.log (A / R)) := div_pos hR (by linarith)
    have hq1 : R / (A + Real.log (A / R)) < 1 := (div_lt_one (by linarith)).2 hd
  · rw [Real.one_lt_cosh]
    exact (mul_pos hR (by linarith)).ne'
  · rw [← Real.cosh_arcosh h0.le, ← hRd, Real.cosh_lt_cosh, abs_of_pos hR, abs_of_pos (mul_pos hR (by linarith))]
    nlinarith

/-- **C45 (range of the choice).** Whatever the double precision functions return, a parameter below `1` is never used: `choose_r` either aborts or returns an exact ball at a point
at least `1`; it aborts exactly for a value below `1` (or, in `maj_yr`, for NaN and infinities). -/
theorem C45_choice_range (D : DblOps) (r0 : ℝ) (m : B) (K : Nat) :
    (∀ r, chooseR P D r0 m K = .ok r → ∃ ρ, r = P.ball ρ 0 ∧ 1 ≤ ρ) ∧
    ∀ R A eps ρ, D.acosh r0 = some R → D.affine (P.mid m) K = some A → D.eps A R = some eps → D.coshMul R eps = some ρ →
      chooseR P D r0 m K = if ρ < 1 then .abort "choose_r" else .ok (P.ball ρ 0) := by
  constructor
  · intro r h
    unfold chooseR at h
    split at h
    · split at h
      · cases h
      · exact ⟨_, (Res.ok.inj h).symm, not_lt.1 ‹_›⟩
    · cases h
  · intro R A eps ρ h1 h2 h3 h4
    unfold chooseR
    simp only [h1, h2, h3, h4, Option.bind_eq_bind, Option.bind_some]

/-- **C45 (negation).** Without such a condition the choice can leave the ellipse free of branch points: for `r0 = cosh 1`, `K = 2` and `M = -9/10`
the parameter chosen is larger than `r0`, in exact arithmetic. -/
theorem C45_choice_fails : ∃ ρ, chooseR exactPar exactDbl (Real.cosh 1) (-9 / 10) 2 = .ok ρ ∧ Real.cosh 1 < ρ := by
  have h0 : 1 < Real.cosh 1 := Real.one_lt_cosh.2 one_ne_zero
  have hR : Real.arcosh (Real.cosh 1) = 1 := Real.arcosh_cosh (by norm_num)
  have hlog : Real.log (1 / 10 / 1) < -1 := by
    rw [div_one, one_div, Real.log_inv]
    have : Real.log (Real.exp 1) < Real.log 10 := Real.log_lt_log (Real.exp_pos _) (by linarith [Real.exp_one_lt_d9])
    rw [Real.log_exp] at this
    linarith
  have e : (do
      let R ← exactDbl.acosh (Real.cosh 1)
      let A ← exactDbl.affine (exactPar.mid (-9 / 10)) 2
      let eps ← exactDbl.eps A R
      exactDbl.coshMul R eps) = some (Real.cosh (1 * (1 - 1 / (1 / 10 + Real.log (1 / 10 / 1))))) := by
    simp only [exactDbl, exactPar, if_pos h0.le, Option.bind_eq_bind, Option.bind_some, hR]
    rw [show (1 : ℝ) + 2 * (-9 / 10) / ((2 : Nat) : ℝ) = 1 / 10 by norm_num]
    rw [if_neg (by norm_num), if_neg (by norm_num), if_neg (by norm_num), if_neg (by linarith)]
    rfl
  have hgt : Real.cosh 1 < Real.cosh (1 * (1 - 1 / (1 / 10 + Real.log (1 / 10 / 1)))) := by
    have : 1 / (1 / 10 + Real.log (1 / 10 / 1)) < 0 := div_neg_of_pos_of_neg one_pos (by linarith)
    rw [Real.cosh_lt_cosh, abs_of_pos one_pos, abs_of_pos (by linarith)]
    linarith
  refine ⟨_, ?_, hgt⟩
  unfold chooseR
  rw [e]
  simp only
  rw [if_neg (by linarith)]
  rfl

end Hcp
