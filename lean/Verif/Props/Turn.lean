import Verif.Proofs.Turn

/-!
# C23: roots computed with the turning number
-/

namespace Hcp

/-- **C23 (partial).** For all `m ≥ 1`, all `d ≥ 1` points different from the argument: when there is a single factor or the
product of the factors is not a negative real number, `mth_root_pol_turn` returns exactly the value of
`mth_root_pol_def`, with no access outside its tables.
Missing: no factor at all (`C23_no_factor_fails`) and products on the negative real axis
(`C23_negative_product_fails`). -/
theorem C23_turn_partial {sz d d1 m : Nat} (hsz : d ≤ sz) (hd : 1 ≤ d) (h1 : d1 ≤ d) (hm : 0 < m)
    (u : Nat → ℂ) (x : ℂ) (hne : ∀ i < d, u i ≠ x)
    (hcut : d = 1 ∨ ¬ ∃ r : ℝ, r < 0 ∧ (-1) ^ d1 * ∏ i ∈ Finset.range d, (x - u i) = r) :
    mthRootPolTurn exact exactTests sz u d1 d x m (fun k => exact.unitRoot m ^ k) m =
      mthRootPolDef exact sz u d1 d x m := by
  unfold mthRootPolTurn
  rcases prodTurn_spec u (d1 := d1) hd hsz x hne with ⟨y, e⟩ | ⟨y, q, e, hy, hq⟩
  · rw [e, Res.ok_bind]
  · rw [e, Res.ok_bind]
    have hq' : d = 1 ∨ sgnImag exactTests y ≠ 0 := by
      rcases hcut with h | h
      · exact Or.inl h
      · right
        rw [sgnImag_ne_zero]
        by_contra hcon
        push Not at hcon
        refine h ⟨y.re, hcon.1, ?_⟩
        rw [← sgnFactor_prod u h1, ← hy]
        exact Complex.ext rfl (by rw [hcon.2, Complex.ofReal_im])
    have hne' : ∀ i < d, sgnFactor u d1 x i ≠ 0 := by
      intro i hi
      unfold sgnFactor
      split
      · exact sub_ne_zero.2 (hne i hi)
      · exact sub_ne_zero.2 (hne i hi).symm
    rw [mthRootPolDef_spec hsz, root_prod (m := m) (sgnFactor u d1 x) hne' hy (hq hq')]
    have hz : exact.unitRoot m ^ q = exact.unitRoot m ^ (normShift q m) := by
      obtain ⟨k, hk⟩ := normShift_dvd q hm
      have hone : exact.unitRoot m ^ m = 1 := by
        show Complex.exp _ ^ m = 1
        rw [← Complex.exp_nat_mul, mul_div_cancel₀ _ (by exact_mod_cast hm.ne'), Complex.exp_two_pi_mul_I]
      have hu0 : exact.unitRoot m ≠ 0 := Complex.exp_ne_zero _
      rw [show q = (normShift q m : Int) + (m : Int) * k by omega, zpow_add₀ hu0, zpow_mul]
      simp only [zpow_natCast, hone, one_zpow, mul_one]
      congr 1
      rw [show (normShift q m : Int) + (m : Int) * k = q by omega]
    simp only
    by_cases h0 : normShift q m = 0
    · rw [if_neg (by simpa using h0), hz, h0, pow_zero, mul_one]
    · rw [if_pos h0, rdV_ok (normShift_lt q hm), Res.ok_bind, hz]
      rfl

/-- **C23 (partial), square roots.** -/
theorem C23_sqrt_turn_partial {sz d d1 : Nat} (hsz : d ≤ sz) (hd : 1 ≤ d) (h1 : d1 ≤ d)
    (u : Nat → ℂ) (x : ℂ) (hne : ∀ i < d, u i ≠ x)
    (hcut : d = 1 ∨ ¬ ∃ r : ℝ, r < 0 ∧ (-1) ^ d1 * ∏ i ∈ Finset.range d, (x - u i) = r) :
    sqrtPolTurn exact exactTests sz u d1 d x = sqrtPolDef exact sz u d1 d x := by
  unfold sqrtPolTurn
  rcases prodTurn_spec u (d1 := d1) hd hsz x hne with ⟨y, e⟩ | ⟨y, q, e, hy, hq⟩
  · rw [e, Res.ok_bind]
  · rw [e, Res.ok_bind]
    have hq' : d = 1 ∨ sgnImag exactTests y ≠ 0 := by
      rcases hcut with h | h
      · exact Or.inl h
      · right
        rw [sgnImag_ne_zero]
        by_contra hcon
        push Not at hcon
        refine h ⟨y.re, hcon.1, ?_⟩
        rw [← sgnFactor_prod u h1, ← hy]
        exact Complex.ext rfl (by rw [hcon.2, Complex.ofReal_im])
    have hne' : ∀ i < d, sgnFactor u d1 x i ≠ 0 := by
      intro i hi
      unfold sgnFactor
      split
      · exact sub_ne_zero.2 (hne i hi)
      · exact sub_ne_zero.2 (hne i hi).symm
    rw [sqrtPolDef_spec hsz, root_prod (m := 2) (sgnFactor u d1 x) hne' hy (hq hq')]
    have hu : exact.unitRoot 2 = -1 := by
      show Complex.exp (2 * Real.pi * Complex.I / (2 : Nat)) = -1
      rw [← Complex.exp_pi_mul_I]; congr 1; push_cast; ring
    have hs : ∀ z : ℂ, exact.sqrt z = exact.root 2 z := by intro z; simp [exact]
    simp only [hu, hs]
    by_cases h0 : q.tmod 2 = 0
    · rw [if_neg (by simpa using h0),
        Even.neg_one_zpow (even_iff_two_dvd.2 (Int.dvd_of_tmod_eq_zero h0)), mul_one]
    · rw [if_pos h0, Odd.neg_one_zpow (Int.not_even_iff_odd.1
        fun h => h0 (Int.tmod_eq_zero_of_dvd (even_iff_two_dvd.1 h)))]
      congr 1
      show -_ = _
      ring

/-- non-trivial instance, with a genuine turn: `t = (-1+i)(-1+i)(-1+i) = 2+2i` -/
example : ¬ ∃ r : ℝ, r < 0 ∧ (-1 : ℂ) ^ 3 * ∏ i ∈ Finset.range 3,
    ((0 : ℂ) - (fun _ => -1 + Complex.I) i) = r := by
  rintro ⟨r, -, h⟩
  have h1 : (2 : ℂ) + 2 * Complex.I = r := by
    rw [← h, Finset.prod_range_succ, Finset.prod_range_succ, Finset.prod_range_one]
    linear_combination (3 - Complex.I) * Complex.I_sq
  have h2 := congrArg Complex.im h1
  simp at h2

/-- **C23 (negation).** For every `m ≥ 2` the two routines disagree on the product `i · i = -1`: the turning number is
advanced although the argument of the product is `π`, and the result is the definition times `exp(2 i pi / m)`. -/
theorem C23_negative_product_fails {m : Nat} (hm : 2 ≤ m) :
    ∃ v, mthRootPolDef exact 2 (fun _ => Complex.I) 2 2 0 m = .ok v ∧
      mthRootPolTurn exact exactTests 2 (fun _ => Complex.I) 2 2 0 m (fun k => exact.unitRoot m ^ k) m =
        .ok (v * exact.unitRoot m) ∧ v * exact.unitRoot m ≠ v := by
  have hf : ∀ k < 2, sgnFactor (fun _ => Complex.I) 2 0 k = Complex.I := by
    intro k hk; rw [sgnFactor, if_pos hk, sub_zero]
  have hprod : prodTurn exact exactTests 2 (fun _ => Complex.I) 2 2 0 = .ok (-1, some 1) := by
    have e1 : sgnImag exactTests Complex.I = 1 := by rw [sgnImag_exact]; simp
    have e2 : sgnImag exactTests (-1) = 0 := by rw [sgnImag_exact]; simp
    have e3 : exact.sub Complex.I 0 = Complex.I := sub_zero _
    have e4 : exact.mul Complex.I Complex.I = -1 := Complex.I_mul_I
    simp [prodTurn, rdV, turnLoop, factorAt, turnStep, e1, e2, e3, e4]
  have hroot : exact.root m (-1) = exact.root m Complex.I * exact.root m Complex.I := by
    have h1 : exact.root m (-1) = Complex.exp (Complex.log (-1) * (m : ℂ)⁻¹) :=
      Complex.cpow_def_of_ne_zero (by norm_num) _
    have h2 : exact.root m Complex.I = Complex.exp (Complex.log Complex.I * (m : ℂ)⁻¹) :=
      Complex.cpow_def_of_ne_zero Complex.I_ne_zero _
    rw [h1, h2, ← Complex.exp_add, Complex.log_neg_one, Complex.log_I]
    congr 1
    ring
  have h0 : exact.root m Complex.I * exact.root m Complex.I ≠ 0 := by
    have : exact.root m Complex.I ≠ 0 := by
      show Complex.I ^ _ ≠ 0
      rw [Complex.cpow_def_of_ne_zero Complex.I_ne_zero]
      exact Complex.exp_ne_zero _
    exact mul_ne_zero this this
  refine ⟨exact.root m Complex.I * exact.root m Complex.I, ?_, ?_, ?_⟩
  · rw [mthRootPolDef_spec le_rfl, Finset.prod_range_succ, Finset.prod_range_one, hf 0 (by omega), hf 1 (by omega)]
  · have hn : normShift 1 m = 1 := by
      have := normShift_one hm; exact this
    unfold mthRootPolTurn
    rw [hprod, Res.ok_bind]
    simp only [hn]
    rw [if_pos one_ne_zero, rdV_ok (show 1 < m by omega), Res.ok_bind, pow_one, hroot]
    rfl
  · intro h
    have h1 : exact.unitRoot m = 1 := by
      have := mul_left_cancel₀ h0 (h.trans (mul_one _).symm)
      exact this
    have h2 : Complex.exp (2 * Real.pi * Complex.I / m) = 1 := h1
    rw [Complex.exp_eq_one_iff] at h2
    obtain ⟨k, hk⟩ := h2
    have hm0 : (m : ℂ) ≠ 0 := by exact_mod_cast (show m ≠ 0 by omega)
    have hpi : (2 * Real.pi * Complex.I : ℂ) ≠ 0 := Complex.two_pi_I_ne_zero
    have h3 : (k : ℂ) * m = 1 := by
      rw [div_eq_iff hm0] at hk
      apply mul_right_cancel₀ hpi
      linear_combination -hk
    have h4 : k * (m : Int) = 1 := by exact_mod_cast h3
    have h5 : (m : Int) ∣ 1 := ⟨k, by linarith⟩
    have := Int.le_of_dvd (by norm_num) h5
    omega

/-- **C23 (negation, no factor).** With no factor (two branch points) the definition is `1`, while the turning version
reads the first cell of the array (an unrelated number) and returns its root. -/
theorem C23_no_factor_fails {sz m : Nat} (hsz : 0 < sz) (u : Nat → ℂ) (x : ℂ) :
    mthRootPolDef exact sz u 0 0 x m = .ok 1 ∧
      mthRootPolTurn exact exactTests sz u 0 0 x m (fun k => exact.unitRoot m ^ k) m =
        .ok (exact.root m (x - u 0)) := by
  refine ⟨rfl, ?_⟩
  have h : exact.neg (exact.sub (u 0) x) = x - u 0 := by
    show -(u 0 - x) = _
    ring
  simp [mthRootPolTurn, prodTurn, rdV_ok hsz, turnLoop, h, normShift]

end Hcp
