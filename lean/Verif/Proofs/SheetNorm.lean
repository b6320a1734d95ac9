import Verif.Proofs.PlaneRank
import Verif.Proofs.Sheet

/-!
# Numbering of the sheets at the branch points

The gaps between the branches stored at one point come from a numbering of the sheets at this point.
-/

namespace Hcp
open Complex PlaneTree

/-- the branch of limit `Y` in direction `d`, turned back to the positive axis and rescaled -/
noncomputable def nrmY (m : Nat) (d Y : ℂ) : ℂ := Y / ((‖d‖ ^ ((m : ℝ)⁻¹) : ℝ) * exp (d.arg * I / m))

theorem nrm_den_ne {m : Nat} {d : ℂ} (hd : d ≠ 0) : (((‖d‖ ^ ((m : ℝ)⁻¹) : ℝ) : ℂ) * exp (d.arg * I / m)) ≠ 0 := by
  refine mul_ne_zero ?_ (exp_ne_zero _)
  have : 0 < ‖d‖ ^ ((m : ℝ)⁻¹) := Real.rpow_pos_of_pos (norm_pos_iff.2 hd) _
  exact_mod_cast this.ne'

theorem zeta_zpow_eq {m : Nat} (hm : 0 < m) {i j : ℤ} (h : Spec.zeta m ^ i = Spec.zeta m ^ j) : (m : ℤ) ∣ i - j := by
  have h2 : Spec.zeta m ^ (i - j) = 1 := by
    rw [zpow_sub₀ (zeta_ne_zero m), h, div_self (zpow_ne_zero _ (zeta_ne_zero m))]
  unfold Spec.zeta at h2
  rw [← exp_int_mul, exp_eq_one_iff] at h2
  obtain ⟨k, hk⟩ := h2
  have hm0 : (m : ℂ) ≠ 0 := by exact_mod_cast hm.ne'
  refine ⟨k, ?_⟩
  have h3 : ((i - j : Int) : ℂ) = m * k := by
    field_simp at hk
    push_cast at hk ⊢
    linear_combination hk
  exact_mod_cast h3

theorem gap_norm {m : Nat} (hm : 0 < m) {dk dl Yk Yl : ℂ} (hdk : dk ≠ 0) (hdl : dl ≠ 0) {S : ℤ} (h : Spec.SheetGap m dk dl Yk Yl S) :
    dk.arg ≠ dl.arg ∧ nrmY m dl Yl = Spec.zeta m ^ (S - lt01 dk.arg dl.arg) * nrmY m dk Yk := by
  obtain ⟨θ, h0, h1, ht, hc⟩ := h
  have hm0 : (m : ℂ) ≠ 0 := by exact_mod_cast hm.ne'
  have hpi := Real.pi_pos
  -- the angles
  have hexp : exp ((dl.arg + θ : ℝ) * I) = exp (dk.arg * I) := by
    unfold Spec.Turns at ht
    have e1 := norm_mul_exp_arg_mul_I dk
    have e2 := norm_mul_exp_arg_mul_I dl
    have hnl : (‖dl‖ : ℂ) ≠ 0 := by exact_mod_cast norm_ne_zero_iff.2 hdl
    have hnk : (‖dk‖ : ℂ) ≠ 0 := by exact_mod_cast norm_ne_zero_iff.2 hdk
    rw [div_eq_iff hdl, norm_div] at ht
    push_cast at ht
    rw [← e2] at ht
    have e3 : (‖dk‖ : ℂ) * exp (dk.arg * I) = (‖dk‖ : ℂ) * exp ((dl.arg + θ : ℝ) * I) := by
      rw [e1]
      push_cast
      rw [add_mul, exp_add]
      have hn2 : (‖(‖dl‖ : ℂ) * exp (dl.arg * I)‖ : ℂ) = ‖dl‖ := by rw [e2]
      rw [hn2] at ht
      refine ht.trans ?_
      field_simp
    exact (mul_left_cancel₀ hnk e3).symm
  rw [exp_eq_exp_iff_exists_int] at hexp
  obtain ⟨n, hn⟩ := hexp
  have h2 : dl.arg + θ = dk.arg + n * (2 * Real.pi) := by
    have h4 : ((dl.arg + θ : ℝ) : ℂ) = ((dk.arg + n * (2 * Real.pi) : ℝ) : ℂ) := by
      apply mul_right_cancel₀ I_ne_zero
      rw [hn]; push_cast; ring
    exact_mod_cast h4
  have a1 := neg_pi_lt_arg dk
  have a2 := arg_le_pi dk
  have a3 := neg_pi_lt_arg dl
  have a4 := arg_le_pi dl
  have hn1 : (-1 : ℝ) < n := by by_contra hc; push Not at hc; nlinarith
  have hn2 : (n : ℝ) < 2 := by by_contra hc; push Not at hc; nlinarith
  have hn3 : n = 0 ∨ n = 1 := by
    have a : -1 < n := by exact_mod_cast hn1
    have b : n < 2 := by exact_mod_cast hn2
    omega
  have hlt : lt01 dk.arg dl.arg = n ∧ dk.arg ≠ dl.arg := by
    unfold lt01
    rcases hn3 with rfl | rfl
    · simp only [Int.cast_zero, zero_mul, add_zero] at h2
      exact ⟨if_neg (by linarith), by linarith⟩
    · simp only [Int.cast_one, one_mul] at h2
      exact ⟨if_pos (by linarith), fun e => by linarith⟩
  refine ⟨hlt.2, ?_⟩
  rw [hlt.1]
  unfold nrmY
  rw [div_eq_iff (nrm_den_ne hdl), mul_div_assoc', div_mul_eq_mul_div, eq_div_iff (nrm_den_ne hdk)]
  unfold Spec.Continues at hc
  -- exp(i arg dk / m) ζ^n = exp(i (arg dl + θ) / m)
  have e1 : exp (dk.arg * I / m) * Spec.zeta m ^ n = exp (dl.arg * I / m) * exp (θ * I / m) := by
    unfold Spec.zeta
    rw [← exp_int_mul, ← exp_add, ← exp_add]
    congr 1
    have : (dl.arg : ℂ) + θ = dk.arg + n * (2 * Real.pi) := by exact_mod_cast h2
    linear_combination (-I / m) * this
  rw [zpow_sub₀ (zeta_ne_zero m)]
  have hz := zpow_ne_zero n (zeta_ne_zero m)
  field_simp
  have e2 : Yl * ((‖dk‖ ^ ((m : ℝ)⁻¹) : ℝ) : ℂ) * (exp (dk.arg * I / m) * Spec.zeta m ^ n) =
      Spec.zeta m ^ S * Yk * ((‖dl‖ ^ ((m : ℝ)⁻¹) : ℝ) : ℂ) * exp (dl.arg * I / m) := by
    rw [e1]
    linear_combination exp (dl.arg * I / m) * hc
  first
  | linear_combination e2
  | (rw [← sub_eq_zero]; rw [← sub_eq_zero] at e2; rw [← e2]; ring_nf)

/-- numbering of the sheets from the gaps -/
theorem exists_numbering {m N r0 : Nat} (hm : 0 < m) {a b : Nat → Nat} {d Ya Yb : Nat → ℂ} {S : Nat → Nat → ℤ}
    (hstart : ∀ k < N, a k = r0 ∨ ∃ j < k, a k = b j) (hnew : ∀ k < N, b k ≠ r0 ∧ ∀ j < k, b k ≠ b j)
    (hd : ∀ k < N, d k ≠ 0) (hYa : ∀ k < N, Ya k ≠ 0) (hYb : ∀ k < N, Yb k ≠ 0)
    (h1 : ∀ k l, k < l → l < N → a l = a k → Spec.SheetGap m (d k) (d l) (Ya k) (Ya l) (S k l))
    (h2 : ∀ k l, k < l → l < N → a l = b k → Spec.SheetGap m (-d k) (d l) (Yb k) (Ya l) (S k l)) :
    ∃ pe : Nat → PEdge, Grows pe r0 N ∧ (∀ k, (pe k).a = a k ∧ (pe k).b = b k) ∧
      ∀ k l, k < l → l < N →
        (a l = a k → (m : ℤ) ∣ (-S k l) - ((pe k).sa - (pe l).sa - lt01 (pe k).pa (pe l).pa)) ∧
        (a l = b k → (m : ℤ) ∣ (-S k l) - ((pe k).sb - (pe l).sa - lt01 (pe k).pb (pe l).pa)) := by
  classical
  let Na : Nat → ℂ := fun k => nrmY m (d k) (Ya k)
  let Nb : Nat → ℂ := fun k => nrmY m (-d k) (Yb k)
  have hNa : ∀ k < N, Na k ≠ 0 := fun k hk => div_ne_zero (hYa k hk) (nrm_den_ne (hd k hk))
  have hNb : ∀ k < N, Nb k ≠ 0 := fun k hk => div_ne_zero (hYb k hk) (nrm_den_ne (neg_ne_zero.2 (hd k hk)))
  have hbb : ∀ k < N, ∀ l < N, b k = b l → k = l := by
    intro k hk l hl e
    rcases Nat.lt_trichotomy k l with g | g | g
    · exact absurd e.symm ((hnew l hl).2 k g)
    · exact g
    · exact absurd e ((hnew k hk).2 l g)
  have hba : ∀ k < N, ∀ l < N, a l = b k → k < l := by
    intro k hk l hl e
    rcases hstart l hl with g | ⟨j, hj, g⟩
    · exact absurd (e.symm.trans g) (hnew k hk).1
    · have := hbb j (by omega) k hk (g.symm.trans e)
      omega
  let C : Nat → ℂ := fun v => if h : ∃ k < N, b k = v then Nb h.choose else if h : ∃ k < N, a k = v then Na h.choose else 1
  have hC : ∀ v, C v ≠ 0 := by
    intro v
    simp only [C]
    split_ifs with g1 g2
    · exact hNb _ g1.choose_spec.1
    · exact hNa _ g2.choose_spec.1
    · exact one_ne_zero
  have hz := zeta_ne_zero m
  have gap1 : ∀ k l, k < l → l < N → a l = a k → Na l = Spec.zeta m ^ (S k l - lt01 (d k).arg (d l).arg) * Na k := fun k l hkl hl e =>
    (gap_norm hm (hd k (by omega)) (hd l hl) (h1 k l hkl hl e)).2
  have gap2 : ∀ k l, k < l → l < N → a l = b k → Na l = Spec.zeta m ^ (S k l - lt01 (-d k).arg (d l).arg) * Nb k := fun k l hkl hl e =>
    (gap_norm hm (neg_ne_zero.2 (hd k (by omega))) (hd l hl) (h2 k l hkl hl e)).2
  have hσa : ∀ l, ∃ σ : ℤ, l < N → Na l = Spec.zeta m ^ σ * C (a l) := by
    intro l
    by_cases hl : l < N
    · by_cases g1 : ∃ k < N, b k = a l
      · have hc := g1.choose_spec
        have := gap2 g1.choose l (hba _ hc.1 l hl hc.2.symm) hl hc.2.symm
        refine ⟨S g1.choose l - lt01 (-d g1.choose).arg (d l).arg, fun _ => ?_⟩
        rw [show C (a l) = Nb g1.choose from dif_pos g1]
        exact this
      · have g2 : ∃ k < N, a k = a l := ⟨l, hl, rfl⟩
        have hc := g2.choose_spec
        have hCv : C (a l) = Na g2.choose := by simp only [C]; rw [dif_neg g1, dif_pos g2]
        rcases Nat.lt_trichotomy g2.choose l with g | g | g
        · exact ⟨_, fun _ => by rw [hCv]; exact gap1 _ l g hl hc.2.symm⟩
        · exact ⟨0, fun _ => by rw [hCv, g]; simp⟩
        · have := gap1 l _ g hc.1 hc.2
          refine ⟨-(S l g2.choose - lt01 (d l).arg (d g2.choose).arg), fun _ => ?_⟩
          rw [hCv, this, zpow_neg, inv_mul_cancel_left₀ (zpow_ne_zero _ hz)]
    · exact ⟨0, fun h => absurd h hl⟩
  have hσb : ∀ l, ∃ σ : ℤ, l < N → Nb l = Spec.zeta m ^ σ * C (b l) := by
    intro l
    refine ⟨0, fun hl => ?_⟩
    have g1 : ∃ k < N, b k = b l := ⟨l, hl, rfl⟩
    have hc := g1.choose_spec
    rw [show C (b l) = Nb g1.choose from dif_pos g1, hbb _ hc.1 l hl hc.2]
    simp
  choose σa hσa using hσa
  choose σb hσb using hσb
  let pe : Nat → PEdge := fun k => ⟨a k, b k, (d k).arg, (-d k).arg, σa k, σb k⟩
  refine ⟨pe, ?_, fun k => ⟨rfl, rfl⟩, fun k l hkl hl => ⟨fun e => ?_, fun e => ?_⟩⟩
  · refine ⟨?_, ?_, ?_, ?_⟩
    · intro k hk
      rcases hstart k hk with g | ⟨j, hj, g⟩
      · exact Or.inl g
      · exact Or.inr ⟨j, hj, g⟩
    · rintro k hk (g | ⟨j, hj, g⟩)
      · exact (hnew k hk).1 g
      · exact (hnew k hk).2 j hj g
    · intro k hk l hl hkl e
      rcases Nat.lt_or_gt_of_ne hkl with g | g
      · exact (gap_norm hm (hd k hk) (hd l hl) (h1 k l g hl e.symm)).1
      · exact (gap_norm hm (hd l hl) (hd k hk) (h1 l k g hk e)).1.symm
    · intro k hk l hl e
      exact (gap_norm hm (neg_ne_zero.2 (hd l hl)) (hd k hk) (h2 l k (hba l hl k hk e) hk e)).1.symm
  · have e1 := gap1 k l hkl hl e
    rw [hσa l hl, hσa k (by omega), e, ← mul_assoc, ← zpow_add₀ hz] at e1
    have e2 := zeta_zpow_eq hm (mul_right_cancel₀ (hC _) e1)
    have : (-S k l) - ((pe k).sa - (pe l).sa - lt01 (pe k).pa (pe l).pa) = σa l - (S k l - lt01 (d k).arg (d l).arg + σa k) := by
      simp only [pe]; ring
    rw [this]; exact e2
  · have e1 := gap2 k l hkl hl e
    rw [hσa l hl, hσb k (by omega), e, ← mul_assoc, ← zpow_add₀ hz] at e1
    have e2 := zeta_zpow_eq hm (mul_right_cancel₀ (hC _) e1)
    have : (-S k l) - ((pe k).sb - (pe l).sa - lt01 (pe k).pb (pe l).pa) = σa l - (S k l - lt01 (-d k).arg (d l).arg + σb k) := by
      simp only [pe]; ring
    rw [this]; exact e2

end Hcp
