import Verif.Proofs.RealTree
import Verif.Proofs.SuperChain
import Verif.Proofs.SuperTotal
import Verif.Proofs.CrossTree

/-!
# Curves `y^m = ∏ (x - x_k)` with real branch points

On the segment between two neighbours, `y` is a constant direction times a positive function.
-/

namespace Hcp
open Spec MeasureTheory Set HalfPlane

section
variable {m n : Nat} {ξ ζ : Nat → ℝ} {ρ : Nat → Nat} {a b a' b' : Nat}

theorem polR_sorted (ho : Order n ξ ζ ρ) (hξ : InjOn ξ (Iio n)) (x : ℝ) : polR n ξ x = ∏ k ∈ Finset.range n, (x - ζ k) := by
  unfold polR
  refine Finset.prod_nbij ρ (fun v hv => Finset.mem_range.2 (ho.lt v (Finset.mem_range.1 hv))) (fun u hu v hv e => ?_) (fun j hj => ?_) fun v hv => ?_
  · exact ho.inj hξ (Finset.mem_range.1 hu) (Finset.mem_range.1 hv) e
  · obtain ⟨v, hv, e⟩ := ho.surj j (Finset.mem_range.1 hj)
    exact ⟨v, Finset.mem_coe.2 (Finset.mem_range.2 hv), e⟩
  · rw [ho.eq v (Finset.mem_range.1 hv)]

/-- sign of the polynomial between two neighbours -/
theorem polR_sign (ho : Order n ξ ζ ρ) (hξ : InjOn ξ (Iio n)) {q : Nat} (h0 : 0 < q) (hq : q < n) {x : ℝ} (h1 : ζ (q - 1) ≤ x) (h2 : x ≤ ζ q) : polR n ξ x = (-1) ^ (n - q) * |polR n ξ x| := by
  rw [polR_sorted ho hξ, Finset.abs_prod, ← Finset.prod_range_mul_prod_Ico (fun k => x - ζ k) hq.le, ← Finset.prod_range_mul_prod_Ico (fun k => |x - ζ k|) hq.le]
  have e1 : ∏ k ∈ Finset.range q, (x - ζ k) = ∏ k ∈ Finset.range q, |x - ζ k| := by
    refine Finset.prod_congr rfl fun k hk => (abs_of_nonneg ?_).symm
    have hk := Finset.mem_range.1 hk
    rcases Nat.lt_or_ge k (q - 1) with h | h
    · have := ho.mono k (q - 1) h (by omega)
      linarith
    · rw [show k = q - 1 by omega]
      linarith
  have e2 : ∏ k ∈ Finset.Ico q n, (x - ζ k) = ∏ k ∈ Finset.Ico q n, (-1) * |x - ζ k| := by
    refine Finset.prod_congr rfl fun k hk => ?_
    obtain ⟨k1, k2⟩ := Finset.mem_Ico.1 hk
    have : x - ζ k ≤ 0 := by
      rcases k1.lt_or_eq with h | h
      · have := ho.mono q k h k2
        linarith
      · rw [← h]
        linarith
    rw [abs_of_nonpos this]
    ring
  rw [e1, e2, Finset.prod_mul_distrib, Finset.prod_const, Nat.card_Ico]
  ring

/-- direction of `y` over the segment number `q` -/
noncomputable def dirM (m n q : Nat) (t : ℤ) : ℂ := Complex.exp (((Real.pi * ((n : ℝ) - q) / m : ℝ) : ℂ) * Complex.I) * zeta m ^ t

theorem norm_zeta (m : Nat) : ‖zeta m‖ = 1 := by
  unfold zeta
  rw [show (2 * (Real.pi : ℂ) * Complex.I / m) = ((2 * Real.pi / m : ℝ) : ℂ) * Complex.I by push_cast; ring, Complex.norm_exp_ofReal_mul_I]

theorem norm_dirM (m n q : Nat) (t : ℤ) : ‖dirM m n q t‖ = 1 := by
  unfold dirM
  rw [norm_mul, Complex.norm_exp_ofReal_mul_I, norm_zpow, norm_zeta, one_zpow, one_mul]

/-- two neighbouring segments -/
theorem rays_dir (hm : 2 ≤ m) {q q' : Nat} {t t' S : ℤ} (hS : 2 * S + 2 * (t - t') + ((q' : ℤ) - q) = 1) {c c' : ℂ} (hc : c ≠ 0) (hc' : c' ≠ 0) (h : c = ‖c‖ * dirM m n q t) (h' : c' = ‖c'‖ * dirM m n q' t') :
    Rays m c c' S (Real.pi / m) := by
  have hpi := Real.pi_pos
  have hm0 : (0 : ℝ) < m := by exact_mod_cast (by omega : 0 < m)
  have hmc : (m : ℂ) ≠ 0 := by exact_mod_cast hm0.ne'
  refine ⟨hm, hc, hc', by positivity, ?_, ?_⟩
  · rw [div_lt_div_iff_of_pos_right hm0]
    linarith
  · rw [turns_iff (mul_ne_zero (zpow_ne_zero _ (zeta_ne m)) hc) hc']
    refine ⟨‖c‖ / ‖c'‖, div_pos (norm_pos_iff.2 hc) (norm_pos_iff.2 hc'), ?_⟩
    have hn' : (‖c'‖ : ℂ) ≠ 0 := by exact_mod_cast norm_ne_zero_iff.2 hc'
    have key : zeta m ^ S * dirM m n q t = Complex.exp (((Real.pi / m : ℝ) : ℂ) * Complex.I) * dirM m n q' t' := by
      unfold dirM zeta
      rw [← Complex.exp_int_mul, ← Complex.exp_int_mul, ← Complex.exp_int_mul, ← Complex.exp_add, ← Complex.exp_add, ← Complex.exp_add, ← Complex.exp_add]
      congr 1
      have hS' : 2 * (S : ℂ) + 2 * (t - t') + (q' - q) = 1 := by exact_mod_cast hS
      push_cast
      field_simp
      linear_combination hS'
    rw [h, h', norm_mul, norm_mul, norm_dirM, norm_dirM, mul_one, mul_one, Complex.norm_real, Complex.norm_real, norm_norm, norm_norm]
    generalize Complex.exp (((Real.pi / m : ℝ) : ℂ) * Complex.I) = E at key ⊢
    push_cast
    field_simp
    linear_combination (‖c‖ : ℂ) * key

theorem local_step (hm : 2 ≤ m) (α β S : ℤ) : localNumber m α β S = Super.step m (β - α + S) := by
  have i3 : (m : ℤ) ∣ β - α - (1 - S) ↔ (m : ℤ) ∣ β - α + S - 1 := by
    constructor <;> (intro h; convert h using 1; ring)
  have i4 : (m : ℤ) ∣ β - α - -S ↔ (m : ℤ) ∣ β - α + S := by
    constructor <;> (intro h; convert h using 1; ring)
  unfold localNumber Spec.pm Super.step
  simp only [i3, i4]
  have nb := fun h1 h2 => not_both hm (z := β - α + S) h1 h2
  by_cases p1 : (m : ℤ) ∣ β - α + S
  · have p2 : ¬ (m : ℤ) ∣ β - α + S - 1 := nb p1
    simp [p1, p2]
  · by_cases p2 : (m : ℤ) ∣ β - α + S - 1 <;> simp [p1, p2]

/-- What is known of an edge of a tree on the real line. -/
structure EdgeM (m n : Nat) (ξ ζ : Nat → ℝ) (ρ : Nat → Nat) (a b : Nat) (Y : ℝ → ℂ) (ca cb : ℂ) (q : Nat) (ε t : ℤ) : Prop where
  side : (ε = 1 ∧ ρ a + 1 = q ∧ ρ b = q) ∨ (ε = -1 ∧ ρ b + 1 = q ∧ ρ a = q)
  na : ca ≠ 0
  nb : cb ≠ 0
  ra : ca = ‖ca‖ * dirM m n q t
  rb : cb = ‖cb‖ * dirM m n q t
  cyc : ∀ i j s : Nat, cycleIntM m (ξ a) (ξ b) i j Y s = (1 - (zeta m ^ j)⁻¹) * ε * Complex.exp (((Real.pi * j / m : ℝ) : ℂ) * Complex.I) ^ ((q : ℤ) - n) * (zeta m ^ j) ^ (-t) * PowPlane.mon ((j : ℝ) / m) n ζ i q * (zeta m ^ j) ^ (-(s : ℤ))

theorem root_zeta (hm : 0 < m) {z : ℂ} (hz : z ^ m = 1) : ∃ t : ℤ, z = zeta m ^ t := by
  have hm' : m ≠ 0 := by omega
  have hp : IsPrimitiveRoot (zeta m) m := Complex.isPrimitiveRoot_exp m hm'
  have : NeZero m := ⟨hm'⟩
  obtain ⟨i, -, e⟩ := hp.eq_pow_of_pow_eq_one hz
  exact ⟨i, by rw [zpow_natCast, e]⟩

theorem FreeR.edgeM (hm : 2 ≤ m) (ho : Order n ξ ζ ρ) (hξ : InjOn ξ (Iio n)) (h : FreeR n ξ a b) {Y : ℝ → ℂ} (hY : IsBranchM m n (fun k => (ξ k : ℂ)) (ξ a) (ξ b) Y) {ca cb : ℂ}
    (hca : LeavesAlong Y (-1) ca) (hcb : LeavesAlong Y 1 cb) : ∃ ε t : ℤ, EdgeM m n ξ ζ ρ a b Y ca cb (min (ρ a) (ρ b) + 1) ε t := by
  have hm0 : m ≠ 0 := by omega
  have hmR : (m : ℝ) ≠ 0 := by exact_mod_cast hm0
  have hmC : (m : ℂ) ≠ 0 := by exact_mod_cast hm0
  set q := min (ρ a) (ρ b) + 1 with hq
  have hside : ∃ ε : ℤ, (ε = 1 ∧ ρ a + 1 = q ∧ ρ b = q) ∨ (ε = -1 ∧ ρ b + 1 = q ∧ ρ a = q) := by
    rcases ho.adj h with h1 | h1
    · exact ⟨1, Or.inl ⟨rfl, by omega, by omega⟩⟩
    · exact ⟨-1, Or.inr ⟨rfl, by omega, by omega⟩⟩
  obtain ⟨ε, hε⟩ := hside
  have hqn : q < n := by
    have := ho.lt a h.ha
    have := ho.lt b h.hb
    omega
  have h0 : 0 < q := by omega
  -- the edge is the segment
  have hends : (ε = 1 ∧ ζ (q - 1) = ξ a ∧ ζ q = ξ b) ∨ (ε = -1 ∧ ζ (q - 1) = ξ b ∧ ζ q = ξ a) := by
    rcases hε with ⟨e, e1, e2⟩ | ⟨e, e1, e2⟩
    · exact Or.inl ⟨e, by rw [← ho.eq a h.ha, show ρ a = q - 1 by omega], by rw [← ho.eq b h.hb, e2]⟩
    · exact Or.inr ⟨e, by rw [← ho.eq b h.hb, show ρ b = q - 1 by omega], by rw [← ho.eq a h.ha, e2]⟩
  have hlt : ζ (q - 1) < ζ q := ho.mono _ _ (by omega) hqn
  have hpt : ∀ t ∈ Icc (-1 : ℝ) 1, ζ (q - 1) ≤ ptR (ξ a) (ξ b) t ∧ ptR (ξ a) (ξ b) t ≤ ζ q := by
    intro t ht
    have h1 := ht.1
    have h2 := ht.2
    unfold ptR
    rcases hends with ⟨-, e1, e2⟩ | ⟨-, e1, e2⟩
    · rw [e1, e2] at hlt ⊢
      constructor <;> nlinarith
    · rw [e1, e2] at hlt ⊢
      constructor <;> nlinarith
  -- the determination
  set P : ℝ → ℝ := fun t => |polR n ξ (ptR (ξ a) (ξ b) t)| ^ ((m : ℝ)⁻¹) with hP
  have hPc : Continuous P := by
    rw [hP]
    exact (((cont_polR n ξ).comp (cont_ptR _ _)).abs).rpow_const fun t => Or.inr (by positivity)
  have hPpos : ∀ t ∈ Ioo (-1 : ℝ) 1, 0 < P t := fun t ht => Real.rpow_pos_of_pos (abs_pos.2 (h.pol_ne ht)) _
  have hZ : IsBranchM m n (fun k => (ξ k : ℂ)) (ξ a) (ξ b) fun t => dirM m n q 0 * (P t : ℂ) := by
    refine ⟨(continuous_const.mul (Complex.continuous_ofReal.comp hPc)).continuousOn, fun t ht => ?_⟩
    have hd : dirM m n q 0 ^ m = (-1) ^ (n - q) := by
      unfold dirM
      rw [zpow_zero, mul_one, ← Complex.exp_nat_mul, ← Complex.exp_pi_mul_I, ← Complex.exp_nat_mul]
      congr 1
      push_cast [Nat.cast_sub hqn.le]
      field_simp
    have h1 := polR_sign ho hξ h0 hqn (hpt t ht).1 (hpt t ht).2
    rw [mul_pow, hd, ← Complex.ofReal_pow, hP]
    simp only
    rw [Real.rpow_inv_natCast_pow (abs_nonneg _) hm0]
    have h2 : ∏ k ∈ Finset.range n, (edgePt (ξ a : ℂ) (ξ b : ℂ) t - (ξ k : ℂ)) = (polR n ξ (ptR (ξ a) (ξ b) t) : ℂ) := by
      rw [edgePt_real]
      unfold polR
      push_cast
      rfl
    rw [h2, h1]
    push_cast
    rw [abs_mul, abs_pow, abs_neg, abs_one, one_pow, one_mul, abs_abs]
  obtain ⟨z, hz, hYz⟩ := branch_unique (by omega) hY hZ fun t ht => mul_ne_zero (by
    rw [← norm_pos_iff, norm_dirM]
    exact one_pos) (Complex.ofReal_ne_zero.2 (hPpos t ht).ne')
  obtain ⟨t, rfl⟩ := root_zeta (by omega) hz
  have hdir : zeta m ^ t * dirM m n q 0 = dirM m n q t := by
    unfold dirM
    rw [zpow_zero]
    ring
  have hYP : ∀ u ∈ Ioo (-1 : ℝ) 1, Y u = dirM m n q t * (P u : ℂ) := fun u hu => by rw [hYz u hu, ← hdir]; ring
  have hray : ∀ {t0 : ℝ}, t0 ∈ Icc (-1 : ℝ) 1 → ∀ {c : ℂ}, LeavesAlong Y t0 c → c = ‖c‖ * dirM m n q t := by
    intro t0 ht0 c hc
    have hne : (nhdsWithin t0 (Ioo (-1 : ℝ) 1)).NeBot := by
      rw [← mem_closure_iff_nhdsWithin_neBot, closure_Ioo (by norm_num)]
      exact ht0
    have h1 : Filter.Tendsto (fun t => Y t / ‖Y t‖) (nhdsWithin t0 (Ioo (-1) 1)) (nhds (dirM m n q t)) := by
      refine tendsto_const_nhds.congr' ?_
      filter_upwards [self_mem_nhdsWithin] with u hu
      have hp := hPpos u hu
      rw [hYP u hu, norm_mul, norm_dirM, one_mul, Complex.norm_real, Real.norm_of_nonneg hp.le, mul_div_cancel_right₀ _ (Complex.ofReal_ne_zero.2 hp.ne')]
    have h2 := tendsto_nhds_unique hc.2 h1
    have h3 : (‖c‖ : ℂ) ≠ 0 := Complex.ofReal_ne_zero.2 (norm_ne_zero_iff.2 hc.1)
    rw [← h2, mul_div_cancel₀ _ h3]
  refine ⟨ε, t, hε, hca.1, hcb.1, hray ⟨le_rfl, by norm_num⟩ hca, hray ⟨by norm_num, le_rfl⟩ hcb, fun i j s => ?_⟩
  -- the integrals
  have hmon : PowPlane.mon ((j : ℝ) / m) n ζ i q = ∫ x in ζ (q - 1)..ζ q, x ^ i / |polR n ξ x| ^ ((j : ℝ) / m) := by
    unfold PowPlane.mon PowPlane.total
    rw [if_neg (by omega), if_pos hqn]
    simp only [PowPlane.rdif_mono1, ho.prod]
  have hint : (∫ u in (-1 : ℝ)..1, ptR (ξ a) (ξ b) u ^ i / P u ^ j) * ((ξ b - ξ a) / 2) = ε * PowPlane.mon ((j : ℝ) / m) n ζ i q := by
    have e := intervalIntegral.smul_integral_comp_add_mul (fun x => x ^ i / |polR n ξ x| ^ ((j : ℝ) / m)) (a := -1) (b := 1) ((ξ b - ξ a) / 2) ((ξ a + ξ b) / 2)
    have e1 : ∀ t, (ξ a + ξ b) / 2 + (ξ b - ξ a) / 2 * t = ptR (ξ a) (ξ b) t := fun t => by unfold ptR; ring
    simp only [e1] at e
    have e2 : ptR (ξ a) (ξ b) (-1) = ξ a := by unfold ptR; ring
    have e3 : ptR (ξ a) (ξ b) 1 = ξ b := by unfold ptR; ring
    rw [e2, e3, smul_eq_mul] at e
    have e4 : ∀ u, P u ^ j = |polR n ξ (ptR (ξ a) (ξ b) u)| ^ ((j : ℝ) / m) := by
      intro u
      rw [hP]
      simp only
      rw [← Real.rpow_natCast, ← Real.rpow_mul (abs_nonneg _)]
      congr 1
      field_simp
    simp only [e4]
    rw [mul_comm, e, hmon]
    rcases hends with ⟨e5, e6, e7⟩ | ⟨e5, e6, e7⟩
    · rw [e5, e6, e7]
      simp
    · rw [e5, e6, e7, intervalIntegral.integral_symm]
      simp
  have hseg : segIntM (ξ a) (ξ b) i j Y = (dirM m n q t ^ j)⁻¹ * ((ε * PowPlane.mon ((j : ℝ) / m) n ζ i q : ℝ) : ℂ) := by
    rw [segIntM_of_branch (z := dirM m n q t) (Z := fun u => (P u : ℂ)) hYP]
    congr 1
    unfold segIntM
    rw [← hint, ← intervalIntegral.integral_mul_const, ← intervalIntegral.integral_ofReal]
    apply intervalIntegral.integral_congr
    intro u _
    simp only [edgePt_real]
    push_cast
    ring
  have hd : (dirM m n q t ^ j)⁻¹ = Complex.exp (((Real.pi * j / m : ℝ) : ℂ) * Complex.I) ^ ((q : ℤ) - n) * (zeta m ^ j) ^ (-t) := by
    unfold dirM
    rw [mul_pow, mul_inv, zpow_neg, ← zpow_natCast (zeta m ^ t), ← zpow_natCast (zeta m) j, ← zpow_mul, ← zpow_mul, mul_comm t]
    congr 1
    rw [← Complex.exp_nat_mul, ← Complex.exp_neg, ← Complex.exp_int_mul]
    congr 1
    push_cast
    ring
  rw [cycleIntM_eq, hseg, hd, zpow_neg (zeta m ^ j) (s : ℤ), zpow_natCast, ← pow_mul, mul_comm s j]
  push_cast
  ring

/-- numbers of the paths over two neighbouring segments -/
theorem EdgeM.number (hm : 2 ≤ m) (ho : Order n ξ ζ ρ) (hξ : InjOn ξ (Iio n)) (ha : a < n) (hb : b < n) (ha' : a' < n) (hb' : b' < n) {Y Y' : ℝ → ℂ} {ca cb ca' cb' : ℂ} {q q' : Nat} {ε t ε' t' : ℤ}
    (d : EdgeM m n ξ ζ ρ a b Y ca cb q ε t) (d' : EdgeM m n ξ ζ ρ a' b' Y' ca' cb' q' ε' t') {S : ℤ} (hS : 2 * S + 2 * (t - t') + ((q' : ℤ) - q) = 1) (hq : q' = q + 1 ∨ q = q' + 1) (α β : Nat) :
    pathNumber (passages m a b ca cb α) (passages m a' b' ca' cb' β) = ((-(ε * ε') * Super.step m ((β : ℤ) - α + S) : ℤ) : ℚ) := by
  have iff : ∀ u v, u < n → v < n → (u = v ↔ ρ u = ρ v) := fun u v hu hv => ⟨fun e => by rw [e], fun e => ho.inj hξ hu hv e⟩
  have r1 := rays_dir hm hS d.na d'.na d.ra d'.ra
  have r2 := rays_dir hm hS d.na d'.nb d.ra d'.rb
  have r3 := rays_dir hm hS d.nb d'.na d.rb d'.ra
  have r4 := rays_dir hm hS d.nb d'.nb d.rb d'.rb
  have c1 := crossing_start r1 α β
  have c2 := crossing_start r2 α β
  have c3 := crossing_end r3 α β
  have c4 := crossing_end r4 α β
  rw [← neg_inj, ← crossing_rev] at c2 c4
  simp only [neg_neg] at c4
  rw [pathNumber_eq, c1, c2, c3, c4, local_step hm]
  simp only [iff a a' ha ha', iff a b' ha hb', iff b a' hb ha', iff b b' hb hb']
  rcases d.side with ⟨rfl, h1, h2⟩ | ⟨rfl, h1, h2⟩ <;> rcases d'.side with ⟨rfl, h3, h4⟩ | ⟨rfl, h3, h4⟩ <;> rcases hq with hq | hq
  · rw [if_neg (by omega), if_neg (by omega), if_pos (by omega), if_neg (by omega)]
    push_cast
    ring
  · rw [if_neg (by omega), if_pos (by omega), if_neg (by omega), if_neg (by omega)]
    push_cast
    ring
  · rw [if_neg (by omega), if_neg (by omega), if_neg (by omega), if_pos (by omega)]
    push_cast
    ring
  · rw [if_pos (by omega), if_neg (by omega), if_neg (by omega), if_neg (by omega)]
    push_cast
    ring
  · rw [if_pos (by omega), if_neg (by omega), if_neg (by omega), if_neg (by omega)]
    push_cast
    ring
  · rw [if_neg (by omega), if_neg (by omega), if_neg (by omega), if_pos (by omega)]
    push_cast
    ring
  · rw [if_neg (by omega), if_pos (by omega), if_neg (by omega), if_neg (by omega)]
    push_cast
    ring
  · rw [if_neg (by omega), if_neg (by omega), if_pos (by omega), if_neg (by omega)]
    push_cast
    ring

/-- segments which are not neighbours -/
theorem EdgeM.number_apart {Y Y' : ℝ → ℂ} {ca cb ca' cb' : ℂ} {q q' : Nat} {ε t ε' t' : ℤ}
    (d : EdgeM m n ξ ζ ρ a b Y ca cb q ε t) (d' : EdgeM m n ξ ζ ρ a' b' Y' ca' cb' q' ε' t') (h0 : q ≠ q') (h1 : q' ≠ q + 1) (h2 : q ≠ q' + 1) (α β : Nat) :
    pathNumber (passages m a b ca cb α) (passages m a' b' ca' cb' β) = 0 := by
  have iff : ∀ u v, u = v → ρ u = ρ v := fun u v e => by rw [e]
  rw [pathNumber_eq]
  have := d.side
  have := d'.side
  rw [if_neg fun e => ?_, if_neg fun e => ?_, if_neg fun e => ?_, if_neg fun e => ?_]
  · norm_num
  all_goals
    have := iff _ _ e
    omega

/-- the paths over one segment -/
theorem EdgeM.number_self (hm : 2 ≤ m) (hab : a ≠ b) {ca cb : ℂ} (na : ca ≠ 0) (nb : cb ≠ 0) {α β : Nat} (hα : α < m - 1) (hβ : β < m - 1) :
    pathNumber (passages m a b ca cb α) (passages m a b ca cb β) = ((Super.step m ((β : ℤ) - α + 0) + Super.step m ((β : ℤ) - α + 1) : ℤ) : ℚ) := by
  rw [pathNumber_eq, if_pos rfl, if_pos rfl, if_neg hab, if_neg hab.symm, add_zero, zero_add, crossing_self hm na nb hα hβ, Super.self_step hm hα hβ]

end

end Hcp
