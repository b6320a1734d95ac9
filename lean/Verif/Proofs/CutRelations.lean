import Verif.Proofs.CutNumbers
import Verif.Spec.Curve

/-!
# The relations of Riemann for a tree of edges through the cuts
-/

namespace Hcp.Cut
open Complex Set PlaneTree Spec MeasureTheory Finset

/-- the dual coordinates of a differential -/
structure Coords (n N : Nat) (E : Nat → DEdge) (ζ : ℂ) (α x : Nat → ℂ) (C : ℂ) : Prop where
  zero : ∑ v ∈ range n, α v = 0
  vec : ∀ v < n, ∑ k ∈ range N, x k * bvec ζ⁻¹ (E k).toCEdge v = Mv ζ α v + C
  dual : ∀ l < N, ∑ k ∈ range N, x k * kk ζ n (E k).toCEdge (E l).toCEdge = ∑ v ∈ range n, bvec ζ (E l).toCEdge v * α v

/-- integral over an edge -/
noncomputable def Ie (n : Nat) (E : Nat → DEdge) (ζ : ℂ) (α : Nat → ℂ) (l : Nat) : ℂ := ∑ v ∈ range n, bvec ζ (E l).toCEdge v * α v

section
variable {n N : Nat} {E : Nat → DEdge} {ζ ζ' : ℂ} {α α' x x' : Nat → ℂ} {C C' : ℂ}

theorem conj_bvec (ζ : ℂ) (e : CEdge) (v : Nat) : (starRingEnd ℂ) (bvec ζ e v) = bvec ((starRingEnd ℂ) ζ) e v := by
  unfold bvec
  split_ifs <;> simp

/-- pairing with the dual coordinates -/
theorem Coords.pair (h : Coords n N E ζ' α' x' C') (hz : ζ = ζ'⁻¹) (hα : ∑ v ∈ range n, α v = 0) : ∑ k ∈ range N, Ie n E ζ α k * x' k = ∑ v ∈ range n, α v * Mv ζ' α' v := by
  unfold Ie
  calc _ = ∑ v ∈ range n, α v * ∑ k ∈ range N, x' k * bvec ζ'⁻¹ (E k).toCEdge v := by
        simp only [sum_mul, mul_sum]
        rw [sum_comm]
        refine sum_congr rfl fun v _ => sum_congr rfl fun k _ => ?_
        rw [hz]
        ring
    _ = ∑ v ∈ range n, (α v * Mv ζ' α' v + α v * C') := sum_congr rfl fun v hv => by rw [h.vec v (mem_range.1 hv), mul_add]
    _ = _ := by rw [sum_add_distrib, ← sum_mul, hα, zero_mul, add_zero]

/-- the same with conjugates -/
theorem Coords.pair_conj (h : Coords n N E ζ α x C) (hz : (starRingEnd ℂ) ζ = ζ⁻¹) : ∑ k ∈ range N, Ie n E ζ α k * (starRingEnd ℂ) (x k) = ∑ v ∈ range n, α v * (starRingEnd ℂ) (Mv ζ α v) := by
  unfold Ie
  calc _ = ∑ v ∈ range n, α v * (starRingEnd ℂ) (∑ k ∈ range N, x k * bvec ζ⁻¹ (E k).toCEdge v) := by
        simp only [sum_mul, mul_sum, map_sum, map_mul]
        rw [sum_comm]
        refine sum_congr rfl fun v _ => sum_congr rfl fun k _ => ?_
        rw [conj_bvec, map_inv₀, hz, inv_inv]
        ring
    _ = ∑ v ∈ range n, (α v * (starRingEnd ℂ) (Mv ζ α v) + α v * (starRingEnd ℂ) C) := sum_congr rfl fun v hv => by rw [h.vec v (mem_range.1 hv), map_add, mul_add]
    _ = _ := by rw [sum_add_distrib, ← sum_mul, h.zero, zero_mul, add_zero]

theorem Mv_lin {ι : Type} (s : Finset ι) (c : ι → ℂ) (β : ι → Nat → ℂ) (ζ : ℂ) (v : Nat) : Mv ζ (fun w => ∑ i ∈ s, c i * β i w) v = ∑ i ∈ s, c i * Mv ζ (β i) v := by
  unfold Mv
  rw [sum_comm, mul_sum, ← sum_sub_distrib]
  refine sum_congr rfl fun i _ => ?_
  rw [← mul_sum]
  ring

/-- combinations -/
theorem Coords.lin {ι : Type} (s : Finset ι) (c : ι → ℂ) {β X : ι → Nat → ℂ} {D : ι → ℂ} (h : ∀ i ∈ s, Coords n N E ζ (β i) (X i) (D i)) :
    Coords n N E ζ (fun v => ∑ i ∈ s, c i * β i v) (fun k => ∑ i ∈ s, c i * X i k) (∑ i ∈ s, c i * D i) := by
  refine ⟨?_, fun v hv => ?_, fun l hl => ?_⟩
  · rw [sum_comm]
    exact sum_eq_zero fun i hi => by rw [← mul_sum, (h i hi).zero, mul_zero]
  · rw [Mv_lin]
    simp only [sum_mul]
    rw [sum_comm, ← sum_add_distrib]
    refine sum_congr rfl fun i hi => ?_
    rw [← mul_add, ← (h i hi).vec v hv, mul_sum]
    exact sum_congr rfl fun k _ => by ring
  · simp only [sum_mul, mul_sum]
    rw [sum_comm, sum_comm (s := range n)]
    refine sum_congr rfl fun i hi => ?_
    have := (h i hi).dual l hl
    calc _ = c i * ∑ k ∈ range N, X i k * kk ζ n (E k).toCEdge (E l).toCEdge := by
          rw [mul_sum]
          exact sum_congr rfl fun k _ => by ring
      _ = _ := by
          rw [this, mul_sum]
          exact sum_congr rfl fun k _ => by ring

theorem Ie_lin {ι : Type} (s : Finset ι) (c : ι → ℂ) (β : ι → Nat → ℂ) (ζ : ℂ) (l : Nat) : Ie n E ζ (fun w => ∑ i ∈ s, c i * β i w) l = ∑ i ∈ s, c i * Ie n E ζ (β i) l := by
  unfold Ie
  simp only [mul_sum]
  rw [sum_comm]
  exact sum_congr rfl fun i _ => sum_congr rfl fun v _ => by ring

end

section
variable {n : Nat} {ξ η : Nat → ℝ} {ζ : ℂ} {ω : ℂ → ℂ} {H : ℝ → ℝ}

/-- the values on the cuts -/
noncomputable def al (ξ η : Nat → ℝ) (ζ : ℂ) (ω : ℂ → ℂ) (v : Nat) : ℂ := (1 - ζ) * Av ξ η ω v

theorem Cuts.Mv_al (h : Cuts n ξ η ζ ω H) (hη : Sorted n η) (hz : ζ ≠ 1) {v : Nat} (hv : v < n) : Mv ζ (al ξ η ζ ω) v = Qv ξ η ω v := by
  have h2 : 1 - ζ ≠ 0 := sub_ne_zero.2 (Ne.symm hz)
  rw [h.Q_eq hη hv]
  unfold Mv al
  rw [← mul_sum]
  field_simp

theorem Cuts.al_zero (h : Cuts n ξ η ζ ω H) (hη : Sorted n η) (hz : ζ ≠ 1) : ∑ v ∈ range n, al ξ η ζ ω v = 0 := by
  unfold al
  rw [← mul_sum, h.sum_A hη hz, mul_zero]

end

section
variable {n : Nat} {y : Nat → ℂ} {κ : ℝ} {g : Nat}

/-- the coefficients of a combination of monomials -/
noncomputable def coef (G : Nat) (c : Fin g → ℂ) (d : Fin g → Nat) : Fin G → ℂ := fun i => ∑ r, if d r = i.val then c r else 0

theorem cpol_coef {G : Nat} (c : Fin g → ℂ) (d : Fin g → Nat) (h : ∀ r, c r ≠ 0 → d r < G) (z : ℂ) : cpol (coef G c d) z = ∑ r, c r * z ^ d r := by
  unfold cpol coef
  simp only [sum_mul]
  rw [sum_comm]
  refine sum_congr rfl fun r _ => ?_
  by_cases hc : c r = 0
  · simp [hc]
  · rw [sum_eq_single (⟨d r, h r hc⟩ : Fin G)]
    · simp
    · intro i _ hi
      rw [if_neg fun e => hi (Fin.ext e.symm), zero_mul]
    · intro hh
      exact absurd (Finset.mem_univ _) hh

theorem om_coef {G : Nat} (c : Fin g → ℂ) (d : Fin g → Nat) (h : ∀ r, c r ≠ 0 → d r < G) (z : ℂ) : om κ n y (coef G c d) z = ∑ r, c r * om κ n y (mono (d r)) z := by
  unfold om
  rw [cpol_coef c d h, sum_div]
  refine sum_congr rfl fun r _ => ?_
  rw [cpol_mono, mul_div_assoc]

theorem coef_ne {G : Nat} {c : Fin g → ℂ} {d : Fin g → Nat} (h : ∀ r, c r ≠ 0 → d r < G) (hd : ∀ r r', c r ≠ 0 → c r' ≠ 0 → d r = d r' → r = r') (hc : c ≠ 0) : coef G c d ≠ 0 := by
  obtain ⟨r0, h0⟩ := Function.ne_iff.1 hc
  intro e
  have := congrFun e ⟨d r0, h r0 h0⟩
  unfold coef at this
  rw [sum_eq_single r0] at this
  · rw [if_pos rfl] at this
    exact h0 this
  · intro r _ hr
    by_cases hcr : c r = 0
    · simp [hcr]
    · rw [if_neg fun e => hr (hd r r0 hcr h0 e)]
  · intro hh
    exact absurd (Finset.mem_univ _) hh

theorem Av_coef {G : Nat} (ξ η : Nat → ℝ) (c : Fin g → ℂ) (d : Fin g → Nat) (h : ∀ r, c r ≠ 0 → d r < G) (hi : ∀ r v, c r ≠ 0 → Integrable (line (om κ n y (mono (d r))) (η v))) (v : Nat) :
    Av ξ η (om κ n y (coef G c d)) v = ∑ r, c r * Av ξ η (om κ n y (mono (d r))) v := by
  unfold Av prim
  have e : ∀ t : ℝ, line (om κ n y (coef G c d)) (η v) t = ∑ r, c r * line (om κ n y (mono (d r))) (η v) t := fun t => by
    unfold line
    exact om_coef c d h _
  simp only [e]
  rw [integral_finsetSum]
  · exact sum_congr rfl fun r _ => integral_const_mul _ _
  · intro r _
    by_cases hc : c r = 0
    · simp [hc]
    · exact ((hi r v hc).const_mul _).integrableOn

end

section
variable {m n N g r0 : Nat} {y : Nat → ℂ} {E : Nat → DEdge} {dn : Nat → Bool} {p q : Nat → ℝ} {ca cb : Nat → ℂ}

/-- the numbers for all edges -/
theorem CTree.number (hm : 2 ≤ m) (hT : CTree n N E dn r0) (hr : ∀ k < N, EndRays m n y ((E k).ped (dn k)) (ca k) (cb k)) {ζ : ℂˣ} (hz : (ζ : ℂ) ^ m = 1) {k l : Nat} (hk : k < N) (hl : l < N) {β : Nat} (hβ : β < m - 1) :
    ∑ α ∈ range (m - 1), ((ζ : ℂ) ^ (-(α : ℤ)) - ζ) * ((pathNumber (passages m ((E k).ped (dn k)).a ((E k).ped (dn k)).b (ca k) (cb k) α) (passages m ((E l).ped (dn l)).a ((E l).ped (dn l)).b (ca l) (cb l) β) : ℚ) : ℂ) =
      (ζ : ℂ) ^ (-(β : ℤ)) * (((ζ : ℂ) - 1) * Hm ζ (fun k => (E k).ped (dn k)) k l) := by
  by_cases hkl : k = l
  · subst hkl
    refine number_sum_self (pe := fun k => (E k).ped (dn k)) hm ?_ (hr k hk) hz hβ
    have := hT.lt k hk
    cases h : dn k
    · simp only [ped_false, DEdge.pe]
      omega
    · simp only [ped_true]
      omega
  · have hv : ∀ i j, i < N → j < N → i ≠ j → ((E i).ped (dn i)).b ≠ ((E j).ped (dn j)).b := by
      intro i j hi hj hij e
      rcases lt_or_gt_of_ne hij with q | q
      · exact hT.grows.new j hj (Or.inr ⟨i, q, e.symm⟩)
      · exact hT.grows.new i hi (Or.inr ⟨j, q, e⟩)
    exact number_sum (pe := fun k => (E k).ped (dn k)) hm hkl (hr k hk) (hr l hl)
      ⟨hT.grows.angle_aa k hk l hl hkl, hT.grows.angle_ab k hk l hl, fun e => (hT.grows.angle_ab l hl k hk e.symm).symm, fun e => absurd e (hv k l hk hl hkl)⟩ hz β

/-- **The relations of Riemann on the cut plane.** -/
theorem relations_cut (hm : 2 ≤ m) (hn : 0 < n) (hre : InjOn (fun k => (y k).re) (Set.Iio n)) (hs : Sorted n fun k => (y k).im) (hT : CTree n N E dn r0) (hal : ∀ k < N, AlongC n y (p k) (q k) (E k).toCEdge)
    (hr : ∀ k < N, EndRays m n y ((E k).ped (dn k)) (ca k) (cb k)) {Sg : Nat → Nat → Nat → ℂ}
    (hSg : ∀ k < N, ∀ i j, Sg k i j = sgn (dn k) * (zeta m ^ j) ^ (-(E k).τ) * segIntM (y (E k).lo) (y (E k).up) i j (fun t => Yc m n y (E k).toCEdge (Spec.edgePt (y (E k).lo) (y (E k).up) t)))
    (hsize : TreeSize m n N) {K : Matrix (Fin (N * (m - 1))) (Fin (N * (m - 1))) ℤ}
    (hK : ∀ a b, (K a b : ℚ) = pathNumber (passages m ((E (a.val / (m - 1))).ped (dn (a.val / (m - 1)))).a ((E (a.val / (m - 1))).ped (dn (a.val / (m - 1)))).b (ca (a.val / (m - 1))) (cb (a.val / (m - 1))) (a.val % (m - 1)))
      (passages m ((E (b.val / (m - 1))).ped (dn (b.val / (m - 1)))).a ((E (b.val / (m - 1))).ped (dn (b.val / (m - 1)))).b (ca (b.val / (m - 1))) (cb (b.val / (m - 1))) (b.val % (m - 1))))
    {I0 J : Fin g → Nat} (hIJ : ∀ r, 0 < J r ∧ J r < m ∧ (I0 r + 1) * m < n * J r) (hinj : ∀ r s, I0 r = I0 s → J r = J s → r = s) {W : Matrix (Fin g) (Fin (N * (m - 1))) ℂ}
    (hW : ∀ r a, W r a = (zeta m ^ (a.val % (m - 1) * J r))⁻¹ * ((1 - (zeta m ^ J r)⁻¹) * Sg (a.val / (m - 1)) (I0 r) (J r))) :
    RiemannRelations W K := by
  have hm1 : 0 < m - 1 := by omega
  have hmR : (0 : ℝ) < m := by exact_mod_cast (by omega : 0 < m)
  have hprim : IsPrimitiveRoot (zeta m) m := Complex.isPrimitiveRoot_exp m (by omega)
  have hzm : ∀ j, (zeta m ^ j) ^ m = 1 := fun j => by rw [← pow_mul, mul_comm, pow_mul, hprim.pow_eq_one, one_pow]
  have hz0 : ∀ j, zeta m ^ j ≠ 0 := fun j => pow_ne_zero _ (zeta_ne m)
  have hz1 : ∀ r, zeta m ^ J r ≠ 1 := by
    intro r h
    exact absurd (Nat.le_of_dvd (hIJ r).1 (hprim.dvd_of_pow_eq_one _ h)) (by have := (hIJ r).2.1; omega)
  have hzn : ∀ j, ‖zeta m ^ j‖ = 1 := fun j => by rw [norm_pow, norm_zeta, one_pow]
  have hzc : ∀ j, (starRingEnd ℂ) (zeta m ^ j) = (zeta m ^ j)⁻¹ := fun j => (Complex.inv_eq_conj (hzn j)).symm
  have him : InjOn (fun k => (y k).im) (Set.Iio n) := hs.inj
  -- the differentials on the cut plane
  have hκ : ∀ r, 0 < (J r : ℝ) / m ∧ (J r : ℝ) / m < 1 ∧ ((I0 r + 1 : ℕ) : ℝ) < (J r : ℝ) / m * n := by
    intro r
    obtain ⟨h1, h2, h3⟩ := hIJ r
    refine ⟨div_pos (by exact_mod_cast h1) hmR, ?_, ?_⟩
    · rw [div_lt_one hmR]
      exact_mod_cast h2
    · rw [div_mul_eq_mul_div, lt_div_iff₀ hmR]
      have : ((I0 r + 1) * m : ℝ) < n * J r := by exact_mod_cast h3
      push_cast
      linarith
  have hcuts : ∀ r, ∃ H, Cuts n (fun k => (y k).re) (fun k => (y k).im) (zeta m ^ J r) (om ((J r : ℝ) / m) n y (mono (I0 r))) H ∧ Dom n (fun k => (y k).re) (om ((J r : ℝ) / m) n y (mono (I0 r))) H := by
    intro r
    obtain ⟨h1, h2, h3⟩ := hκ r
    obtain ⟨H, c1, c2⟩ := exists_cuts (a := mono (I0 r)) h1 h2 hre him hn (μ := (J r : ℝ) / m * n - ((I0 r + 1 : ℕ) : ℝ)) (by linarith) (by linarith)
    refine ⟨H, ?_, measurable_om, c2⟩
    rw [zeta_pow_turn]
    exact c1
  choose H hC hD using hcuts
  set A : Fin g → Nat → ℂ := fun r => al (fun k => (y k).re) (fun k => (y k).im) (zeta m ^ J r) (om ((J r : ℝ) / m) n y (mono (I0 r))) with hA
  have hN : ∀ r, N + 1 = n ∨ N + 2 = n ∧ (zeta m ^ J r) ^ n = 1 := by
    intro r
    by_cases hd : m ∣ n
    · obtain ⟨k, hk⟩ := hd
      refine Or.inr ⟨hsize.1 ⟨k, hk⟩, ?_⟩
      rw [hk, pow_mul, hzm, one_pow]
    · exact Or.inl (hsize.2 hd)
  have hco : ∀ r, ∃ x C, Coords n N E (zeta m ^ J r) (A r) x C := by
    intro r
    have h0 : ∑ v ∈ range n, A r v = 0 := (hC r).al_zero hs (hz1 r)
    obtain ⟨x, C, h1, h2⟩ := hT.coords (hz0 (J r)) (hz1 r) hn (hN r) h0
    exact ⟨x, C, h0, h1, h2⟩
  choose X D hX using hco
  have hdiv : ∀ a : Fin (N * (m - 1)), a.val / (m - 1) < N := fun a => Nat.div_lt_of_lt_mul (a.isLt.trans_eq (Nat.mul_comm _ _))
  have hmod : ∀ a : Fin (N * (m - 1)), a.val % (m - 1) < m - 1 := fun a => Nat.mod_lt _ hm1
  refine Super.FormData.relations (m := m) ⟨J, fun r l => (1 - (zeta m ^ J r)⁻¹) * (sgn (dn l) * (zeta m ^ J r) ^ (-(E l).τ) * Ie n E (zeta m ^ J r) (A r) l),
    fun r k l => (zeta m ^ J r - 1) * Hm (Units.mk0 _ (hz0 (J r))) (fun k => (E k).ped (dn k)) k l, fun r k => sgn (dn k) * (zeta m ^ J r) ^ (-(E k).τ) * X r k / (1 - zeta m ^ J r),
    fun r => ⟨(hIJ r).1, (hIJ r).2.1⟩, ?_, ?_, ?_, ?_, ?_⟩ hm
  · intro r k hk b
    have := hT.number hm hr (ζ := Units.mk0 _ (hz0 (J r))) (hzm (J r)) hk (hdiv b) (hmod b)
    rw [Units.val_mk0] at this
    rw [← this]
    refine sum_congr rfl fun α hα => ?_
    have hα' := mem_range.1 hα
    have hlt : k * (m - 1) + α < N * (m - 1) := by
      have : (k + 1) * (m - 1) ≤ N * (m - 1) := Nat.mul_le_mul_right _ hk
      rw [add_one_mul] at this
      omega
    rw [dif_pos hlt]
    congr 1
    have h1 := hK ⟨k * (m - 1) + α, hlt⟩ b
    have e1 : (k * (m - 1) + α) / (m - 1) = k := by
      rw [mul_comm, Nat.mul_add_div hm1, Nat.div_eq_of_lt hα', add_zero]
    have e2 : (k * (m - 1) + α) % (m - 1) = α := by
      rw [mul_comm, Nat.mul_add_mod, Nat.mod_eq_of_lt hα']
    simp only [e1, e2] at h1
    rw [← h1]
    push_cast
    rfl
  · intro r a
    rw [hW, hSg _ (hdiv a), (hal _ (hdiv a)).seg hs (by omega) (hC r) (hD r) (hz1 r), mul_comm (a.val % (m - 1)) (J r), pow_mul, zpow_neg _ ((a.val % (m - 1) : ℕ) : ℤ), zpow_natCast]
    simp only [hA, Ie, al]
    ring
  · intro r l hl
    have h2 : 1 - zeta m ^ J r ≠ 0 := sub_ne_zero.2 (Ne.symm (hz1 r))
    have hzz := hz0 (J r)
    have e : ∀ k ∈ range N, sgn (dn k) * (zeta m ^ J r) ^ (-(E k).τ) * X r k / (1 - zeta m ^ J r) * ((zeta m ^ J r - 1) * Hm (Units.mk0 _ (hz0 (J r))) (fun k => (E k).ped (dn k)) k l) =
        (1 - (zeta m ^ J r)⁻¹) * (sgn (dn l) * (zeta m ^ J r) ^ (-(E l).τ)) * (X r k * kk (zeta m ^ J r) n (E k).toCEdge (E l).toCEdge) := by
      intro k hk
      rw [hT.hm (ζ := Units.mk0 _ (hz0 (J r))) (hz1 r) (mem_range.1 hk) hl, Units.val_mk0, zpow_sub₀ hzz, zpow_neg, zpow_neg]
      have h3 := zpow_ne_zero (E k).τ hzz
      have h4 := zpow_ne_zero (E l).τ hzz
      have hsq := sgn_sq (dn k)
      generalize kk (zeta m ^ J r) n (E k).toCEdge (E l).toCEdge = K0
      generalize zeta m ^ J r = z at *
      generalize z ^ (E k).τ = w1 at *
      generalize z ^ (E l).τ = w2 at *
      field_simp
      linear_combination X r k * (z - 1) * K0 * sgn (dn l) * hsq
    rw [sum_congr rfl e, ← mul_sum, (hX r).dual l hl]
    unfold Ie
    ring
  · intro r s hrs
    have hzz : zeta m ^ J r * zeta m ^ J s = 1 := by rw [← pow_add, hrs, hprim.pow_eq_one]
    have hi : zeta m ^ J r = (zeta m ^ J s)⁻¹ := eq_inv_of_mul_eq_one_left hzz
    have h2 : 1 - zeta m ^ J s ≠ 0 := sub_ne_zero.2 (Ne.symm (hz1 s))
    have hs0 := hz0 (J s)
    have e : ∀ k ∈ range N, (1 - (zeta m ^ J r)⁻¹) * (sgn (dn k) * (zeta m ^ J r) ^ (-(E k).τ) * Ie n E (zeta m ^ J r) (A r) k) * (sgn (dn k) * (zeta m ^ J s) ^ (-(E k).τ) * X s k / (1 - zeta m ^ J s)) = Ie n E (zeta m ^ J r) (A r) k * X s k := by
      intro k _
      have hsq := sgn_sq (dn k)
      generalize Ie n E (zeta m ^ J r) (A r) k = Ik
      rw [hi, inv_inv, inv_zpow', neg_neg, zpow_neg]
      have h3 := zpow_ne_zero (E k).τ hs0
      field_simp
      linear_combination Ik * X s k * hsq
    rw [sum_congr rfl e, (hX s).pair hi (hX r).zero]
    rw [sum_congr rfl fun v hv => by rw [hA, (hC s).Mv_al hs (hz1 s) (mem_range.1 hv)]]
    exact (hC r).bilinear (hC s) hs hzz
  · intro K0 c hc hc0
    obtain ⟨r1, hr1⟩ := Function.ne_iff.1 hc0
    have hJK : ∀ r, c r ≠ 0 → J r = K0 := fun r h => by
      by_contra hcc
      exact h (hc r hcc)
    have hK1 := hJK r1 hr1
    obtain ⟨G, hG1, hG2⟩ : ∃ G : Nat, (G : ℝ) < (K0 : ℝ) / m * n ∧ ∀ r, c r ≠ 0 → I0 r < G := by
      refine ⟨(Finset.univ.filter fun r => c r ≠ 0).sup fun r => I0 r + 1, ?_, fun r h => ?_⟩
      · obtain ⟨r2, h1, h2⟩ := Finset.exists_mem_eq_sup (Finset.univ.filter fun r => c r ≠ 0) ⟨r1, by simpa using hr1⟩ fun r => I0 r + 1
        rw [h2, ← hJK r2 (by simpa using h1)]
        exact (hκ r2).2.2
      · exact Finset.le_sup (f := fun r => I0 r + 1) (by simpa using h)
    obtain ⟨HG, hCG, -⟩ := exists_cuts (x := y) (a := coef G c I0) (κ := (K0 : ℝ) / m) (by rw [← hK1]; exact (hκ r1).1) (by rw [← hK1]; exact (hκ r1).2.1) hre him hn (μ := (K0 : ℝ) / m * n - G) (by linarith) (by linarith)
    rw [← zeta_pow_turn] at hCG
    have hkz1 : zeta m ^ K0 ≠ 1 := by rw [← hK1]; exact hz1 r1
    have hne : coef G c I0 ≠ 0 := coef_ne hG2 (fun r r' h1 h2 e => hinj r r' e ((hJK r h1).trans (hJK r' h2).symm)) hc0
    obtain ⟨t0, s0, hs0, ho⟩ := om_nonzero (x := y) (n := n) (κ := (K0 : ℝ) / m) (by rw [← hK1]; exact (hκ r1).1) hne (y (n - 1)).im (fun k hk => by
      rcases Nat.lt_or_ge k (n - 1) with q | q
      · exact (hs k (n - 1) q (by omega)).le
      · rw [show k = n - 1 by omega])
    have hpos := hCG.positive hs hn (hzn K0) hs0 ho
    -- the combination
    let S : Finset (Fin g) := univ.filter fun r => c r ≠ 0
    have hsum : ∀ f : Fin g → ℂ, ∑ r, c r * f r = ∑ r ∈ S, c r * f r := by
      intro f
      rw [sum_filter]
      refine sum_congr rfl fun r _ => ?_
      by_cases h : c r = 0 <;> simp [h]
    have hS : ∀ r ∈ S, c r ≠ 0 := fun r h => (mem_filter.1 h).2
    have hlin := Coords.lin (n := n) (N := N) (E := E) (ζ := zeta m ^ K0) S c (β := A) (X := X) (D := D) fun r hr => by
      rw [← hJK r (hS r hr)]
      exact hX r
    have hAal : ∀ v, ∑ r ∈ S, c r * A r v = al (fun k => (y k).re) (fun k => (y k).im) (zeta m ^ K0) (om ((K0 : ℝ) / m) n y (coef G c I0)) v := by
      intro v
      unfold al
      rw [Av_coef _ _ c I0 hG2 (fun r v h => by rw [← hJK r h]; exact (hC r).tame.integrable _), hsum, mul_sum]
      refine sum_congr rfl fun r hr => ?_
      simp only [hA, al, hJK r (hS r hr)]
      ring
    have e1 : ∀ k, ∑ r, c r * ((1 - (zeta m ^ J r)⁻¹) * (sgn (dn k) * (zeta m ^ J r) ^ (-(E k).τ) * Ie n E (zeta m ^ J r) (A r) k)) = (1 - (zeta m ^ K0)⁻¹) * (sgn (dn k) * (zeta m ^ K0) ^ (-(E k).τ)) * Ie n E (zeta m ^ K0) (fun v => ∑ r ∈ S, c r * A r v) k := by
      intro k
      rw [hsum, Ie_lin, mul_sum]
      refine sum_congr rfl fun r hr => ?_
      rw [hJK r (hS r hr)]
      ring
    have e2 : ∀ k, ∑ r, c r * (sgn (dn k) * (zeta m ^ J r) ^ (-(E k).τ) * X r k / (1 - zeta m ^ J r)) = sgn (dn k) * (zeta m ^ K0) ^ (-(E k).τ) / (1 - zeta m ^ K0) * ∑ r ∈ S, c r * X r k := by
      intro k
      rw [hsum, mul_sum]
      refine sum_congr rfl fun r hr => ?_
      rw [hJK r (hS r hr)]
      ring
    simp only [e1, e2]
    have e3 : ∀ k ∈ range N, (1 - (zeta m ^ K0)⁻¹) * (sgn (dn k) * (zeta m ^ K0) ^ (-(E k).τ)) * Ie n E (zeta m ^ K0) (fun v => ∑ r ∈ S, c r * A r v) k * (starRingEnd ℂ) (sgn (dn k) * (zeta m ^ K0) ^ (-(E k).τ) / (1 - zeta m ^ K0) * ∑ r ∈ S, c r * X r k) =
        Ie n E (zeta m ^ K0) (fun v => ∑ r ∈ S, c r * A r v) k * (starRingEnd ℂ) (∑ r ∈ S, c r * X r k) := by
      intro k _
      have hsq := sgn_sq (dn k)
      generalize Ie n E (zeta m ^ K0) (fun v => ∑ r ∈ S, c r * A r v) k = Ik
      rw [map_mul, map_div₀, map_mul, map_sub, map_one, map_zpow₀, hzc, sgn_conj, inv_zpow', neg_neg, zpow_neg]
      generalize (starRingEnd ℂ) (∑ r ∈ S, c r * X r k) = Xk
      have h0 := hz0 K0
      have h3 := zpow_ne_zero (E k).τ h0
      have h4 : 1 - (zeta m ^ K0)⁻¹ ≠ 0 := by
        intro h
        apply hkz1
        rw [← inv_inv (zeta m ^ K0), ← sub_eq_zero.1 h, inv_one]
      field_simp
      linear_combination Ik * Xk * hsq
    rw [sum_congr rfl e3, hlin.pair_conj (hzc K0)]
    have e4 : ∑ v ∈ range n, (∑ r ∈ S, c r * A r v) * (starRingEnd ℂ) (Mv (zeta m ^ K0) (fun v => ∑ r ∈ S, c r * A r v) v) = (starRingEnd ℂ) (∑ k ∈ range n, (starRingEnd ℂ) ((1 - zeta m ^ K0) * Av (fun k => (y k).re) (fun k => (y k).im) (om ((K0 : ℝ) / m) n y (coef G c I0)) k) * Qv (fun k => (y k).re) (fun k => (y k).im) (om ((K0 : ℝ) / m) n y (coef G c I0)) k) := by
      rw [map_sum]
      refine sum_congr rfl fun v hv => ?_
      rw [map_mul, Complex.conj_conj]
      have : (fun v => ∑ r ∈ S, c r * A r v) = al (fun k => (y k).re) (fun k => (y k).im) (zeta m ^ K0) (om ((K0 : ℝ) / m) n y (coef G c I0)) := funext hAal
      rw [this, hCG.Mv_al hs hkz1 (mem_range.1 hv), hAal]
      rfl
    rw [e4, I_mul_re, conj_im, neg_neg]
    exact hpos

end

end Hcp.Cut
