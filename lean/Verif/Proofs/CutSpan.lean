import Verif.Proofs.CutAlgebra

/-!
# The dual vectors of a tree span
-/

namespace Hcp.Cut
open PlaneTree Finset

/-- the edge as an edge of a plane tree, read downwards or upwards -/
noncomputable def DEdge.ped (e : DEdge) (down : Bool) : PEdge :=
  if down then ⟨e.up, e.lo, e.θ - Real.pi, e.θ, e.τ - e.rc e.up, e.τ⟩ else e.pe

/-- sign of a reading -/
noncomputable def sgn (down : Bool) : ℂ := if down then -1 else 1

theorem sgn_sq (d : Bool) : sgn d * sgn d = 1 := by cases d <;> simp [sgn]

theorem sgn_ne (d : Bool) : sgn d ≠ 0 := by cases d <;> simp [sgn]

theorem sgn_conj (d : Bool) : (starRingEnd ℂ) (sgn d) = sgn d := by cases d <;> simp [sgn]

theorem ped_false (e : DEdge) : e.ped false = e.pe := rfl

theorem ped_true (e : DEdge) : e.ped true = ⟨e.up, e.lo, e.θ - Real.pi, e.θ, e.τ - e.rc e.up, e.τ⟩ := rfl

theorem bco_ped (ζ : ℂˣ) (E : Nat → DEdge) (dn : Nat → Bool) (v : Nat) (θ : ℝ) (l : Nat) :
    bco ζ (fun k => (E k).ped (dn k)) v θ l = sgn (dn l) * bco ζ (fun k => (E k).pe) v θ l := by
  unfold bco
  cases h : dn l
  · simp only [h, ped_false, sgn, Bool.false_eq_true, if_false]
    ring
  · simp only [h, ped_true, sgn, if_true, DEdge.pe]
    by_cases h1 : (E l).up = v <;> by_cases h2 : (E l).lo = v <;> simp [h1, h2]

theorem Hm_ped (ζ : ℂˣ) (E : Nat → DEdge) (dn : Nat → Bool) (k l : Nat) :
    Hm ζ (fun k => (E k).ped (dn k)) k l = sgn (dn k) * sgn (dn l) * Hm ζ (fun k => (E k).pe) k l := by
  unfold Hm
  simp only [bco_ped]
  have hs : (if k = l then ((ζ⁻¹ : ℂˣ) : ℂ) - 1 else 0) = sgn (dn k) * sgn (dn l) * (if k = l then ((ζ⁻¹ : ℂˣ) : ℂ) - 1 else 0) := by
    split_ifs with hkl
    · rw [hkl, sgn_sq, one_mul]
    · rw [mul_zero]
  rw [mul_add, ← hs]
  congr 1
  cases h : dn l
  · simp only [ped_false, sgn, Bool.false_eq_true, if_false]
    ring
  · simp only [ped_true, sgn, if_true, DEdge.pe]
    ring

/-- a tree of edges going up which do not cross -/
structure CTree (n N : Nat) (E : Nat → DEdge) (dn : Nat → Bool) (r0 : Nat) : Prop where
  dir : ∀ k < N, 0 < (E k).θ ∧ (E k).θ < Real.pi
  lt : ∀ k < N, (E k).lo < (E k).up
  top : ∀ k < N, (E k).up < n
  left : ∀ k < N, ∀ l < N, k ≠ l → LeftDir (E k) (E l) ∨ LeftDir (E l) (E k)
  grows : Grows (fun k => (E k).ped (dn k)) r0 N

section
variable {n N r0 : Nat} {E : Nat → DEdge} {dn : Nat → Bool}

theorem CTree.hm (h : CTree n N E dn r0) {ζ : ℂˣ} (h1 : (ζ : ℂ) ≠ 1) {k l : Nat} (hk : k < N) (hl : l < N) :
    Hm ζ (fun k => (E k).ped (dn k)) k l = sgn (dn k) * sgn (dn l) * ((ζ : ℂ) ^ ((E k).τ - (E l).τ) * (((ζ : ℂ)⁻¹ - 1) * kk ζ n (E k).toCEdge (E l).toCEdge)) := by
  rw [Hm_ped]
  congr 1
  by_cases hkl : k = l
  · subst hkl
    rw [Hm_self h1 (h.lt k hk) (h.top k hk)]
    simp
  · rcases h.left k hk l hl hkl with q | q
    · exact Hm_right h1 hkl (h.dir k hk) (h.dir l hl) (h.lt k hk) (h.top k hk) (h.lt l hl) q
    · exact Hm_left h1 hkl (h.dir k hk) (h.dir l hl) (h.lt k hk) (h.lt l hl) (h.top l hl) q

/-- the kernel of the pairing -/
theorem CTree.kernel (h : CTree n N E dn r0) {ζ : ℂ} (hz : ζ ≠ 0) (h1 : ζ ≠ 1) :
    ∃ ρ : Nat → ℂ, ∀ x : Nat → ℂ, (∀ l < N, ∑ k ∈ range N, x k * kk ζ n (E k).toCEdge (E l).toCEdge = 0) →
      ∃ z : ℂ, (ζ ^ (N + 1) ≠ 1 → z = 0) ∧ ∀ k < N, x k = z * ρ k := by
  have hi1 : (((Units.mk0 ζ hz)⁻¹ : ℂˣ) : ℂ) ≠ 1 := by
    intro q
    rw [Units.val_inv_eq_inv_val, Units.val_mk0] at q
    exact h1 (inv_eq_one.1 q)
  obtain ⟨ρ, r, -⟩ := h.grows.kernel (x := (Units.mk0 ζ hz)⁻¹) (V := ℂ)
  refine ⟨fun k => ρ 1 k * sgn (dn k) * ζ ^ (E k).τ, fun x hx => ?_⟩
  obtain ⟨z, z1, z2⟩ := (r fun k => sgn (dn k) * ζ ^ (-(E k).τ) * x k).1 (fun l hl => by
    have e : ∀ k ∈ range N, Hm (Units.mk0 ζ hz)⁻¹ (fun k => (E k).ped (dn k)) l k • (sgn (dn k) * ζ ^ (-(E k).τ) * x k) = (sgn (dn l) * ζ ^ (-(E l).τ) * (1 - ζ)) * (x k * kk ζ n (E k).toCEdge (E l).toCEdge) := by
      intro k hk
      rw [h.hm hi1 hl (mem_range.1 hk), smul_eq_mul]
      rw [Units.val_inv_eq_inv_val, Units.val_mk0, kk_anti hz h1 (h.lt k (mem_range.1 hk)) (h.top k (mem_range.1 hk)) (h.lt l hl), inv_inv, inv_zpow', neg_sub, zpow_sub₀ hz, zpow_neg, zpow_neg]
      have hs := sgn_sq (dn k)
      have : ζ ^ (E k).τ ≠ 0 := zpow_ne_zero _ hz
      generalize kk ζ⁻¹ n (E l).toCEdge (E k).toCEdge = K0
      field_simp
      linear_combination sgn (dn l) * (ζ - 1) * x k * K0 * hs
    rw [sum_congr rfl e, ← mul_sum, hx l hl, mul_zero])
  refine ⟨z, fun hN => ?_, fun k hk => ?_⟩
  · rw [smul_eq_mul] at z1
    rcases mul_eq_zero.1 z1 with q | q
    · exfalso
      have hg := mul_geom_sum (((Units.mk0 ζ hz)⁻¹ : ℂˣ) : ℂ) (N + 1)
      unfold qn at q
      rw [q, mul_zero, Units.val_inv_eq_inv_val, Units.val_mk0] at hg
      apply hN
      have : ζ⁻¹ ^ (N + 1) = 1 := by linear_combination -hg
      rw [inv_pow, inv_eq_one] at this
      exact this
    · exact q
  · have e1 := z2 k hk
    have e2 : ρ z k = z * ρ 1 k := by
      have : ρ z = z • ρ 1 := by rw [← map_smul, smul_eq_mul, mul_one]
      rw [this]
      rfl
    rw [e2, zpow_neg] at e1
    have h3 : ζ ^ (E k).τ ≠ 0 := zpow_ne_zero _ hz
    have hs := sgn_sq (dn k)
    have e3 : x k = sgn (dn k) * ζ ^ (E k).τ * (sgn (dn k) * (ζ ^ (E k).τ)⁻¹ * x k) := by
      field_simp
      linear_combination -x k * hs
    rw [e3, e1]
    ring

/-- the vectors with sum zero -/
noncomputable def sumz (n : Nat) : (Fin n → ℂ) →ₗ[ℂ] ℂ := ∑ i, LinearMap.proj i

theorem sumz_apply (n : Nat) (v : Fin n → ℂ) : sumz n v = ∑ i, v i := by simp [sumz]

theorem finrank_sumz (n : Nat) : Module.finrank ℂ (LinearMap.ker (sumz (n + 1))) = n := by
  have h := LinearMap.finrank_range_add_finrank_ker (sumz (n + 1))
  have hs : LinearMap.range (sumz (n + 1)) = ⊤ := by
    rw [LinearMap.range_eq_top]
    intro c
    refine ⟨fun i => if i = 0 then c else 0, ?_⟩
    rw [sumz_apply]
    simp
  rw [hs, finrank_top, Module.finrank_self, Module.finrank_fin_fun] at h
  omega

/-- combinations of the dual vectors and of the radical -/
noncomputable def spanMap (ζ : ℂ) (n N : Nat) (E : Nat → DEdge) : ((Fin N → ℂ) × ℂ) →ₗ[ℂ] (Fin n → ℂ) :=
  LinearMap.pi fun v => (∑ k : Fin N, tvec ζ (E k).toCEdge v • (LinearMap.proj k).comp (LinearMap.fst ℂ (Fin N → ℂ) ℂ)) + rad ζ v • LinearMap.snd ℂ (Fin N → ℂ) ℂ

theorem spanMap_apply (ζ : ℂ) (p : (Fin N → ℂ) × ℂ) (v : Fin n) :
    spanMap ζ n N E p v = ∑ k : Fin N, p.1 k * tvec ζ (E k).toCEdge v + p.2 * rad ζ v := by
  simp [spanMap, mul_comm]

theorem CTree.spans (h : CTree n N E dn r0) {ζ : ℂ} (hz : ζ ≠ 0) (h1 : ζ ≠ 1) (hn : 0 < n) (hN : N + 1 = n ∨ N + 2 = n ∧ ζ ^ n = 1) {α : Nat → ℂ} (hα : ∑ v ∈ range n, α v = 0) :
    ∃ (x : Nat → ℂ) (c : ℂ), ∀ v < n, α v = ∑ k ∈ range N, x k * tvec ζ (E k).toCEdge v + c * rad ζ v := by
  obtain ⟨ρ, hρ⟩ := h.kernel hz h1
  have hrad : rad ζ 0 ≠ 0 := by simp [rad]
  have hker : ∀ p : (Fin N → ℂ) × ℂ, p ∈ LinearMap.ker (spanMap ζ n N E) → ∃ z : ℂ, (ζ ^ (N + 1) ≠ 1 → z = 0) ∧ ∀ k : Fin N, p.1 k = z * ρ k := by
    intro p hp
    rw [LinearMap.mem_ker] at hp
    have hp' : ∀ v : Nat, v < n → ∑ k : Fin N, p.1 k * tvec ζ (E k).toCEdge v + p.2 * rad ζ v = 0 := by
      intro v hv
      have := congrFun hp ⟨v, hv⟩
      rw [spanMap_apply] at this
      exact this
    obtain ⟨z, z1, z2⟩ := hρ (fun k => if hk : k < N then p.1 ⟨k, hk⟩ else 0) (fun l hl => by
      rw [sum_range]
      simp only [Fin.is_lt, dite_true, Fin.eta]
      have e : ∑ v ∈ range n, bvec ζ (E l).toCEdge v * (∑ k : Fin N, p.1 k * tvec ζ (E k).toCEdge v + p.2 * rad ζ v) = 0 := by
        refine sum_eq_zero fun v hv => ?_
        rw [hp' v (mem_range.1 hv), mul_zero]
      have e2 := sum_bvec_rad hz h1 (h.lt l hl) (h.top l hl)
      simp only [mul_add, sum_add_distrib] at e
      have e3 : ∑ v ∈ range n, bvec ζ (E l).toCEdge v * (p.2 * rad ζ v) = 0 := by
        rw [← mul_zero p.2, ← e2, mul_sum]
        exact sum_congr rfl fun v _ => by ring
      rw [e3, add_zero] at e
      rw [← e]
      simp only [kk, mul_sum]
      rw [sum_comm]
      exact sum_congr rfl fun v _ => sum_congr rfl fun k _ => by ring)
    refine ⟨z, z1, fun k => ?_⟩
    have := z2 k k.2
    simpa using this
  have hker0 : ∀ p : (Fin N → ℂ) × ℂ, p ∈ LinearMap.ker (spanMap ζ n N E) → (∀ k, p.1 k = 0) → p = 0 := by
    intro p hp h0
    rw [LinearMap.mem_ker] at hp
    have := congrFun hp ⟨0, hn⟩
    rw [spanMap_apply] at this
    simp only [h0, zero_mul, sum_const_zero, zero_add, Pi.zero_apply] at this
    rcases mul_eq_zero.1 this with q | q
    · exact Prod.ext (funext h0) q
    · exact absurd q hrad
  have hrn := LinearMap.finrank_range_add_finrank_ker (spanMap ζ n N E)
  rw [Module.finrank_prod, Module.finrank_fin_fun, Module.finrank_self] at hrn
  have hmem : (fun v : Fin n => α v) ∈ LinearMap.range (spanMap ζ n N E) := by
    have hα' : (fun v : Fin n => α v) ∈ LinearMap.ker (sumz n) := by
      rw [LinearMap.mem_ker, sumz_apply, ← Finset.sum_range (fun v => α v)]
      exact hα
    by_cases hone : ζ ^ n = 1
    · -- the image lies in the space of vectors with sum zero
      have hle : LinearMap.range (spanMap ζ n N E) ≤ LinearMap.ker (sumz n) := by
        rintro _ ⟨p, rfl⟩
        rw [LinearMap.mem_ker, sumz_apply]
        simp only [spanMap_apply, sum_add_distrib]
        rw [sum_comm]
        have e1 : ∀ k : Fin N, ∑ v : Fin n, p.1 k * tvec ζ (E k).toCEdge v = 0 := by
          intro k
          rw [← mul_sum, ← Finset.sum_range (fun v => tvec ζ (E k).toCEdge v), sum_tvec_all (h.lt k k.2) (h.top k k.2), mul_zero]
        have e2 : ∑ v : Fin n, p.2 * rad ζ v = 0 := by
          rw [← mul_sum, ← Finset.sum_range (fun v => rad ζ v), sum_rad hz h1, inv_pow, hone]
          simp
        rw [e2, add_zero]
        exact sum_eq_zero fun k _ => e1 k
      obtain ⟨n', rfl⟩ : ∃ n', n = n' + 1 := ⟨n - 1, by omega⟩
      have hfin : Module.finrank ℂ (LinearMap.ker (sumz (n' + 1))) ≤ Module.finrank ℂ (LinearMap.range (spanMap ζ (n' + 1) N E)) := by
        rw [finrank_sumz]
        have hk : Module.finrank ℂ (LinearMap.ker (spanMap ζ (n' + 1) N E)) + n' ≤ N + 1 := by
          rcases hN with hN | hN
          · have : Module.finrank ℂ (LinearMap.ker (spanMap ζ (n' + 1) N E)) ≤ 1 := by
              by_cases hb : ∃ p ∈ LinearMap.ker (spanMap ζ (n' + 1) N E), p ≠ 0
              · obtain ⟨p, hp, hp0⟩ := hb
                obtain ⟨z, -, hz2⟩ := hker p hp
                have hz0 : z ≠ 0 := by
                  rintro rfl
                  exact hp0 (hker0 p hp fun k => by rw [hz2]; ring)
                refine finrank_le_one ⟨p, hp⟩ fun w => ?_
                obtain ⟨z', -, hz2'⟩ := hker w.1 w.2
                refine ⟨z' / z, ?_⟩
                have hd : (z' / z) • p - w.1 = 0 := by
                  refine hker0 _ (Submodule.sub_mem _ (Submodule.smul_mem _ _ hp) w.2) fun k => ?_
                  simp only [Prod.fst_sub, Prod.smul_fst, Pi.sub_apply, Pi.smul_apply, smul_eq_mul]
                  rw [hz2, hz2']
                  field_simp
                  ring
                ext1
                exact sub_eq_zero.1 hd
              · push Not at hb
                have : LinearMap.ker (spanMap ζ (n' + 1) N E) = ⊥ := (Submodule.eq_bot_iff _).2 hb
                rw [this, finrank_bot]
                omega
            omega
          · have hne : ζ ^ (N + 1) ≠ 1 := by
              intro q
              have : ζ ^ (N + 2) = 1 := by rw [hN.1]; exact hN.2
              rw [pow_succ, q, one_mul] at this
              exact h1 this
            have : LinearMap.ker (spanMap ζ (n' + 1) N E) = ⊥ := by
              refine (Submodule.eq_bot_iff _).2 fun p hp => ?_
              obtain ⟨z, hz1, hz2⟩ := hker p hp
              exact hker0 p hp fun k => by rw [hz2, hz1 hne, zero_mul]
            rw [this, finrank_bot]
            omega
        omega
      rw [Submodule.eq_of_le_of_finrank_le hle hfin]
      exact hα'
    · have hN1 : N + 1 = n := by
        rcases hN with q | q
        · exact q
        · exact absurd q.2 hone
      have hb : LinearMap.ker (spanMap ζ n N E) = ⊥ := by
        refine (Submodule.eq_bot_iff _).2 fun p hp => ?_
        obtain ⟨z, hz1, hz2⟩ := hker p hp
        exact hker0 p hp fun k => by rw [hz2, hz1 (by rw [hN1]; exact hone), zero_mul]
      rw [hb, finrank_bot, add_zero] at hrn
      have : LinearMap.range (spanMap ζ n N E) = ⊤ := by
        apply Submodule.eq_top_of_finrank_eq
        rw [hrn, Module.finrank_fin_fun, hN1]
      rw [this]
      trivial
  obtain ⟨p, hp⟩ := hmem
  refine ⟨fun k => if hk : k < N then p.1 ⟨k, hk⟩ else 0, p.2, fun v hv => ?_⟩
  have := congrFun hp ⟨v, hv⟩
  rw [spanMap_apply] at this
  rw [← this, sum_range]
  simp only [Fin.is_lt, dite_true, Fin.eta]

/-- the coordinates of a vector on the edges -/
theorem CTree.coords (h : CTree n N E dn r0) {ζ : ℂ} (hz : ζ ≠ 0) (h1 : ζ ≠ 1) (hn : 0 < n) (hN : N + 1 = n ∨ N + 2 = n ∧ ζ ^ n = 1) {α : Nat → ℂ} (hα : ∑ v ∈ range n, α v = 0) :
    ∃ (x : Nat → ℂ) (C : ℂ), (∀ v < n, ∑ k ∈ range N, x k * bvec ζ⁻¹ (E k).toCEdge v = Mv ζ α v + C) ∧
      ∀ l < N, ∑ k ∈ range N, x k * kk ζ n (E k).toCEdge (E l).toCEdge = ∑ v ∈ range n, bvec ζ (E l).toCEdge v * α v := by
  obtain ⟨x, c, hx⟩ := h.spans hz h1 hn hN hα
  refine ⟨x, c * (ζ / (1 - ζ)), fun v hv => ?_, fun l hl => ?_⟩
  · have e1 : ∀ k ∈ range N, x k * bvec ζ⁻¹ (E k).toCEdge v = x k * Mv ζ (tvec ζ (E k).toCEdge) v := by
      intro k hk
      rw [Mv_tvec hz h1 (h.lt k (mem_range.1 hk))]
    have e2 : Mv ζ α v = ∑ k ∈ range N, x k * Mv ζ (tvec ζ (E k).toCEdge) v + c * Mv ζ (rad ζ) v := by
      unfold Mv
      rw [hx v hv, sum_congr rfl fun j hj => hx j ((mem_range.1 hj).trans hv)]
      simp only [sum_add_distrib, mul_sub, sum_sub_distrib, mul_add, mul_sum]
      rw [sum_comm]
      have : ∀ k, ζ / (1 - ζ) * (x k * tvec ζ (E k).toCEdge v) = x k * (ζ / (1 - ζ) * tvec ζ (E k).toCEdge v) := fun k => by ring
      simp only [this]
      ring
    rw [sum_congr rfl e1, e2, Mv_rad hz h1]
    ring
  · have e1 : ∑ v ∈ range n, bvec ζ (E l).toCEdge v * α v = ∑ v ∈ range n, bvec ζ (E l).toCEdge v * (∑ k ∈ range N, x k * tvec ζ (E k).toCEdge v + c * rad ζ v) :=
      sum_congr rfl fun v hv => by rw [hx v (mem_range.1 hv)]
    rw [e1]
    simp only [mul_add, sum_add_distrib, kk, mul_sum]
    have e3 : ∑ v ∈ range n, bvec ζ (E l).toCEdge v * (c * rad ζ v) = 0 := by
      rw [← mul_zero c, ← sum_bvec_rad hz h1 (h.lt l hl) (h.top l hl), mul_sum]
      exact sum_congr rfl fun v _ => by ring
    rw [e3, add_zero, sum_comm]
    exact sum_congr rfl fun v _ => sum_congr rfl fun k _ => by ring

end

end Hcp.Cut
