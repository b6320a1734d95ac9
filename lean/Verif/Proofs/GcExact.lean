import Verif.Props.GcParams
import Mathlib.Analysis.SpecialFunctions.Log.Deriv
import Mathlib.Analysis.SpecialFunctions.Pow.Asymptotics

/-!
# `gc_params` on exact numbers: formulas and behaviour at large precision
-/

namespace Hcp

open Spec Filter Topology

theorem funcR_exact {z : ℂ} (h : 1 < rOf z) : funcRGc exactPar z = .ok (rOf z) := by
  have e : exactPar.mul2exp (exactPar.add (exactPar.abs (exactPar.addSi z (-1))) (exactPar.abs (exactPar.addSi z 1))) (-1) = rOf z := by
    simp only [exactPar, rOf]
    push_cast
    rw [zpow_neg_one, ← sub_eq_add_neg]
    rfl
  unfold funcRGc
  simp only [e]
  rw [if_pos]
  simp only [exactPar, decide_eq_true_eq]
  linarith

theorem funcR_exact_ok {z : ℂ} {r : ℝ} (h : funcRGc exactPar z = .ok r) : 1 < rOf z := by
  have e : exactPar.mul2exp (exactPar.add (exactPar.abs (exactPar.addSi z (-1))) (exactPar.abs (exactPar.addSi z 1))) (-1) = rOf z := by
    simp only [exactPar, rOf]
    push_cast
    rw [zpow_neg_one, ← sub_eq_add_neg]
    rfl
  unfold funcRGc at h
  simp only [e] at h
  split at h
  · rename_i h'
    simp only [exactPar, decide_eq_true_eq] at h'
    linarith
  · cases h

theorem vecR_exact_aux : ∀ (u : List ℂ) (r0 : Option ℝ), (∀ z ∈ u, 1 < rOf z) → ∃ t, vecR exactPar u r0 = .ok (t, u.map rOf) ∧ (t = none → u = [] ∧ r0 = none) ∧
    ∀ s, t = some s → (∀ z ∈ u, s ≤ rOf z) ∧ (∀ s0, r0 = some s0 → s ≤ s0) ∧ ((∃ z ∈ u, s = rOf z) ∨ r0 = some s)
  | [], r0, _ => ⟨r0, rfl, fun h => ⟨rfl, h⟩, fun s hs => ⟨by simp, fun s0 h0 => by rw [hs] at h0; exact (Option.some.inj h0).le, Or.inr hs⟩⟩
  | z :: us, r0, h => by
    have hz := h z (by simp)
    have habs : exactPar.absLbound (rOf z) = rOf z := abs_of_pos (by linarith)
    set t1 : ℝ := match (generalizing := false) r0 with
      | none => rOf z
      | some s => if rOf z < s then rOf z else s with ht1
    obtain ⟨t, e, hn, hs⟩ := vecR_exact_aux us (some t1) fun w hw => h w (List.mem_cons_of_mem _ hw)
    refine ⟨t, ?_, fun h => (by have := (hn h).2; cases this), fun s hts => ?_⟩
    · unfold vecR
      rw [funcR_exact hz, Res.ok_bind]
      simp only [habs]
      cases r0 with
      | none => simp only [ht1] at e; rw [e]; rfl
      | some s => simp only [ht1] at e; rw [e]; rfl
    · obtain ⟨a1, a2, a3⟩ := hs s hts
      have a2 := a2 t1 rfl
      have b1 : t1 ≤ rOf z := by
        rw [ht1]
        cases r0 with
        | none => exact le_rfl
        | some s => dsimp only; split <;> linarith
      have b2 : ∀ s0, r0 = some s0 → t1 ≤ s0 := by
        rintro s0 rfl
        rw [ht1]
        dsimp only
        split <;> linarith
      have b3 : t1 = rOf z ∨ r0 = some t1 := by
        rw [ht1]
        cases r0 with
        | none => exact Or.inl rfl
        | some s =>
          dsimp only
          split
          · exact Or.inl rfl
          · exact Or.inr rfl
      refine ⟨?_, fun s0 h0 => a2.trans (b2 s0 h0), ?_⟩
      · intro w hw
        rcases List.mem_cons.1 hw with rfl | hw
        · exact a2.trans b1
        · exact a1 w hw
      · rcases a3 with ⟨w, hw, e⟩ | e
        · exact Or.inl ⟨w, List.mem_cons_of_mem _ hw, e⟩
        · have e := Option.some.inj e
          rcases b3 with b | b
          · exact Or.inl ⟨z, by simp, by rw [← e, b]⟩
          · exact Or.inr (by rw [b, e])

/-- the smallest of the numbers `rOf z` -/
theorem vecR_exact {u : List ℂ} (hu : u ≠ []) (h : ∀ z ∈ u, 1 < rOf z) :
    ∃ r0, vecR exactPar u none = .ok (some r0, u.map rOf) ∧ (∀ z ∈ u, r0 ≤ rOf z) ∧ ∃ z ∈ u, r0 = rOf z := by
  obtain ⟨t, e, hn, hs⟩ := vecR_exact_aux u none h
  cases t with
  | none => exact absurd (hn rfl).1 hu
  | some r0 =>
    obtain ⟨a1, -, a3⟩ := hs r0 rfl
    refine ⟨r0, e, a1, ?_⟩
    rcases a3 with a | a
    · exact a
    · cases a

theorem vecR_exact_ok : ∀ (u : List ℂ) (r0 : Option ℝ) (s : Option ℝ × List ℝ), vecR exactPar u r0 = .ok s → ∀ z ∈ u, 1 < rOf z
  | [], _, _, _ => by simp
  | z :: us, r0, s, h => by
    unfold vecR at h
    simp only [Res.bind_eq_ok] at h
    obtain ⟨r, hr, rest, hrest, -⟩ := h
    intro w hw
    rcases List.mem_cons.1 hw with rfl | hw
    · exact funcR_exact_ok hr
    · exact vecR_exact_ok us _ _ hrest w hw

open Classical in
theorem majLoop_exact (r t : ℝ) : ∀ (vr : List ℝ) (m : ℝ) (K : Nat), majLoop exactPar r t vr m K = (m * ((vr.filter fun v => v ≠ r).map fun v => v - t).prod, K + vr.count r)
  | [], m, K => by simp [majLoop]
  | v :: vr, m, K => by
    unfold majLoop
    by_cases h : r = v
    · rw [if_pos (by simp [exactPar, h]), majLoop_exact r t vr, List.filter_cons_of_neg (by simp [h]), List.count_cons, if_pos (by simp [h])]
      rw [show K + 1 + List.count r vr = K + (List.count r vr + 1) by omega]
    · rw [if_neg (by simp [exactPar, h]), majLoop_exact r t vr, List.filter_cons_of_pos (by simpa using fun e => h e.symm), List.count_cons, if_neg (by simpa using fun e => h e.symm)]
      simp only [List.map_cons, List.prod_cons, exactPar, Nat.add_zero, mul_assoc]

/-- `A` of `choose_r` as a function of the precision -/
noncomputable def gcA (c : ℝ) (K : Nat) (p : ℝ) : ℝ := 1 + 2 * (c + Real.log 2 * p) / K
/-- `A + log (A / R)` -/
noncomputable def gcB (c : ℝ) (K : Nat) (R p : ℝ) : ℝ := gcA c K p + Real.log (gcA c K p / R)
/-- the parameter chosen -/
noncomputable def gcRho (c : ℝ) (K : Nat) (R p : ℝ) : ℝ := Real.cosh (R * (1 - R / gcB c K R p))

section limits

variable {c R : ℝ} {K : Nat}

theorem gcA_rate (hK : 0 < K) : Tendsto (fun p : ℕ => gcA c K p / p) atTop (𝓝 (2 * Real.log 2 / K)) := by
  have hKR : (0 : ℝ) < K := by exact_mod_cast hK
  have h : Tendsto (fun p : ℕ => (1 + 2 * c / K) / (p : ℝ) + 2 * Real.log 2 / K) atTop (𝓝 (0 + 2 * Real.log 2 / K)) :=
    (tendsto_const_div_atTop_nhds_zero_nat _).add_const _
  rw [zero_add] at h
  refine h.congr' ?_
  filter_upwards [eventually_gt_atTop 0] with p hp
  have hp : (0 : ℝ) < p := by exact_mod_cast hp
  unfold gcA
  field_simp
  ring

theorem gcA_atTop (hK : 0 < K) : Tendsto (fun p : ℕ => gcA c K p) atTop atTop := by
  have hKR : (0 : ℝ) < K := by exact_mod_cast hK
  have h : Tendsto (fun p : ℕ => (1 + 2 * c / K) + (2 * Real.log 2 / K) * (p : ℝ)) atTop atTop :=
    tendsto_atTop_add_const_left _ _ (tendsto_natCast_atTop_atTop.const_mul_atTop (by have := Real.log_pos one_lt_two; positivity))
  refine h.congr fun p => ?_
  unfold gcA
  ring

theorem log_div_self : Tendsto (fun x : ℝ => Real.log x / x) atTop (𝓝 0) := Real.isLittleO_log_id_atTop.tendsto_div_nhds_zero

theorem gcB_rate (hK : 0 < K) (hR : 0 < R) : Tendsto (fun p : ℕ => gcB c K R p / p) atTop (𝓝 (2 * Real.log 2 / K)) := by
  have h1 : Tendsto (fun p : ℕ => gcA c K p / R) atTop atTop := (gcA_atTop hK).atTop_div_const hR
  have h2 := (log_div_self.comp h1).mul (((gcA_rate (c := c) hK).div_const R))
  rw [zero_mul] at h2
  have h3 := (gcA_rate (c := c) hK).add h2
  rw [add_zero] at h3
  refine h3.congr' ?_
  filter_upwards [eventually_gt_atTop 0, h1.eventually_gt_atTop 0] with p hp hA
  have hp : (0 : ℝ) < p := by exact_mod_cast hp
  unfold gcB
  simp only [Function.comp]
  rw [add_div]
  congr 1
  have hA' : gcA c K p ≠ 0 := by
    intro h
    rw [h, zero_div] at hA
    exact lt_irrefl _ hA
  field_simp

theorem gcB_atTop (hK : 0 < K) (hR : 0 < R) : Tendsto (fun p : ℕ => gcB c K R p) atTop atTop :=
  tendsto_atTop_mono' _ (by
    filter_upwards [((gcA_atTop (c := c) hK).atTop_div_const hR).eventually_ge_atTop 1] with p hp
    unfold gcB
    exact le_add_of_nonneg_right (Real.log_nonneg hp)) (gcA_atTop hK)

theorem gcLogB_rate (hK : 0 < K) (hR : 0 < R) : Tendsto (fun p : ℕ => Real.log (gcB c K R p) / p) atTop (𝓝 0) := by
  have h := (log_div_self.comp (gcB_atTop (c := c) hK hR)).mul (gcB_rate (c := c) hK hR)
  rw [zero_mul] at h
  refine h.congr' ?_
  filter_upwards [(gcB_atTop (c := c) hK hR).eventually_gt_atTop 0] with p hp
  simp only [Function.comp]
  field_simp

theorem gcEps_zero (hK : 0 < K) (hR : 0 < R) : Tendsto (fun p : ℕ => R / gcB c K R p) atTop (𝓝 0) := (gcB_atTop hK hR).const_div_atTop R

theorem gcArg_lim (hK : 0 < K) (hR : 0 < R) : Tendsto (fun p : ℕ => R * (1 - R / gcB c K R p)) atTop (𝓝 R) := by
  have := ((gcEps_zero (c := c) hK hR).const_sub 1).const_mul R
  rwa [sub_zero, mul_one] at this

theorem gcRho_lim (hK : 0 < K) (hR : 0 < R) : Tendsto (fun p : ℕ => gcRho c K R p) atTop (𝓝 (Real.cosh R)) :=
  (Real.continuous_cosh.tendsto R).comp (gcArg_lim hK hR)

/-- `log (r0 - r)` grows slower than the precision -/
theorem gcGap_rate (hK : 0 < K) (hR : 0 < R) : Tendsto (fun p : ℕ => Real.log (Real.cosh R - gcRho c K R p) / p) atTop (𝓝 0) := by
  have hs : 0 < Real.sinh R := Real.sinh_pos_iff.2 hR
  have h1 : Tendsto (fun p : ℕ => R * (1 - R / gcB c K R p)) atTop (𝓝[≠] R) := by
    refine tendsto_nhdsWithin_iff.2 ⟨gcArg_lim hK hR, ?_⟩
    filter_upwards [(gcB_atTop (c := c) hK hR).eventually_gt_atTop 0] with p hp
    have : 0 < R / gcB c K R p := div_pos hR hp
    intro h
    have h : R * (1 - R / gcB c K R p) = R := h
    nlinarith
  have h2 := (hasDerivAt_iff_tendsto_slope.1 (Real.hasDerivAt_cosh R)).comp h1
  have h3 := (Real.continuousAt_log hs.ne').tendsto.comp h2
  have h4 := (h3.div_atTop tendsto_natCast_atTop_atTop).add ((tendsto_const_div_atTop_nhds_zero_nat (Real.log (R ^ 2))).sub (gcLogB_rate (c := c) hK hR))
  rw [sub_zero, add_zero] at h4
  refine h4.congr' ?_
  filter_upwards [eventually_gt_atTop 0, (gcB_atTop (c := c) hK hR).eventually_gt_atTop R] with p hp hB
  have hp : (0 : ℝ) < p := by exact_mod_cast hp
  have hB0 : 0 < gcB c K R p := by linarith
  have he : 0 < R / gcB c K R p := div_pos hR hB0
  have he1 : R / gcB c K R p < 1 := (div_lt_one hB0).2 hB
  have hgap : 0 < Real.cosh R - gcRho c K R p := by
    unfold gcRho
    rw [sub_pos, Real.cosh_lt_cosh, abs_of_pos hR, abs_of_pos (mul_pos hR (by linarith))]
    nlinarith
  have e : slope Real.cosh R (R * (1 - R / gcB c K R p)) = (Real.cosh R - gcRho c K R p) / (R ^ 2 / gcB c K R p) := by
    rw [slope_def_field]
    have e1 : R * (1 - R / gcB c K R p) - R = -(R ^ 2 / gcB c K R p) := by ring
    rw [e1, div_neg, ← neg_div, neg_sub]
    rfl
  simp only [Function.comp]
  rw [e, Real.log_div hgap.ne' (div_pos (by positivity) hB0).ne', Real.log_div (by positivity) hB0.ne', ← sub_div, ← add_div]
  congr 1
  ring

/-- the logarithm of the product of the differences grows slower than the precision -/
theorem gcProd_rate (hK : 0 < K) (hR : 0 < R) : ∀ (vs : List ℝ), (∀ v ∈ vs, Real.cosh R ≤ v) → Tendsto (fun p : ℕ => Real.log ((vs.map fun v => v - gcRho c K R p).prod) / p) atTop (𝓝 0)
  | [], _ => by simp
  | v :: vs, h => by
    have ih := gcProd_rate hK hR vs fun w hw => h w (List.mem_cons_of_mem _ hw)
    have hv : Tendsto (fun p : ℕ => Real.log (v - gcRho c K R p) / p) atTop (𝓝 0) := by
      rcases (h v (by simp)).eq_or_lt with e | e
      · rw [← e]; exact gcGap_rate hK hR
      · have h1 : Tendsto (fun p : ℕ => v - gcRho c K R p) atTop (𝓝 (v - Real.cosh R)) := (gcRho_lim hK hR).const_sub v
        exact ((Real.continuousAt_log (sub_pos.2 e).ne').tendsto.comp h1).div_atTop tendsto_natCast_atTop_atTop
    have h3 := hv.add ih
    rw [add_zero] at h3
    refine h3.congr' ?_
    filter_upwards [(gcB_atTop (c := c) hK hR).eventually_gt_atTop R] with p hB
    have hB0 : 0 < gcB c K R p := by linarith
    have he : 0 < R / gcB c K R p := div_pos hR hB0
    have he1 : R / gcB c K R p < 1 := (div_lt_one hB0).2 hB
    have hlt : gcRho c K R p < Real.cosh R := by
      unfold gcRho
      rw [Real.cosh_lt_cosh, abs_of_pos hR, abs_of_pos (mul_pos hR (by linarith))]
      nlinarith
    have h0 : ∀ w ∈ v :: vs, 0 < w - gcRho c K R p := fun w hw => by linarith [h w hw]
    rw [List.map_cons, List.prod_cons, Real.log_mul (h0 v (by simp)).ne' (List.prod_pos (by
      intro a ha
      obtain ⟨w, hw, rfl⟩ := List.mem_map.1 ha
      exact h0 w (List.mem_cons_of_mem _ hw))).ne', add_div]

end limits

end Hcp

namespace Hcp

open Spec Filter Topology

theorem chooseR_exact {r0 m : ℝ} {K : Nat} (h0 : 1 < r0) (hA : Real.arcosh r0 < 1 + 2 * m / K) :
    chooseR exactPar exactDbl r0 m K = .ok (Real.cosh (Real.arcosh r0 * (1 - Real.arcosh r0 / (1 + 2 * m / K + Real.log ((1 + 2 * m / K) / Real.arcosh r0))))) := by
  have hR := Real.arcosh_pos h0
  set R := Real.arcosh r0 with hRd
  set A := 1 + 2 * m / K with hAd
  have hlog : 0 < Real.log (A / R) := Real.log_pos (by rw [lt_div_iff₀ hR]; linarith)
  have e : (do
      let R ← exactDbl.acosh r0
      let A ← exactDbl.affine (exactPar.mid m) K
      let eps ← exactDbl.eps A R
      exactDbl.coshMul R eps) = some (Real.cosh (R * (1 - R / (A + Real.log (A / R))))) := by
    have hm : exactPar.mid m = m := rfl
    simp only [exactDbl, if_pos h0.le, Option.bind_eq_bind, Option.bind_some, hm, ← hRd, ← hAd]
    rw [if_neg (by linarith), if_neg hR.ne', if_neg (by linarith), if_neg (by linarith)]
    rfl
  unfold chooseR
  rw [e]
  simp only
  rw [if_neg (not_lt.2 (Real.one_le_cosh _))]
  rfl

open Classical in
/-- the constants of `gc_params` which do not depend on the precision: the product and the count of the first round -/
noncomputable def gcQ (vr : List ℝ) (r0 : ℝ) : ℝ := ((vr.filter fun v => v ≠ r0).map fun v => v - r0).prod
open Classical in
noncomputable def gcK (vr : List ℝ) (r0 : ℝ) : Nat := vr.count r0
noncomputable def gcC (vr : List ℝ) (r0 : ℝ) (d : Nat) : ℝ := Real.log (Real.sqrt (2 * Real.pi)) * 2 ^ (1 : Int) + Real.log r0 * (d : Int) - Real.log (gcQ vr r0) * 2 ^ (-1 : Int)
/-- the parameter `r` at precision `prec` -/
noncomputable def gcR (vr : List ℝ) (r0 : ℝ) (d : Nat) (prec : ℝ) : ℝ := gcRho (gcC vr r0 d) (gcK vr r0) (Real.arcosh r0) prec
/-- the logarithm `m` at the end of the loop -/
noncomputable def gcM (vr : List ℝ) (r0 : ℝ) (d : Nat) (prec : ℝ) : ℝ :=
  Real.log (Real.sqrt (2 * Real.pi)) * 2 ^ (1 : Int) + Real.log r0 * (d : Int) + Real.log 2 * prec - Real.log (vr.map fun v => v - gcR vr r0 d prec).prod * 2 ^ (-1 : Int)
/-- the quotient rounded up to the number of points -/
noncomputable def gcX (vr : List ℝ) (r0 : ℝ) (d : Nat) (prec : ℝ) : ℝ := gcM vr r0 d prec / Real.arcosh (gcR vr r0 d prec) * 2 ^ (-1 : Int)

theorem gcK_pos {u : List ℂ} {r0 : ℝ} (h : ∃ z ∈ u, r0 = rOf z) : 0 < gcK (u.map rOf) r0 := by
  classical
  obtain ⟨z, hz, e⟩ := h
  exact List.count_pos_iff.2 (List.mem_map.2 ⟨z, hz, e.symm⟩)

theorem gcParLoop_exact {u : List ℂ} {r0 : ℝ} {d prec : Nat} (h0 : 1 < r0) (hmin : ∀ z ∈ u, r0 ≤ rOf z) (hmem : ∃ z ∈ u, r0 = rOf z)
    (hA : Real.arcosh r0 < gcA (gcC (u.map rOf) r0 d) (gcK (u.map rOf) r0) prec) (fuel : Nat) :
    gcParLoop exactPar exactDbl r0 (Real.log (Real.sqrt (2 * Real.pi)) * 2 ^ (1 : Int) + Real.log r0 * (d : Int) + Real.log 2 * prec) (u.map rOf) (fuel + 2) r0 = .ok (gcR (u.map rOf) r0 d prec, gcM (u.map rOf) r0 d prec) ∧
    1 < gcR (u.map rOf) r0 d prec ∧ gcR (u.map rOf) r0 d prec < r0 := by
  classical
  have hK := gcK_pos hmem
  set m0 := Real.log (Real.sqrt (2 * Real.pi)) * 2 ^ (1 : Int) + Real.log r0 * (d : Int) + Real.log 2 * prec with hm0
  have r1 : majYr exactPar m0 r0 (u.map rOf) = .ok (m0 - Real.log (gcQ (u.map rOf) r0) * 2 ^ (-1 : Int), gcK (u.map rOf) r0) := by
    unfold majYr
    rw [if_pos (by rfl), majLoop_exact]
    simp only
    rw [if_pos (by rfl)]
    simp [exactPar, gcQ, gcK]
  have hAe : 1 + 2 * (m0 - Real.log (gcQ (u.map rOf) r0) * 2 ^ (-1 : Int)) / (gcK (u.map rOf) r0 : ℝ) = gcA (gcC (u.map rOf) r0 d) (gcK (u.map rOf) r0) prec := by
    unfold gcA gcC
    rw [hm0]
    ring
  have hc := chooseR_exact (m := m0 - Real.log (gcQ (u.map rOf) r0) * 2 ^ (-1 : Int)) (K := gcK (u.map rOf) r0) h0 (by rw [hAe]; exact hA)
  rw [hAe] at hc
  have hc : chooseR exactPar exactDbl r0 (m0 - Real.log (gcQ (u.map rOf) r0) * 2 ^ (-1 : Int)) (gcK (u.map rOf) r0) = .ok (gcR (u.map rOf) r0 d prec) := hc
  have hR := Real.arcosh_pos h0
  obtain ⟨ρ, e, b1, b2⟩ := C45_choice_partial (P := exactPar) h0 (m := m0 - Real.log (gcQ (u.map rOf) r0) * 2 ^ (-1 : Int)) (K := gcK (u.map rOf) r0) (by
    show Real.arcosh r0 < 1 + 2 * (m0 - Real.log (gcQ (u.map rOf) r0) * 2 ^ (-1 : Int)) / (gcK (u.map rOf) r0 : ℝ)
    rw [hAe]; exact hA) hc
  have e : gcR (u.map rOf) r0 d prec = ρ := e
  rw [← e] at b1 b2
  refine ⟨?_, b1, b2⟩
  have hne : ∀ v ∈ u.map rOf, v ≠ gcR (u.map rOf) r0 d prec := by
    intro v hv
    obtain ⟨z, hz, rfl⟩ := List.mem_map.1 hv
    have := hmin z hz
    intro h
    linarith
  have r2 : majYr exactPar m0 (gcR (u.map rOf) r0 d prec) (u.map rOf) = .ok (gcM (u.map rOf) r0 d prec, 0) := by
    unfold majYr
    rw [if_pos (by rfl), majLoop_exact, List.filter_eq_self.2 (by simpa using hne), List.count_eq_zero.2 (fun h => hne _ h rfl)]
    simp only
    rw [if_pos (by rfl)]
    simp [exactPar, gcM, hm0]
  unfold gcParLoop
  rw [r1, Res.ok_bind]
  simp only
  rw [if_neg (by omega), hc, Res.ok_bind]
  unfold gcParLoop
  rw [r2, Res.ok_bind]
  simp

/-- the values of `gc_params` on exact numbers -/
theorem gcParams_exact {u : List ℂ} (hu : u ≠ []) (h : ∀ z ∈ u, 1 < rOf z) (d : Nat) :
    ∃ r0, 1 < r0 ∧ (∀ z ∈ u, r0 ≤ rOf z) ∧ (∃ z ∈ u, r0 = rOf z) ∧
    ∀ (fuel prec : Nat), Real.arcosh r0 < gcA (gcC (u.map rOf) r0 d) (gcK (u.map rOf) r0) prec → 1 < gcR (u.map rOf) r0 d prec ∧ gcR (u.map rOf) r0 d prec < r0 ∧
      (∀ p, gcParams exactPar exactDbl fuel u d prec = .ok p → p.n = ⌈gcX (u.map rOf) r0 d prec⌉ ∧ p.r = gcR (u.map rOf) r0 d prec ∧ p.r0 = r0) ∧
      (2 ≤ fuel → FitsSlong ⌈gcX (u.map rOf) r0 d prec⌉ → FitsSlong (2 * ⌈gcX (u.map rOf) r0 d prec⌉) → ∃ p, gcParams exactPar exactDbl fuel u d prec = .ok p) := by
  obtain ⟨r0, hv, hmin, hmem⟩ := vecR_exact hu h
  have h0 : 1 < r0 := by
    obtain ⟨z, hz, e⟩ := hmem
    rw [e]
    exact h z hz
  refine ⟨r0, h0, hmin, hmem, fun fuel prec hA => ?_⟩
  have hl := fun fuel => gcParLoop_exact (d := d) (prec := prec) h0 hmin hmem hA fuel
  refine ⟨(hl 0).2.1, (hl 0).2.2, ?_⟩
  have e : gcParams exactPar exactDbl fuel u d prec = (gcParLoop exactPar exactDbl r0 (Real.log (Real.sqrt (2 * Real.pi)) * 2 ^ (1 : Int) + Real.log r0 * (d : Int) + Real.log 2 * prec) (u.map rOf) fuel r0 >>= fun s =>
      arfGetSi (some (s.2 / Real.arcosh s.1 * 2 ^ (-1 : Int))) >>= fun n => chk (2 * n) >>= fun n2 =>
      .ok { n := n, e := exactPar.mag (exactPar.div (exactPar.mul2exp (exactPar.exp s.2) (-prec)) (exactPar.sub1 (exactPar.exp (exactPar.mulSi (exactPar.acosh s.1) n2)))), r := s.1, r0 := r0 }) := by
    unfold gcParams
    rw [hv, Res.ok_bind]
    simp only [exactPar, Option.getD_some, Int.cast_natCast]
  have hfuel : ∀ p, gcParams exactPar exactDbl fuel u d prec = .ok p → 2 ≤ fuel := by
    intro p hp
    by_contra hf
    rw [e] at hp
    simp only [Res.bind_eq_ok] at hp
    obtain ⟨s, hs, -⟩ := hp
    rcases (by omega : fuel = 0 ∨ fuel = 1) with rfl | rfl
    · cases hs
    · have h2 := (hl 0).1
      unfold gcParLoop at hs h2
      simp only [Res.bind_eq_ok] at hs h2
      obtain ⟨⟨m, K⟩, hm, hs⟩ := hs
      obtain ⟨⟨m', K'⟩, hm', h2⟩ := h2
      rw [hm] at hm'
      obtain ⟨rfl, rfl⟩ := Prod.mk.inj (Res.ok.inj hm')
      simp only at hs h2
      split at hs
      · rename_i hK
        rw [if_pos hK] at h2
        have := (Prod.mk.inj (Res.ok.inj h2)).1
        linarith [(hl 0).2.2]
      · simp only [Res.bind_eq_ok] at hs
        obtain ⟨_, _, hs⟩ := hs
        cases hs
  constructor
  · intro p hp
    have hf := hfuel p hp
    obtain ⟨f, rfl⟩ : ∃ f, fuel = f + 2 := ⟨fuel - 2, by omega⟩
    rw [e, (hl f).1, Res.ok_bind] at hp
    simp only [Res.bind_eq_ok] at hp
    obtain ⟨n, hn, n2, -, hp⟩ := hp
    obtain rfl := Res.ok.inj hp
    refine ⟨?_, rfl, rfl⟩
    unfold arfGetSi at hn
    simp only at hn
    split at hn
    · exact (Res.ok.inj hn).symm
    · cases hn
  · intro hf f1 f2
    obtain ⟨f, rfl⟩ : ∃ f, fuel = f + 2 := ⟨fuel - 2, by omega⟩
    rw [e, (hl f).1, Res.ok_bind]
    have e1 : arfGetSi (some (gcM (u.map rOf) r0 d prec / Real.arcosh (gcR (u.map rOf) r0 d prec) * 2 ^ (-1 : Int))) = .ok ⌈gcX (u.map rOf) r0 d prec⌉ := by
      unfold arfGetSi
      exact if_pos f1
    rw [e1, Res.ok_bind]
    have e2 : chk (2 * ⌈gcX (u.map rOf) r0 d prec⌉) = .ok (2 * ⌈gcX (u.map rOf) r0 d prec⌉) := if_pos f2
    rw [e2, Res.ok_bind]
    exact ⟨_, rfl⟩

/-- the number of points grows like `log 2 / (2 arcosh r0)` times the precision -/
theorem gcX_rate {vr : List ℝ} {r0 : ℝ} (h0 : 1 < r0) (hmin : r0 ∈ vr ∧ ∀ s ∈ vr, r0 ≤ s) (d : Nat) :
    Tendsto (fun prec : ℕ => gcX vr r0 d prec / prec) atTop (𝓝 (Real.log 2 / (2 * Real.arcosh r0))) := by
  have hK : 0 < gcK vr r0 := by
    classical
    exact List.count_pos_iff.2 hmin.1
  have hR := Real.arcosh_pos h0
  have hcosh : Real.cosh (Real.arcosh r0) = r0 := Real.cosh_arcosh h0.le
  set C := Real.log (Real.sqrt (2 * Real.pi)) * 2 ^ (1 : Int) + Real.log r0 * (d : Int) with hC
  have hprod := gcProd_rate (c := gcC vr r0 d) hK hR vr (by
    intro v hv
    rw [hcosh]
    exact hmin.2 v hv)
  have hM : Tendsto (fun prec : ℕ => gcM vr r0 d prec / prec) atTop (𝓝 (Real.log 2)) := by
    have h1 := ((tendsto_const_div_atTop_nhds_zero_nat C).add_const (Real.log 2)).sub (hprod.mul_const ((2 : ℝ) ^ (-1 : Int)))
    rw [zero_add, zero_mul, sub_zero] at h1
    refine h1.congr' ?_
    filter_upwards [eventually_gt_atTop 0] with p hp
    have hp : (0 : ℝ) < p := by exact_mod_cast hp
    unfold gcM gcR
    rw [← hC]
    field_simp
  have harc : Tendsto (fun prec : ℕ => Real.arcosh (gcR vr r0 d prec)) atTop (𝓝 (Real.arcosh r0)) := by
    refine (gcArg_lim (c := gcC vr r0 d) hK hR).congr' ?_
    filter_upwards [(gcB_atTop (c := gcC vr r0 d) hK hR).eventually_gt_atTop (Real.arcosh r0)] with p hp
    have h1 : Real.arcosh r0 / gcB (gcC vr r0 d) (gcK vr r0) (Real.arcosh r0) p < 1 := (div_lt_one (by linarith)).2 hp
    unfold gcR gcRho
    rw [Real.arcosh_cosh (mul_nonneg hR.le (by linarith))]
  have h2 := (hM.div harc hR.ne').mul_const ((2 : ℝ) ^ (-1 : Int))
  have e : Real.log 2 / Real.arcosh r0 * 2 ^ (-1 : Int) = Real.log 2 / (2 * Real.arcosh r0) := by
    rw [zpow_neg_one]
    field_simp
  rw [e] at h2
  refine h2.congr fun p => ?_
  simp only [Pi.div_apply]
  unfold gcX
  ring

theorem ceil_rate {x : ℕ → ℝ} {l : ℝ} (h : Tendsto (fun p : ℕ => x p / p) atTop (𝓝 l)) : Tendsto (fun p : ℕ => (⌈x p⌉ : ℝ) / p) atTop (𝓝 l) := by
  have h1 := h.add (tendsto_const_div_atTop_nhds_zero_nat (1 : ℝ))
  rw [add_zero] at h1
  refine tendsto_of_tendsto_of_tendsto_of_le_of_le h h1 (fun p => ?_) fun p => ?_
  · exact div_le_div_of_nonneg_right (Int.le_ceil _) (Nat.cast_nonneg p)
  · simp only
    rw [← add_div]
    exact div_le_div_of_nonneg_right (Int.ceil_lt_add_one _).le (Nat.cast_nonneg p)

end Hcp
