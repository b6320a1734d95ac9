import Verif.Proofs.CutRays
import Verif.Proofs.SuperForm

/-!
# Intersection numbers of the paths over edges through the cuts
-/

namespace Hcp.Cut
open Complex Set PlaneTree Spec

section
variable {m n : Nat} {y : Nat → ℂ}

theorem RayAt.ne {v : Nat} {s : ℤ} {θ : ℝ} {c : ℂ} (h : RayAt m n y v s θ c) (hG : Gv m n y v ≠ 0) : c ≠ 0 := by
  obtain ⟨r, hr, rfl⟩ := h
  refine mul_ne_zero (by exact_mod_cast hr.ne') (mul_ne_zero (mul_ne_zero (zpow_ne_zero _ (zeta_ne m)) (exp_ne_zero _)) hG)

open scoped Classical in
/-- one more sheet when the direction increases -/
noncomputable def up1 (p : Prop) : ℤ := if p then 1 else 0

/-- two rays at the same point -/
theorem rays_at (hm : 2 ≤ m) {v : Nat} {s s' : ℤ} {θ θ' : ℝ} {c c' : ℂ} (h : RayAt m n y v s θ c) (h' : RayAt m n y v s' θ' c') (hG : Gv m n y v ≠ 0) (hne : θ ≠ θ') (h1 : θ - θ' < 2 * Real.pi) (h2 : θ' - θ < 2 * Real.pi) :
    ∃ φ, Rays m c c' (s' - s + up1 (θ < θ')) φ := by
  have hm0 : (0 : ℝ) < m := by exact_mod_cast (by omega : 0 < m)
  have hmc : (m : ℂ) ≠ 0 := by exact_mod_cast hm0.ne'
  have hc := h.ne hG
  have hc' := h'.ne hG
  refine ⟨(2 * Real.pi * (up1 (θ < θ') : ℤ) + (θ - θ')) / m, hm, hc, hc', ?_, ?_, ?_⟩
  · unfold up1
    split_ifs with q
    · push_cast
      exact div_pos (by linarith) hm0
    · push_cast
      have : θ' < θ := lt_of_le_of_ne (not_lt.1 q) (Ne.symm hne)
      exact div_pos (by linarith) hm0
  · rw [div_lt_div_iff_of_pos_right hm0]
    unfold up1
    split_ifs with q
    · push_cast
      linarith
    · push_cast
      linarith
  · rw [turns_iff (mul_ne_zero (zpow_ne_zero _ (zeta_ne m)) hc) hc']
    obtain ⟨r, hr, rfl⟩ := h
    obtain ⟨r', hr', rfl⟩ := h'
    refine ⟨r / r', div_pos hr hr', ?_⟩
    have hr0 : (r' : ℂ) ≠ 0 := by exact_mod_cast hr'.ne'
    have key : zeta m ^ (s' - s + up1 (θ < θ')) * (zeta m ^ s * exp (θ * I / m)) = exp ((((2 * Real.pi * (up1 (θ < θ') : ℤ) + (θ - θ')) / m : ℝ) : ℂ) * I) * (zeta m ^ s' * exp (θ' * I / m)) := by
      unfold zeta
      rw [← exp_int_mul, ← exp_int_mul, ← exp_int_mul, ← exp_add, ← exp_add, ← exp_add, ← exp_add]
      congr 1
      push_cast
      field_simp
      ring
    generalize exp ((((2 * Real.pi * (up1 (θ < θ') : ℤ) + (θ - θ')) / m : ℝ) : ℂ) * I) = X at key ⊢
    generalize exp (θ * I / m) = A at key ⊢
    generalize exp (θ' * I / m) = B at key ⊢
    push_cast
    field_simp
    linear_combination (r : ℂ) * key

theorem up1_cut (ζ : ℂˣ) (p : Prop) : (ζ : ℂ) ^ (-up1 p) = cut ζ p := by
  unfold up1 cut
  split_ifs <;> simp

/-- the sum over the sheets for two ends -/
theorem end_sum (hm : 2 ≤ m) {ζ : ℂˣ} (hz : (ζ : ℂ) ^ m = 1) (s s' : ℤ) (p : Prop) (β : Nat) :
    ∑ α ∈ Finset.range (m - 1), ((ζ : ℂ) ^ (-(α : ℤ)) - ζ) * (Super.step m ((β : ℤ) - α + (s' - s + up1 p)) : ℂ) = (ζ : ℂ) ^ (-(β : ℤ)) * (((ζ : ℂ) - 1) * (((ζ ^ (-s') : ℂˣ) : ℂ) * (((ζ ^ s : ℂˣ) : ℂ) * cut ζ p))) := by
  rw [Super.sum_step hm hz, ← up1_cut, zu, zu]
  have h0 : (ζ : ℂ) ≠ 0 := ζ.ne_zero
  rw [show -(s' - s + up1 p) = -s' + (s + -up1 p) by ring, zpow_add₀ h0, zpow_add₀ h0]
  ring

/-- an edge with the values of `y` at its ends -/
structure EndRays (m n : Nat) (y : Nat → ℂ) (P : PEdge) (ca cb : ℂ) : Prop where
  a : RayAt m n y P.a P.sa P.pa ca
  b : RayAt m n y P.b P.sb P.pb cb
  pa : -Real.pi < P.pa ∧ P.pa < Real.pi
  pb : -Real.pi < P.pb ∧ P.pb < Real.pi
  ga : Gv m n y P.a ≠ 0
  gb : Gv m n y P.b ≠ 0

/-- two edges leave common ends in different directions -/
structure Apart (P P' : PEdge) : Prop where
  aa : P.a = P'.a → P.pa ≠ P'.pa
  ab : P.a = P'.b → P.pa ≠ P'.pb
  ba : P.b = P'.a → P.pb ≠ P'.pa
  bb : P.b = P'.b → P.pb ≠ P'.pb

theorem EndRays.number {P P' : PEdge} {ca cb ca' cb' : ℂ} (hm : 2 ≤ m) (h : EndRays m n y P ca cb) (h' : EndRays m n y P' ca' cb') (hp : Apart P P') (α β : Nat) :
    pathNumber (passages m P.a P.b ca cb α) (passages m P'.a P'.b ca' cb' β) =
      (((if P.a = P'.a then Super.step m ((β : ℤ) - α + (P'.sa - P.sa + up1 (P.pa < P'.pa))) else 0) - (if P.a = P'.b then Super.step m ((β : ℤ) - α + (P'.sb - P.sa + up1 (P.pa < P'.pb))) else 0) +
      (-(if P.b = P'.a then Super.step m ((β : ℤ) - α + (P'.sa - P.sb + up1 (P.pb < P'.pa))) else 0) + (if P.b = P'.b then Super.step m ((β : ℤ) - α + (P'.sb - P.sb + up1 (P.pb < P'.pb))) else 0)) : ℤ) : ℚ) := by
  have a1 := h.pa
  have a2 := h.pb
  have a3 := h'.pa
  have a4 := h'.pb
  rw [pathNumber_eq]
  push_cast
  rw [sub_eq_add_neg]
  refine congrArg₂ _ (congrArg₂ _ ?_ ?_) (congrArg₂ _ ?_ ?_)
  · split_ifs with q
    · obtain ⟨φ, r⟩ := rays_at hm h.a (q ▸ h'.a) h.ga (hp.aa q) (by linarith) (by linarith)
      rw [crossing_start r, local_step hm]
    · rfl
  · split_ifs with q
    · obtain ⟨φ, r⟩ := rays_at hm h.a (q ▸ h'.b) h.ga (hp.ab q) (by linarith) (by linarith)
      rw [crossing_rev ⟨_, _⟩ ⟨zeta m ^ (β + 1) * cb', zeta m ^ β * cb'⟩, crossing_start r, local_step hm]
    · simp
  · split_ifs with q
    · obtain ⟨φ, r⟩ := rays_at hm h.b (q ▸ h'.a) h.gb (hp.ba q) (by linarith) (by linarith)
      rw [crossing_end r, local_step hm]
    · simp
  · split_ifs with q
    · obtain ⟨φ, r⟩ := rays_at hm h.b (q ▸ h'.b) h.gb (hp.bb q) (by linarith) (by linarith)
      rw [crossing_rev ⟨_, _⟩ ⟨zeta m ^ (β + 1) * cb', zeta m ^ β * cb'⟩, crossing_end r, local_step hm, neg_neg]
    · rfl

/-- **sum of the intersection numbers over the sheets, different edges** -/
theorem number_sum (hm : 2 ≤ m) {pe : Nat → PEdge} {k l : Nat} (hkl : k ≠ l) {ca cb ca' cb' : ℂ} (h : EndRays m n y (pe k) ca cb) (h' : EndRays m n y (pe l) ca' cb') (hp : Apart (pe k) (pe l)) {ζ : ℂˣ} (hz : (ζ : ℂ) ^ m = 1) (β : Nat) :
    ∑ α ∈ Finset.range (m - 1), ((ζ : ℂ) ^ (-(α : ℤ)) - ζ) * ((pathNumber (passages m (pe k).a (pe k).b ca cb α) (passages m (pe l).a (pe l).b ca' cb' β) : ℚ) : ℂ) = (ζ : ℂ) ^ (-(β : ℤ)) * (((ζ : ℂ) - 1) * Hm ζ pe k l) := by
  have e : ∀ α ∈ Finset.range (m - 1), ((ζ : ℂ) ^ (-(α : ℤ)) - ζ) * ((pathNumber (passages m (pe k).a (pe k).b ca cb α) (passages m (pe l).a (pe l).b ca' cb' β) : ℚ) : ℂ) =
      (if (pe k).a = (pe l).a then ((ζ : ℂ) ^ (-(α : ℤ)) - ζ) * (Super.step m ((β : ℤ) - α + ((pe l).sa - (pe k).sa + up1 ((pe k).pa < (pe l).pa))) : ℂ) else 0) - (if (pe k).a = (pe l).b then ((ζ : ℂ) ^ (-(α : ℤ)) - ζ) * (Super.step m ((β : ℤ) - α + ((pe l).sb - (pe k).sa + up1 ((pe k).pa < (pe l).pb))) : ℂ) else 0) +
      (-(if (pe k).b = (pe l).a then ((ζ : ℂ) ^ (-(α : ℤ)) - ζ) * (Super.step m ((β : ℤ) - α + ((pe l).sa - (pe k).sb + up1 ((pe k).pb < (pe l).pa))) : ℂ) else 0) + (if (pe k).b = (pe l).b then ((ζ : ℂ) ^ (-(α : ℤ)) - ζ) * (Super.step m ((β : ℤ) - α + ((pe l).sb - (pe k).sb + up1 ((pe k).pb < (pe l).pb))) : ℂ) else 0)) := by
    intro α _
    rw [h.number hm h' hp]
    split_ifs <;> push_cast <;> ring
  rw [Finset.sum_congr rfl e]
  have ite_sum : ∀ (p : Prop) [Decidable p] (f : Nat → ℂ), ∑ α ∈ Finset.range (m - 1), (if p then f α else 0) = if p then ∑ α ∈ Finset.range (m - 1), f α else 0 := by
    intro p _ f
    split_ifs <;> simp
  simp only [Finset.sum_add_distrib, Finset.sum_sub_distrib, Finset.sum_neg_distrib, ite_sum, end_sum hm hz]
  unfold Hm bco
  rw [if_neg hkl]
  split_ifs <;> ring

/-- the same for one edge -/
theorem number_sum_self (hm : 2 ≤ m) {pe : Nat → PEdge} {k : Nat} (hab : (pe k).a ≠ (pe k).b) {ca cb : ℂ} (h : EndRays m n y (pe k) ca cb) {ζ : ℂˣ} (hz : (ζ : ℂ) ^ m = 1) {β : Nat} (hβ : β < m - 1) :
    ∑ α ∈ Finset.range (m - 1), ((ζ : ℂ) ^ (-(α : ℤ)) - ζ) * ((pathNumber (passages m (pe k).a (pe k).b ca cb α) (passages m (pe k).a (pe k).b ca cb β) : ℚ) : ℂ) = (ζ : ℂ) ^ (-(β : ℤ)) * (((ζ : ℂ) - 1) * Hm ζ pe k k) := by
  have e : ∀ α ∈ Finset.range (m - 1), ((ζ : ℂ) ^ (-(α : ℤ)) - ζ) * ((pathNumber (passages m (pe k).a (pe k).b ca cb α) (passages m (pe k).a (pe k).b ca cb β) : ℚ) : ℂ) =
      ((ζ : ℂ) ^ (-(α : ℤ)) - ζ) * (Super.step m ((β : ℤ) - α + 0) : ℂ) + ((ζ : ℂ) ^ (-(α : ℤ)) - ζ) * (Super.step m ((β : ℤ) - α + 1) : ℂ) := by
    intro α hα
    rw [EdgeM.number_self hm hab (h.a.ne h.ga) (h.b.ne h.gb) (Finset.mem_range.1 hα) hβ]
    push_cast
    ring
  rw [Finset.sum_congr rfl e, Finset.sum_add_distrib, Super.sum_step hm hz, Super.sum_step hm hz]
  unfold Hm bco cut
  rw [if_pos rfl, if_neg hab.symm, if_pos rfl, if_neg hab, if_pos rfl, if_neg (lt_irrefl _), if_neg (lt_irrefl _)]
  simp only [zu, Units.val_inv_eq_inv_val, neg_zero, zpow_zero, zpow_neg, zpow_one, mul_one, sub_zero, zero_sub]
  have h1 : (ζ : ℂ) ^ (pe k).sa ≠ 0 := zpow_ne_zero _ ζ.ne_zero
  have h2 : (ζ : ℂ) ^ (pe k).sb ≠ 0 := zpow_ne_zero _ ζ.ne_zero
  have h3 : (ζ : ℂ) ≠ 0 := ζ.ne_zero
  field_simp
  ring

end

end Hcp.Cut
