import Verif.Proofs.FaceKernel

/-!
# Periods of the vectors orthogonal to all the loops
-/

namespace Hcp.PlaneTree

variable {m : Nat} [NeZero m] {pe : Nat → PEdge} {N r0 : Nat} {F : Type} [Field F]

/-- differences of a function -/
noncomputable def dfn (w : ZMod m → F) : Fn m F := dif (show Fn m F from w)

omit [NeZero m] in
theorem dfn_apply (w : ZMod m → F) (α : ZMod m) : dfn w α = w (α + 1) - w α := dif_apply (show Fn m F from w) α

omit [NeZero m] in
theorem dfn_qn (w : ZMod m → F) (n : Nat) (α : ZMod m) : (qn (gen m F) n • dfn w) α = w (α + (n : Nat)) - w α := dif_qn n (show Fn m F from w) α

/-- differences of a vector -/
noncomputable def vz (Z : Nat → ZMod m → F) (k : Nat) : Vd m F := ⟨dfn (Z k), ⟨_, rfl⟩⟩

theorem Grows.ker_sol (hg : Grows pe r0 N) (Z : Nat → ZMod m → F) (s : Nat × ℝ) : IsKer pe N Z ↔ Sol (gen m F) pe N s (vz Z) 0 := by
  have e : ∀ k < N, ∀ α, (∑ l ∈ Finset.range N, Hm (gen m F) pe k l • vz Z l : Vd m F).1 α = frm pe N Z k α := by
    intro k hk α
    rw [AddSubmonoidClass.coe_finsetSum, fn_sum_apply]
    unfold frm
    refine Finset.sum_congr rfl fun l hl => ?_
    refine (congrFun (Ent_op hg hk (Finset.mem_range.1 hl) (show Fn m F from Z l)) α).symm.trans ?_
    unfold opE
    exact Finset.sum_congr rfl fun β _ => (zsmul_eq_mul _ _).symm
  unfold IsKer Sol
  simp only [smul_zero, add_zero]
  refine forall_congr' fun k => forall_congr' fun hk => ⟨fun h => ?_, fun h α => ?_⟩
  · apply Subtype.ext
    funext α
    rw [e k hk, h]
    rfl
  · rw [← e k hk, h]
    rfl

omit [NeZero m] in
/-- the last edge as seen from its end -/
theorem Grows.gf_leaf {q : Nat} (hg : Grows pe r0 (q + 1)) {θ : ℝ} (hθ : (pe q).pb < θ) (u : Nat → Vd m F) :
    gf (gen m F) pe (q + 1) ((pe q).b, θ) u = -(((gen m F ^ (-(pe q).sb) : (GA m F)ˣ) : GA m F) • u q) := by
  unfold gf
  rw [Finset.sum_eq_single q]
  · unfold gco
    dsimp only
    rw [if_neg (hg.ab_ne (Nat.lt_succ_self q)), if_pos rfl, zero_sub]
    have : cut (gen m F) (¬ (pe q).pb < θ) = 1 := by simp [cut, hθ]
    rw [this, mul_one, neg_smul]
  · intro l hl hlq
    have := hg.old_ne (show l < q by have := Finset.mem_range.1 hl; omega)
    unfold gco
    dsimp only
    rw [if_neg this.1, if_neg this.2, sub_zero, zero_smul]
  · intro h
    exact absurd (Finset.mem_range.2 (Nat.lt_succ_self q)) h

/-- parametrisation of the kernel by the last edge -/
theorem Grows.ker_param {q : Nat} (hg : Grows pe r0 (q + 1)) : ∃ ρ : Vd m F →ₗ[GA m F] (Nat → Vd m F),
    (∀ Z : Nat → ZMod m → F, IsKer pe (q + 1) Z ↔ ∃ z : Vd m F, (∀ k < q + 1, vz Z k = ρ z k) ∧ qn (gen m F) (q + 2) • z = 0) ∧
    (∀ z : Vd m F, qn (gen m F) (q + 2) • z = 0 → ((gen m F : (GA m F)ˣ) : GA m F) • ρ z q = -(((gen m F ^ (pe q).sb : (GA m F)ˣ) : GA m F) • z)) := by
  obtain ⟨θ, hθ⟩ : ∃ θ, (pe q).pb < θ := ⟨_, lt_add_one _⟩
  obtain ⟨ρ, r1, r2, -⟩ := hg.q_all (x := gen m F) (V := Vd m F) ((pe q).b, θ) (Or.inr ⟨q, Nat.lt_succ_self q, rfl⟩)
  refine ⟨ρ, fun Z => ?_, fun z hz => ?_⟩
  · rw [hg.ker_sol Z ((pe q).b, θ), r1]
    exact exists_congr fun z => and_congr_right fun _ => eq_comm
  · have h := r2 z
    rw [hg.gf_leaf hθ, neg_inj] at h
    have h2 : ρ z q = ((gen m F ^ (pe q).sb : (GA m F)ˣ) : GA m F) • qn (gen m F) (q + 1) • z := by
      rw [← h, smul_smul, upow_mul, one_smul]
    rw [qn_succ, add_smul, one_smul, mul_smul] at hz
    rw [h2, smul_comm, eq_neg_of_add_eq_zero_left hz, smul_neg]

omit [NeZero m] in
theorem vz_eq_zero {Z : Nat → ZMod m → F} {k : Nat} : vz Z k = 0 ↔ ∀ α, Z k (α + 1) = Z k α := by
  constructor
  · intro h α
    have := congrFun (congrArg Subtype.val h) α
    change dfn (Z k) α = 0 at this
    rw [dfn_apply] at this
    exact sub_eq_zero.1 this
  · intro h
    apply Subtype.ext
    funext α
    change dfn (Z k) α = 0
    rw [dfn_apply, h, sub_self]

/-- the last edge of a vector orthogonal to all loops is periodic -/
theorem Grows.ker_period {q : Nat} (hg : Grows pe r0 (q + 1)) {Z : Nat → ZMod m → F} (hZ : IsKer pe (q + 1) Z) (α : ZMod m) : Z q (α + (Nat.gcd m (q + 2) : Nat)) = Z q α := by
  obtain ⟨ρ, r1, r2⟩ := hg.ker_param (m := m) (F := F)
  obtain ⟨z, z1, z2⟩ := (r1 Z).1 hZ
  have h1 := r2 z z2
  rw [← z1 q (by omega)] at h1
  have h2 : qn (gen m F) (q + 2) • vz Z q = 0 := by
    have : vz Z q = (((gen m F)⁻¹ : (GA m F)ˣ) : GA m F) • -(((gen m F ^ (pe q).sb : (GA m F)ˣ) : GA m F) • z) := by
      rw [← h1, smul_smul, Units.inv_mul, one_smul]
    rw [this, smul_comm, smul_neg, smul_comm (qn (gen m F) (q + 2)), z2, smul_zero, neg_zero, smul_zero]
  have h3 : Z q ∈ Per m F (q + 2) := by
    intro β
    have := congrFun (congrArg Subtype.val h2) β
    change (qn (gen m F) (q + 2) • dfn (Z q)) β = 0 at this
    rw [dfn_qn] at this
    exact sub_eq_zero.1 this
  exact Per.gcd h3 α

/-- it determines the others -/
theorem Grows.ker_last {q : Nat} (hg : Grows pe r0 (q + 1)) {Z : Nat → ZMod m → F} (hZ : IsKer pe (q + 1) Z) (h : ∀ α, Z q (α + 1) = Z q α) : ∀ k < q + 1, ∀ α, Z k (α + 1) = Z k α := by
  obtain ⟨ρ, r1, r2⟩ := hg.ker_param (m := m) (F := F)
  obtain ⟨z, z1, z2⟩ := (r1 Z).1 hZ
  have h1 := r2 z z2
  rw [← z1 q (by omega), vz_eq_zero.2 h, smul_zero, eq_comm, neg_eq_zero] at h1
  have hz : z = 0 := by
    rw [← one_smul (GA m F) z, ← upow_mul' (x := gen m F) (pe q).sb, mul_smul, h1, smul_zero]
  intro k hk
  rw [← vz_eq_zero, z1 k hk, hz, map_zero]
  rfl

/-- every periodic function is the last edge of such a vector -/
theorem Grows.ker_exists {q : Nat} (hg : Grows pe r0 (q + 1)) {w : ZMod m → F} (hw : ∀ α, w (α + (Nat.gcd m (q + 2) : Nat)) = w α) (hw0 : w (-1) = 0) :
    ∃ Z : Nat → ZMod m → F, IsKer pe (q + 1) Z ∧ (∀ k, Z k (-1) = 0) ∧ (∀ α, Z q α = w α) ∧ ∀ k, q < k → ∀ α, Z k α = 0 := by
  obtain ⟨ρ, r1, r2⟩ := hg.ker_param (m := m) (F := F)
  have hper : ∀ α : ZMod m, w (α + (q + 2 : Nat)) = w α := by
    intro α
    obtain ⟨c, hc⟩ := Nat.gcd_dvd_right m (q + 2)
    have hmem : (w : Fn m F) ∈ Per m F (Nat.gcd m (q + 2)) := hw
    have := Per.mul hmem c α
    rwa [← hc] at this
  let y : Vd m F := ⟨dfn w, ⟨w, rfl⟩⟩
  have hy : qn (gen m F) (q + 2) • y = 0 := by
    apply Subtype.ext
    funext α
    change (qn (gen m F) (q + 2) • dfn w) α = 0
    rw [dfn_qn, hper, sub_self]
  let z : Vd m F := -(((gen m F ^ (-(pe q).sb) : (GA m F)ˣ) : GA m F) • ((gen m F : (GA m F)ˣ) : GA m F) • y)
  have hz : qn (gen m F) (q + 2) • z = 0 := by
    change qn (gen m F) (q + 2) • -(((gen m F ^ (-(pe q).sb) : (GA m F)ˣ) : GA m F) • ((gen m F : (GA m F)ˣ) : GA m F) • y) = 0
    rw [smul_neg, smul_comm, smul_comm (qn (gen m F) (q + 2)), hy, smul_zero, smul_zero, neg_zero]
  have hρ : ρ z q = y := by
    have h1 := r2 z hz
    have h2 : ((gen m F ^ (pe q).sb : (GA m F)ˣ) : GA m F) • z = -(((gen m F : (GA m F)ˣ) : GA m F) • y) := by
      change ((gen m F ^ (pe q).sb : (GA m F)ˣ) : GA m F) • -(((gen m F ^ (-(pe q).sb) : (GA m F)ˣ) : GA m F) • ((gen m F : (GA m F)ˣ) : GA m F) • y) = _
      rw [smul_neg, smul_smul, upow_mul, one_smul]
    rw [h2, neg_neg] at h1
    have h3 := congrArg (fun v => (((gen m F)⁻¹ : (GA m F)ˣ) : GA m F) • v) h1
    simp only [smul_smul, Units.inv_mul, one_smul] at h3
    exact h3
  have hex : ∀ k, ∃ v : ZMod m → F, dfn v = (ρ z k).1 := fun k => (ρ z k).2
  choose v hv using hex
  have hdv : ∀ k α, v k (α + 1) - v k α = (ρ z k).1 α := by
    intro k α
    rw [← hv k, dfn_apply]
  refine ⟨fun k α => if q < k then 0 else v k α - v k (-1), ?_, fun k => ?_, fun α => ?_, fun k hk α => if_pos hk⟩
  · rw [r1]
    refine ⟨z, fun k hk => ?_, hz⟩
    apply Subtype.ext
    funext α
    change dfn (fun α => if q < k then 0 else v k α - v k (-1)) α = (ρ z k).1 α
    rw [dfn_apply, ← hdv]
    simp only [if_neg (show ¬ q < k by omega)]
    ring
  · simp
  · dsimp only
    rw [if_neg (lt_irrefl q)]
    have hs : ∀ α, v q (α + 1) - w (α + 1) = v q α - w α := by
      intro α
      have h1 := hdv q α
      rw [hρ] at h1
      change _ = dfn w α at h1
      rw [dfn_apply] at h1
      linear_combination h1
    have h2 := const_of_step (f := fun α => v q α - w α) hs α
    have h3 := const_of_step (f := fun α => v q α - w α) hs (-1)
    rw [hw0] at h3
    linear_combination h2 - h3

end Hcp.PlaneTree
