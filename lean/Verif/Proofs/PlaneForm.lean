import Verif.Proofs.PlaneTree
import Mathlib.Algebra.Module.Pi
import Mathlib.LinearAlgebra.Pi

/-!
# Kernel of the form of a plane tree
-/

namespace Hcp.PlaneTree

open scoped Classical in
/-- factor picked up when a cut is crossed -/
noncomputable def cut {Λ : Type*} [CommRing Λ] (x : Λˣ) (p : Prop) : Λ := if p then ((x⁻¹ : Λˣ) : Λ) else 1

section
variable {Λ : Type*} [CommRing Λ] (x : Λˣ) {V : Type*} [AddCommGroup V] [Module Λ V] (pe : Nat → PEdge)

theorem cut_add (p : Prop) : cut x p + cut x (¬ p) = 1 + ((x⁻¹ : Λˣ) : Λ) := by
  unfold cut
  by_cases h : p
  · simp [h, add_comm]
  · simp [h]

/-- intersection of the edges with a path leaving `v` in direction `θ` -/
noncomputable def bco (v : Nat) (θ : ℝ) (l : Nat) : Λ :=
  (if (pe l).a = v then ((x ^ (pe l).sa : Λˣ) : Λ) * cut x ((pe l).pa < θ) else 0) -
  (if (pe l).b = v then ((x ^ (pe l).sb : Λˣ) : Λ) * cut x ((pe l).pb < θ) else 0)

/-- intersection of a path leaving `v` in direction `θ` with the edges -/
noncomputable def gco (v : Nat) (θ : ℝ) (l : Nat) : Λ :=
  (if (pe l).a = v then ((x ^ (-(pe l).sa) : Λˣ) : Λ) * cut x (¬ (pe l).pa < θ) else 0) -
  (if (pe l).b = v then ((x ^ (-(pe l).sb) : Λˣ) : Λ) * cut x (¬ (pe l).pb < θ) else 0)

/-- the form divided by `x - 1` -/
noncomputable def Hm (k l : Nat) : Λ :=
  ((x ^ (-(pe l).sa) : Λˣ) : Λ) * bco x pe (pe l).a (pe l).pa k - ((x ^ (-(pe l).sb) : Λˣ) : Λ) * bco x pe (pe l).b (pe l).pb k +
    (if k = l then ((x⁻¹ : Λˣ) : Λ) - 1 else 0)

/-- `1 + x + ... + x^(n-1)` -/
noncomputable def qn (n : Nat) : Λ := ∑ i ∈ Finset.range n, (x : Λ) ^ i

theorem qn_succ (n : Nat) : qn x (n + 1) = (x : Λ) * qn x n + 1 := by
  unfold qn
  rw [Finset.sum_range_succ', Finset.mul_sum]
  simp [pow_succ']

/-- `H u + t b = 0` -/
def Sol (N : Nat) (s : Nat × ℝ) (u : Nat → V) (t : V) : Prop :=
  ∀ k < N, ∑ l ∈ Finset.range N, Hm x pe k l • u l + bco x pe s.1 s.2 k • t = 0

/-- the sector function -/
noncomputable def gf (N : Nat) (s : Nat × ℝ) (u : Nat → V) : V := ∑ l ∈ Finset.range N, gco x pe s.1 s.2 l • u l

variable (V) in
/-- the solutions of `H u + t b = 0` are parametrised by one free element -/
def Q (N : Nat) (s : Nat × ℝ) : Prop :=
  ∃ ρ : V →ₗ[Λ] (Nat → V), (∀ (u : Nat → V) (t : V), Sol x pe N s u t ↔ ∃ z, (∀ k < N, u k = ρ z k) ∧ t = qn x (N + 1) • z) ∧
    (∀ z, gf x pe N s (ρ z) = -(qn x N • z)) ∧ ∀ z, (∀ k < N, ρ z k = 0) → qn x (N + 1) • z = 0 → z = 0

variable (V) in
/-- two sectors have the same solutions up to a change of variables -/
def Equi (N : Nat) (s s' : Nat × ℝ) : Prop :=
  ∃ (w : Λˣ) (c : Nat → Λ), ∀ (u : Nat → V) (t : V), (Sol x pe N s' (fun k => u k + c k • t) ((w : Λ) • t) ↔ Sol x pe N s u t) ∧
    (Sol x pe N s u t → gf x pe N s' (fun k => u k + c k • t) = (w : Λ) • gf x pe N s u)

variable {x pe} {N : Nat}

theorem Sol.congr {s : Nat × ℝ} {u u' : Nat → V} {t : V} (h : ∀ k < N, u k = u' k) : Sol x pe N s u t ↔ Sol x pe N s u' t := by
  have : ∀ k, ∑ l ∈ Finset.range N, Hm x pe k l • u l = ∑ l ∈ Finset.range N, Hm x pe k l • u' l := fun k =>
    Finset.sum_congr rfl fun l hl => by rw [h l (Finset.mem_range.1 hl)]
  unfold Sol
  simp only [this]

theorem gf_congr {s : Nat × ℝ} {u u' : Nat → V} (h : ∀ k < N, u k = u' k) : gf x pe N s u = gf x pe N s u' :=
  Finset.sum_congr rfl fun l hl => by rw [h l (Finset.mem_range.1 hl)]

theorem Equi.symm {s s' : Nat × ℝ} (h : Equi x V pe N s s') : Equi x V pe N s' s := by
  obtain ⟨w, c, h⟩ := h
  refine ⟨w⁻¹, fun k => -(((w⁻¹ : Λˣ) : Λ) * c k), fun u t => ?_⟩
  have e1 : ∀ k, u k + -(((w⁻¹ : Λˣ) : Λ) * c k) • t + c k • ((w⁻¹ : Λˣ) : Λ) • t = u k := by
    intro k; module
  have e2 : (w : Λ) • ((w⁻¹ : Λˣ) : Λ) • t = t := by rw [smul_smul]; simp
  have h1 := h (fun k => u k + -(((w⁻¹ : Λˣ) : Λ) * c k) • t) (((w⁻¹ : Λˣ) : Λ) • t)
  simp only [e1, e2] at h1
  refine ⟨h1.1.symm, fun hs => ?_⟩
  rw [h1.2 (h1.1.1 hs), smul_smul]
  simp

theorem Equi.q {s s' : Nat × ℝ} (h : Equi x V pe N s s') (hq : Q x V pe N s) : Q x V pe N s' := by
  obtain ⟨w, c, h⟩ := h
  obtain ⟨ρ, r1, r2, r3⟩ := hq
  have hsol : ∀ z, Sol x pe N s (ρ z) (qn x (N + 1) • z) := fun z => (r1 _ _).2 ⟨z, fun _ _ => rfl, rfl⟩
  let ρ' : V →ₗ[Λ] (Nat → V) := LinearMap.pi fun k =>
    ((w⁻¹ : Λˣ) : Λ) • ((LinearMap.proj k).comp ρ + (c k * qn x (N + 1)) • LinearMap.id)
  have e' : ∀ z k, ρ' z k = ρ (((w⁻¹ : Λˣ) : Λ) • z) k + c k • qn x (N + 1) • ((w⁻¹ : Λˣ) : Λ) • z := by
    intro z k
    simp only [ρ', LinearMap.pi_apply, LinearMap.smul_apply, LinearMap.add_apply, LinearMap.comp_apply, LinearMap.proj_apply, LinearMap.id_apply, map_smul, Pi.smul_apply]
    module
  have ew : ∀ z : V, (w : Λ) • ((w⁻¹ : Λˣ) : Λ) • z = z := fun z => by rw [smul_smul]; simp
  have ew' : ∀ z : V, ((w⁻¹ : Λˣ) : Λ) • (w : Λ) • z = z := fun z => by rw [smul_smul]; simp
  refine ⟨ρ', fun u t => ?_, fun z => ?_, fun z h1 h2 => ?_⟩
  · have h1 := (h (fun k => u k + -(c k) • ((w⁻¹ : Λˣ) : Λ) • t) (((w⁻¹ : Λˣ) : Λ) • t)).1
    have e1 : ∀ k, u k + -(c k) • ((w⁻¹ : Λˣ) : Λ) • t + c k • ((w⁻¹ : Λˣ) : Λ) • t = u k := by
      intro k; module
    simp only [e1, ew] at h1
    rw [h1, r1]
    constructor
    · rintro ⟨z, z1, z2⟩
      have z3 : t = qn x (N + 1) • (w : Λ) • z := by
        rw [← ew t, z2]; module
      refine ⟨(w : Λ) • z, fun k hk => ?_, z3⟩
      rw [e', ew', ← z1 k hk, ← z2]
      module
    · rintro ⟨z, z1, z2⟩
      refine ⟨((w⁻¹ : Λˣ) : Λ) • z, fun k hk => ?_, by rw [z2]; module⟩
      rw [z1 k hk, e', z2]
      module
  · have h1 := (h (ρ (((w⁻¹ : Λˣ) : Λ) • z)) (qn x (N + 1) • ((w⁻¹ : Λˣ) : Λ) • z)).2 (hsol _)
    have : gf x pe N s' (ρ' z) = gf x pe N s' (fun k => ρ (((w⁻¹ : Λˣ) : Λ) • z) k + c k • qn x (N + 1) • ((w⁻¹ : Λˣ) : Λ) • z) :=
      gf_congr fun k _ => e' z k
    rw [this, h1, r2, smul_neg, smul_comm, ew]
  · have h3 : qn x (N + 1) • ((w⁻¹ : Λˣ) : Λ) • z = 0 := by rw [smul_comm, h2, smul_zero]
    have h4 := r3 (((w⁻¹ : Λˣ) : Λ) • z) (fun k hk => by
      have := h1 k hk
      rw [e', h3, smul_zero, add_zero] at this
      exact this) h3
    rw [← ew z, h4, smul_zero]

theorem equi_of_smul {s s' : Nat × ℝ} (w : Λˣ) (hb : ∀ k < N, bco x pe s.1 s.2 k = (w : Λ) * bco x pe s'.1 s'.2 k)
    (hg : ∀ k < N, gco x pe s'.1 s'.2 k = (w : Λ) * gco x pe s.1 s.2 k) : Equi x V pe N s s' := by
  refine ⟨w, fun _ => 0, fun u t => ?_⟩
  simp only [zero_smul, add_zero]
  refine ⟨forall_congr' fun k => ?_, fun _ => ?_⟩
  · refine forall_congr' fun hk => ?_
    rw [hb k hk, mul_comm, mul_smul]
  · unfold gf
    rw [Finset.smul_sum]
    exact Finset.sum_congr rfl fun l hl => by rw [hg l (Finset.mem_range.1 hl), mul_smul]

theorem bco_congr {v k : Nat} {θ θ' : ℝ} (ha : (pe k).a = v → ((pe k).pa < θ ↔ (pe k).pa < θ'))
    (hb : (pe k).b = v → ((pe k).pb < θ ↔ (pe k).pb < θ')) : bco x pe v θ k = bco x pe v θ' k := by
  unfold bco
  congr 1
  · split_ifs with h
    · rw [propext (ha h)]
    · rfl
  · split_ifs with h
    · rw [propext (hb h)]
    · rfl

theorem gco_congr {v k : Nat} {θ θ' : ℝ} (ha : (pe k).a = v → ((pe k).pa < θ ↔ (pe k).pa < θ'))
    (hb : (pe k).b = v → ((pe k).pb < θ ↔ (pe k).pb < θ')) : gco x pe v θ k = gco x pe v θ' k := by
  unfold gco
  congr 1
  · split_ifs with h
    · rw [propext (ha h)]
    · rfl
  · split_ifs with h
    · rw [propext (hb h)]
    · rfl

variable {r0 : Nat}

theorem upow_mul (i : ℤ) : ((x ^ i : Λˣ) : Λ) * ((x ^ (-i) : Λˣ) : Λ) = 1 := by
  rw [← Units.val_mul, ← zpow_add]; simp

theorem upow_mul' (i : ℤ) : ((x ^ (-i) : Λˣ) : Λ) * ((x ^ i : Λˣ) : Λ) = 1 := by
  rw [← Units.val_mul, ← zpow_add]; simp

/-- the column of edge `k` is the difference of the sectors at its ends, on the same side -/
theorem Grows.col (h : Grows pe r0 N) {k : Nat} (hk : k < N) {θ θ' : ℝ}
    (h1 : AllAt pe N (pe k).a (fun l p => l ≠ k → (p < θ ↔ p < (pe k).pa)))
    (h2 : AllAt pe N (pe k).b (fun l p => l ≠ k → (p < θ' ↔ p < (pe k).pb))) (hA : (pe k).pa < θ ↔ ¬ (pe k).pb < θ')
    {i : Nat} (hi : i < N) :
    Hm x pe i k = ((x ^ (-(pe k).sa) : Λˣ) : Λ) * bco x pe (pe k).a θ i - ((x ^ (-(pe k).sb) : Λˣ) : Λ) * bco x pe (pe k).b θ' i := by
  unfold Hm
  by_cases hik : i = k
  · subst hik
    have hab := h.ab_ne hk
    rw [if_pos rfl]
    unfold bco
    simp only [if_neg hab, if_neg hab.symm, if_true, lt_irrefl, sub_zero, zero_sub, mul_neg, ← mul_assoc, upow_mul', one_mul, sub_neg_eq_add]
    have hA' : cut x ((pe i).pb < θ') = cut x (¬ (pe i).pa < θ) := by
      congr 1; rw [hA, not_not]
    rw [hA', cut_add]
    have : cut x False = 1 := by simp [cut]
    rw [this]; ring
  · rw [if_neg hik, add_zero, bco_congr (θ := (pe k).pa) (θ' := θ) (fun e => ((h1 i hi).1 e hik).symm) (fun e => ((h1 i hi).2 e hik).symm),
      bco_congr (θ := (pe k).pb) (θ' := θ') (fun e => ((h2 i hi).1 e hik).symm) (fun e => ((h2 i hi).2 e hik).symm)]

/-- the row of edge `k` is the difference of the sector functions at its ends, on the same side -/
theorem Grows.row (h : Grows pe r0 N) {k : Nat} (hk : k < N) {θ θ' : ℝ}
    (h1 : AllAt pe N (pe k).a (fun l p => l ≠ k → (p < θ ↔ p < (pe k).pa)))
    (h2 : AllAt pe N (pe k).b (fun l p => l ≠ k → (p < θ' ↔ p < (pe k).pb))) (hA : (pe k).pa < θ ↔ ¬ (pe k).pb < θ')
    {i : Nat} (hi : i < N) :
    Hm x pe k i = ((x ^ (pe k).sa : Λˣ) : Λ) * gco x pe (pe k).a θ i - ((x ^ (pe k).sb : Λˣ) : Λ) * gco x pe (pe k).b θ' i := by
  unfold Hm
  by_cases hik : i = k
  · subst hik
    have hab := h.ab_ne hk
    rw [if_pos rfl]
    unfold bco gco
    simp only [if_neg hab, if_neg hab.symm, if_true, lt_irrefl, sub_zero, zero_sub, mul_neg, ← mul_assoc, upow_mul', upow_mul, one_mul, sub_neg_eq_add]
    have hA' : cut x (¬ (pe i).pb < θ') = cut x ((pe i).pa < θ) := by
      congr 1; rw [hA]
    rw [hA', add_comm (cut x (¬ _)), cut_add]
    have : cut x False = 1 := by simp [cut]
    rw [this]; ring
  · rw [if_neg (Ne.symm hik), add_zero]
    have hki : k ≠ i := Ne.symm hik
    -- orders of the angles at the common vertices
    have o1 : (pe i).a = (pe k).a → (¬ (pe i).pa < θ ↔ (pe k).pa < (pe i).pa) := fun e => by
      rw [(h1 i hi).1 e hik]
      exact ⟨fun g => lt_of_le_of_ne (not_lt.1 g) (h.angle_aa k hk i hi hki e.symm), fun g => not_lt.2 g.le⟩
    have o2 : (pe i).b = (pe k).a → (¬ (pe i).pb < θ ↔ (pe k).pa < (pe i).pb) := fun e => by
      rw [(h1 i hi).2 e hik]
      exact ⟨fun g => lt_of_le_of_ne (not_lt.1 g) (h.angle_ab k hk i hi e.symm), fun g => not_lt.2 g.le⟩
    have o3 : (pe i).a = (pe k).b → (¬ (pe i).pa < θ' ↔ (pe k).pb < (pe i).pa) := fun e => by
      rw [(h2 i hi).1 e hik]
      exact ⟨fun g => lt_of_le_of_ne (not_lt.1 g) (h.angle_ab i hi k hk e).symm, fun g => not_lt.2 g.le⟩
    have hbb : (pe i).b ≠ (pe k).b := h.bb_ne hi hk hik
    have hbb' : (pe k).b ≠ (pe i).b := hbb.symm
    unfold bco gco
    rw [if_neg hbb, if_neg hbb', sub_zero, sub_zero, mul_sub, mul_sub]
    have t1 : ((x ^ (-(pe i).sa) : Λˣ) : Λ) * (if (pe k).a = (pe i).a then ((x ^ (pe k).sa : Λˣ) : Λ) * cut x ((pe k).pa < (pe i).pa) else 0) =
        ((x ^ (pe k).sa : Λˣ) : Λ) * (if (pe i).a = (pe k).a then ((x ^ (-(pe i).sa) : Λˣ) : Λ) * cut x (¬ (pe i).pa < θ) else 0) := by
      by_cases e : (pe i).a = (pe k).a
      · rw [if_pos e, if_pos e.symm, propext (o1 e)]; ring
      · rw [if_neg e, if_neg (Ne.symm e)]; ring
    have t2 : ((x ^ (-(pe i).sa) : Λˣ) : Λ) * (if (pe k).b = (pe i).a then ((x ^ (pe k).sb : Λˣ) : Λ) * cut x ((pe k).pb < (pe i).pa) else 0) =
        ((x ^ (pe k).sb : Λˣ) : Λ) * (if (pe i).a = (pe k).b then ((x ^ (-(pe i).sa) : Λˣ) : Λ) * cut x (¬ (pe i).pa < θ') else 0) := by
      by_cases e : (pe i).a = (pe k).b
      · rw [if_pos e, if_pos e.symm, propext (o3 e)]; ring
      · rw [if_neg e, if_neg (Ne.symm e)]; ring
    have t3 : ((x ^ (-(pe i).sb) : Λˣ) : Λ) * (if (pe k).a = (pe i).b then ((x ^ (pe k).sa : Λˣ) : Λ) * cut x ((pe k).pa < (pe i).pb) else 0) =
        ((x ^ (pe k).sa : Λˣ) : Λ) * (if (pe i).b = (pe k).a then ((x ^ (-(pe i).sb) : Λˣ) : Λ) * cut x (¬ (pe i).pb < θ) else 0) := by
      by_cases e : (pe i).b = (pe k).a
      · rw [if_pos e, if_pos e.symm, propext (o2 e)]; ring
      · rw [if_neg e, if_neg (Ne.symm e)]; ring
    rw [t1, t2, t3]
    ring

theorem Grows.equi (h : Grows pe r0 N) {s s' : Nat × ℝ} (hm : Move pe N s s') : Equi x V pe N s s' := by
  cases hm with
  | same hs =>
    refine equi_of_smul 1 (fun k hk => ?_) (fun k hk => ?_)
    · rw [Units.val_one, one_mul]; exact bco_congr (hs k hk).1 (hs k hk).2
    · rw [Units.val_one, one_mul]; exact (gco_congr (hs k hk).1 (hs k hk).2).symm
  | @wrap v θ θ' h1 h2 =>
    refine equi_of_smul x⁻¹ (fun k hk => ?_) (fun k hk => ?_)
    · simp only [bco]
      by_cases e1 : (pe k).a = v <;> by_cases e2 : (pe k).b = v <;> simp only [e1, e2, if_true, if_false]
      · have g1 := (h1 k hk).1 e1; have g2 := (h2 k hk).1 e1; have g3 := (h1 k hk).2 e2; have g4 := (h2 k hk).2 e2
        simp only [cut, g1, g2, g3, g4, if_true, if_false]; ring
      · have g1 := (h1 k hk).1 e1; have g2 := (h2 k hk).1 e1
        simp only [cut, g1, g2, if_true, if_false]; ring
      · have g3 := (h1 k hk).2 e2; have g4 := (h2 k hk).2 e2
        simp only [cut, g3, g4, if_true, if_false]; ring
      · ring
    · simp only [gco]
      by_cases e1 : (pe k).a = v <;> by_cases e2 : (pe k).b = v <;> simp only [e1, e2, if_true, if_false]
      · have g1 := (h1 k hk).1 e1; have g2 := (h2 k hk).1 e1; have g3 := (h1 k hk).2 e2; have g4 := (h2 k hk).2 e2
        simp only [cut, g1, g2, g3, g4, if_true, if_false, not_true, not_false_iff]; ring
      · have g1 := (h1 k hk).1 e1; have g2 := (h2 k hk).1 e1
        simp only [cut, g1, g2, if_true, if_false, not_true, not_false_iff]; ring
      · have g3 := (h1 k hk).2 e2; have g4 := (h2 k hk).2 e2
        simp only [cut, g3, g4, if_true, if_false, not_true, not_false_iff]; ring
      · ring
  | @cross k θ θ' hk h1 h2 hA =>
    set sa := (pe k).sa
    set sb := (pe k).sb
    refine ⟨x ^ (sa - sb), fun i => if i = k then ((x ^ sa : Λˣ) : Λ) else 0, fun u t => ?_⟩
    have hw : ((x ^ (sa - sb) : Λˣ) : Λ) = ((x ^ sa : Λˣ) : Λ) * ((x ^ (-sb) : Λˣ) : Λ) := by
      rw [← Units.val_mul, ← zpow_add, sub_eq_add_neg]
    have hs : ∀ f : Nat → Λ, ∑ l ∈ Finset.range N, f l • (u l + (if l = k then ((x ^ sa : Λˣ) : Λ) else 0) • t) =
        ∑ l ∈ Finset.range N, f l • u l + (f k * ((x ^ sa : Λˣ) : Λ)) • t := by
      intro f
      simp only [smul_add, Finset.sum_add_distrib]
      congr 1
      rw [Finset.sum_eq_single k]
      · rw [if_pos rfl, mul_smul]
      · intro b _ hb; rw [if_neg hb, zero_smul, smul_zero]
      · intro hn; exact absurd (Finset.mem_range.2 hk) hn
    constructor
    · refine forall_congr' fun i => forall_congr' fun hi => ?_
      dsimp only
      rw [hs (Hm x pe i), h.col hk h1 h2 hA hi, hw]
      have e : ∀ A : V, A + ((((x ^ (-sa) : Λˣ) : Λ) * bco x pe (pe k).a θ i - ((x ^ (-sb) : Λˣ) : Λ) * bco x pe (pe k).b θ' i) * ((x ^ sa : Λˣ) : Λ)) • t +
          bco x pe (pe k).b θ' i • (((x ^ sa : Λˣ) : Λ) * ((x ^ (-sb) : Λˣ) : Λ)) • t = A + bco x pe (pe k).a θ i • t := by
        intro A
        rw [add_assoc, smul_smul, ← add_smul]
        congr 2
        linear_combination (bco x pe (pe k).a θ i) * upow_mul' (x := x) sa
      rw [e]
    · intro hsol
      have e1 := hsol k hk
      have e2 : ∑ l ∈ Finset.range N, Hm x pe k l • u l = ((x ^ sa : Λˣ) : Λ) • gf x pe N ((pe k).a, θ) u - ((x ^ sb : Λˣ) : Λ) • gf x pe N ((pe k).b, θ') u := by
        unfold gf
        rw [Finset.smul_sum, Finset.smul_sum, ← Finset.sum_sub_distrib]
        refine Finset.sum_congr rfl fun l hl => ?_
        rw [h.row hk h1 h2 hA (Finset.mem_range.1 hl), sub_smul, mul_smul, mul_smul]
      have hab := h.ab_ne hk
      have e3 : bco x pe (pe k).a θ k = ((x ^ sa : Λˣ) : Λ) * cut x ((pe k).pa < θ) := by
        unfold bco; rw [if_pos rfl, if_neg hab.symm, sub_zero]
      have e4 : gco x pe (pe k).b θ' k = -(((x ^ (-sb) : Λˣ) : Λ) * cut x ((pe k).pa < θ)) := by
        unfold gco; rw [if_neg hab, if_pos rfl, zero_sub, propext hA]
      have e5 := hs (gco x pe (pe k).b θ')
      change gf x pe N ((pe k).b, θ') _ = _
      unfold gf
      dsimp only
      rw [e5, e4, hw]
      rw [e2, e3] at e1
      change gf x pe N ((pe k).b, θ') u + _ = _ • gf x pe N ((pe k).a, θ) u
      generalize gf x pe N ((pe k).b, θ') u = G' at *
      generalize gf x pe N ((pe k).a, θ) u = G at *
      have e6 : ((x ^ sb : Λˣ) : Λ) • G' = ((x ^ sa : Λˣ) : Λ) • G + (((x ^ sa : Λˣ) : Λ) * cut x ((pe k).pa < θ)) • t := by
        rw [← sub_eq_zero, ← neg_eq_zero, ← e1]; module
      have e7 : G' = ((x ^ (-sb) : Λˣ) : Λ) • (((x ^ sa : Λˣ) : Λ) • G + (((x ^ sa : Λˣ) : Λ) * cut x ((pe k).pa < θ)) • t) := by
        rw [← e6, smul_smul, upow_mul', one_smul]
      rw [e7]
      module

theorem Grows.q_conn (h : Grows pe r0 N) {s s' : Nat × ℝ} (hc : Conn pe N s s') : Q x V pe N s ↔ Q x V pe N s' := by
  induction hc with
  | rel s t hm => exact ⟨(h.equi hm).q, (h.equi hm).symm.q⟩
  | refl s => exact Iff.rfl
  | symm s t _ ih => exact ih.symm
  | trans s t u _ _ ih1 ih2 => exact ih1.trans ih2

theorem q_zero (s : Nat × ℝ) : Q x V pe 0 s := by
  refine ⟨0, fun u t => ⟨fun _ => ⟨t, by simp, by simp [qn]⟩, fun _ k hk => absurd hk (by omega)⟩, fun z => by simp [gf, qn], fun z _ h => by simpa [qn] using h⟩

/-- adding a leaf -/
theorem Grows.q_succ (h : Grows pe r0 (N + 1)) (hq : Q x V pe N ((pe N).a, (pe N).pa)) : ∃ θ, Q x V pe (N + 1) ((pe N).b, θ) := by
  obtain ⟨ρ, r1, r2, r3⟩ := hq
  set sa := (pe N).sa
  set sb := (pe N).sb
  have hab := h.ab_ne (k := N) (by omega)
  let θ : ℝ := (pe N).pb + 1
  have hθ : (pe N).pb < θ := lt_add_one _
  -- coefficients
  have b1 : ∀ k < N, bco x pe (pe N).b θ k = 0 := by
    intro k hk
    unfold bco
    rw [if_neg (h.old_ne hk).1, if_neg (h.old_ne hk).2, sub_zero]
  have b2 : bco x pe (pe N).b θ N = -(((x ^ sb : Λˣ) : Λ) * ((x⁻¹ : Λˣ) : Λ)) := by
    unfold bco; rw [if_neg hab, if_pos rfl, zero_sub]; simp [cut, hθ, sb]
  have g1 : ∀ k < N, gco x pe (pe N).b θ k = 0 := by
    intro k hk
    unfold gco
    rw [if_neg (h.old_ne hk).1, if_neg (h.old_ne hk).2, sub_zero]
  have g2 : gco x pe (pe N).b θ N = -((x ^ (-sb) : Λˣ) : Λ) := by
    unfold gco; rw [if_neg hab, if_pos rfl, zero_sub]; simp [cut, hθ, sb]
  have c1 : ∀ k < N, Hm x pe k N = ((x ^ (-sa) : Λˣ) : Λ) * bco x pe (pe N).a (pe N).pa k := by
    intro k hk
    unfold Hm
    rw [if_neg (by omega), add_zero]
    have : bco x pe (pe N).b (pe N).pb k = 0 := by
      unfold bco; rw [if_neg (h.old_ne hk).1, if_neg (h.old_ne hk).2, sub_zero]
    rw [this, mul_zero, sub_zero]
  have c2 : Hm x pe N N = 1 + ((x⁻¹ : Λˣ) : Λ) := by
    rw [h.col (by omega) (θ := (pe N).pa) (θ' := θ) (fun l hl => ⟨fun _ _ => Iff.rfl, fun _ _ => Iff.rfl⟩)
      (fun l hl => ⟨fun e hne => absurd e (h.old_ne (by omega)).1, fun e hne => absurd e (h.old_ne (by omega)).2⟩) (by simp [hθ]) (by omega), b2]
    have : bco x pe (pe N).a (pe N).pa N = ((x ^ sa : Λˣ) : Λ) := by
      unfold bco; rw [if_pos rfl, if_neg hab.symm]; simp [cut, sa]
    rw [this, upow_mul', mul_neg, sub_neg_eq_add, ← mul_assoc, upow_mul', one_mul]
  have c3 : ∀ k < N, Hm x pe N k = ((x ^ sa : Λˣ) : Λ) * gco x pe (pe N).a (pe N).pa k := by
    intro k hk
    rw [h.row (by omega) (θ := (pe N).pa) (θ' := θ) (fun l hl => ⟨fun _ _ => Iff.rfl, fun _ _ => Iff.rfl⟩)
      (fun l hl => ⟨fun e hne => absurd e (h.old_ne (by omega)).1, fun e hne => absurd e (h.old_ne (by omega)).2⟩) (by simp [hθ]) (by omega), g1 k hk,
      mul_zero, sub_zero]
  -- the system
  have hS : ∀ (u : Nat → V) (t : V), Sol x pe (N + 1) ((pe N).b, θ) u t ↔ Sol x pe N ((pe N).a, (pe N).pa) u (((x ^ (-sa) : Λˣ) : Λ) • u N) ∧
      ((x ^ sa : Λˣ) : Λ) • gf x pe N ((pe N).a, (pe N).pa) u + (1 + ((x⁻¹ : Λˣ) : Λ)) • u N = (((x ^ sb : Λˣ) : Λ) * ((x⁻¹ : Λˣ) : Λ)) • t := by
    intro u t
    have hold : ∀ k < N, (∑ l ∈ Finset.range (N + 1), Hm x pe k l • u l + bco x pe (pe N).b θ k • t = 0 ↔
        ∑ l ∈ Finset.range N, Hm x pe k l • u l + bco x pe (pe N).a (pe N).pa k • ((x ^ (-sa) : Λˣ) : Λ) • u N = 0) := by
      intro k hk
      rw [b1 k hk, zero_smul, add_zero, Finset.sum_range_succ, c1 k hk, mul_comm, mul_smul]
    have hnew : (∑ l ∈ Finset.range (N + 1), Hm x pe N l • u l + bco x pe (pe N).b θ N • t = 0 ↔
        ((x ^ sa : Λˣ) : Λ) • gf x pe N ((pe N).a, (pe N).pa) u + (1 + ((x⁻¹ : Λˣ) : Λ)) • u N = (((x ^ sb : Λˣ) : Λ) * ((x⁻¹ : Λˣ) : Λ)) • t) := by
      have e : ∑ l ∈ Finset.range N, Hm x pe N l • u l = ((x ^ sa : Λˣ) : Λ) • gf x pe N ((pe N).a, (pe N).pa) u := by
        unfold gf
        rw [Finset.smul_sum]
        exact Finset.sum_congr rfl fun l hl => by rw [c3 l (Finset.mem_range.1 hl), mul_smul]
      rw [Finset.sum_range_succ, e, c2, b2, neg_smul, ← sub_eq_add_neg, sub_eq_zero]
    constructor
    · intro hs
      exact ⟨fun k hk => (hold k hk).1 (hs k (by omega)), hnew.1 (hs N (by omega))⟩
    · rintro ⟨s1, s2⟩ k hk
      rcases Nat.lt_succ_iff_lt_or_eq.1 hk with g | rfl
      · exact (hold k g).2 (s1 k g)
      · exact hnew.2 s2
  -- the parametrisation
  let w : Λ := ((x ^ (sb - sa) : Λˣ) : Λ)
  let w' : Λ := ((x ^ (sa - sb) : Λˣ) : Λ)
  have hww : w * w' = 1 := by
    simp only [w, w']; rw [← Units.val_mul, ← zpow_add]; simp
  have ea : ((x ^ sa : Λˣ) : Λ) * w = ((x ^ sb : Λˣ) : Λ) := by
    simp only [w]; rw [← Units.val_mul, ← zpow_add]; congr 2; ring
  have ew1 : ∀ z : V, w • w' • z = z := fun z => by rw [smul_smul, hww, one_smul]
  have ew2 : ∀ z : V, w' • w • z = z := fun z => by rw [smul_smul, mul_comm, hww, one_smul]
  let ρ' : V →ₗ[Λ] (Nat → V) := LinearMap.pi fun k => if k = N then (((x ^ sb : Λˣ) : Λ) * qn x (N + 1)) • LinearMap.id else
    w • ((LinearMap.proj k).comp ρ)
  have e1 : ∀ z, ∀ k < N, ρ' z k = ρ (w • z) k := by
    intro z k hk
    simp only [ρ', LinearMap.pi_apply, if_neg (show k ≠ N by omega), LinearMap.smul_apply, LinearMap.comp_apply, LinearMap.proj_apply, map_smul, Pi.smul_apply]
  have e2 : ∀ z, ρ' z N = (((x ^ sb : Λˣ) : Λ) * qn x (N + 1)) • z := by
    intro z
    simp only [ρ', LinearMap.pi_apply, if_true, LinearMap.smul_apply, LinearMap.id_apply]
  have hxx : (x : Λ) * ((x⁻¹ : Λˣ) : Λ) = 1 := by simp
  refine ⟨θ, ρ', fun u t => ?_, fun z => ?_, fun z h1 h2 => ?_⟩
  · rw [hS, r1]
    constructor
    · rintro ⟨⟨z, z1, z2⟩, z3⟩
      have hN : u N = ((x ^ sa : Λˣ) : Λ) • qn x (N + 1) • z := by
        rw [← z2, smul_smul, upow_mul, one_smul]
      have hg : gf x pe N ((pe N).a, (pe N).pa) u = -(qn x N • z) := by
        rw [← r2]; exact gf_congr z1
      refine ⟨w' • z, fun k hk => ?_, ?_⟩
      · rcases Nat.lt_succ_iff_lt_or_eq.1 hk with g | rfl
        · rw [e1 _ _ g, ew1]; exact z1 k g
        · rw [e2, hN, ← ea]
          have : (((x ^ sa : Λˣ) : Λ) * w * qn x (k + 1)) • w' • z = ((x ^ sa : Λˣ) : Λ) • qn x (k + 1) • w • w' • z := by module
          rw [this, ew1]
      · rw [hg, hN] at z3
        -- solve for t
        have z4 : t = ((x ^ (-sb) : Λˣ) : Λ) • (x : Λ) • ((((x ^ sb : Λˣ) : Λ) * ((x⁻¹ : Λˣ) : Λ)) • t) := by
          have : ((x ^ (-sb) : Λˣ) : Λ) • (x : Λ) • ((((x ^ sb : Λˣ) : Λ) * ((x⁻¹ : Λˣ) : Λ)) • t) =
            ((((x ^ (-sb) : Λˣ) : Λ) * ((x ^ sb : Λˣ) : Λ)) * ((x : Λ) * ((x⁻¹ : Λˣ) : Λ))) • t := by module
          rw [this, upow_mul', hxx, one_mul, one_smul]
        rw [z4, ← z3]
        have ew' : w' = ((x ^ (-sb) : Λˣ) : Λ) * ((x ^ sa : Λˣ) : Λ) := by
          simp only [w']; rw [← Units.val_mul, ← zpow_add]; congr 2; ring
        rw [ew', smul_neg, ← sub_eq_zero]
        have : ((x ^ (-sb) : Λˣ) : Λ) • (x : Λ) • (-((x ^ sa : Λˣ) : Λ) • qn x N • z + (1 + ((x⁻¹ : Λˣ) : Λ)) • ((x ^ sa : Λˣ) : Λ) • qn x (N + 1) • z) -
          qn x (N + 1 + 1) • (((x ^ (-sb) : Λˣ) : Λ) * ((x ^ sa : Λˣ) : Λ)) • z =
          (((x ^ (-sb) : Λˣ) : Λ) * ((x ^ sa : Λˣ) : Λ) * (-((x : Λ) * qn x N) + (x : Λ) * qn x (N + 1) + ((x : Λ) * ((x⁻¹ : Λˣ) : Λ)) * qn x (N + 1) - qn x (N + 1 + 1))) • z := by
          module
        rw [← neg_smul, this, hxx, qn_succ x (N + 1), qn_succ x N]
        have e0 : -((x : Λ) * qn x N) + (x : Λ) * ((x : Λ) * qn x N + 1) + 1 * ((x : Λ) * qn x N + 1) - ((x : Λ) * ((x : Λ) * qn x N + 1) + 1) = 0 := by ring
        rw [e0, mul_zero, zero_smul]
    · rintro ⟨z, z1, z2⟩
      have hN : u N = (((x ^ sb : Λˣ) : Λ) * qn x (N + 1)) • z := by rw [z1 N (by omega), e2]
      have hold : ∀ k < N, u k = ρ (w • z) k := fun k hk => by rw [z1 k (by omega), e1 z k hk]
      have hg : gf x pe N ((pe N).a, (pe N).pa) u = -(qn x N • w • z) := by
        rw [← r2]; exact gf_congr hold
      refine ⟨⟨w • z, hold, ?_⟩, ?_⟩
      · rw [hN, ← ea]
        have : ((x ^ (-sa) : Λˣ) : Λ) • (((x ^ sa : Λˣ) : Λ) * w * qn x (N + 1)) • z = (((x ^ (-sa) : Λˣ) : Λ) * ((x ^ sa : Λˣ) : Λ)) • qn x (N + 1) • w • z := by module
        rw [this, upow_mul', one_smul]
      · rw [hg, hN, z2, ← ea, ← sub_eq_zero]
        have : ((x ^ sa : Λˣ) : Λ) • -(qn x N • w • z) + (1 + ((x⁻¹ : Λˣ) : Λ)) • (((x ^ sa : Λˣ) : Λ) * w * qn x (N + 1)) • z -
          (((x ^ sa : Λˣ) : Λ) * w * ((x⁻¹ : Λˣ) : Λ)) • qn x (N + 1 + 1) • z =
          (((x ^ sa : Λˣ) : Λ) * w * (- qn x N + qn x (N + 1) + ((x⁻¹ : Λˣ) : Λ) * qn x (N + 1) - ((x⁻¹ : Λˣ) : Λ) * qn x (N + 1 + 1))) • z := by
          module
        rw [this, qn_succ x (N + 1)]
        have e0 : - qn x N + qn x (N + 1) + ((x⁻¹ : Λˣ) : Λ) * qn x (N + 1) - ((x⁻¹ : Λˣ) : Λ) * ((x : Λ) * qn x (N + 1) + 1) = 0 := by
          rw [qn_succ x N]
          linear_combination (qn x N - ((x : Λ) * qn x N + 1)) * hxx
        rw [e0, mul_zero, zero_smul]
  · unfold gf
    rw [Finset.sum_range_succ, Finset.sum_eq_zero, zero_add, e2]
    · dsimp only
      rw [g2]
      have : -((x ^ (-sb) : Λˣ) : Λ) • (((x ^ sb : Λˣ) : Λ) * qn x (N + 1)) • z = -((((x ^ (-sb) : Λˣ) : Λ) * ((x ^ sb : Λˣ) : Λ)) • qn x (N + 1) • z) := by module
      rw [this, upow_mul', one_smul]
    · intro l hl
      dsimp only
      rw [g1 l (Finset.mem_range.1 hl), zero_smul]
  · have h3 : w • z = 0 := by
      refine r3 _ (fun k hk => by rw [← e1 z k hk]; exact h1 k (by omega)) ?_
      have := h1 N (by omega)
      rw [e2, ← ea] at this
      have e3 : ((x ^ (-sa) : Λˣ) : Λ) • (((x ^ sa : Λˣ) : Λ) * w * qn x (N + 1)) • z = (((x ^ (-sa) : Λˣ) : Λ) * ((x ^ sa : Λˣ) : Λ)) • qn x (N + 1) • w • z := by module
      rw [this, smul_zero, upow_mul', one_smul] at e3
      exact e3.symm
    rw [← ew2 z, h3, smul_zero]

theorem Grows.q_all (h : Grows pe r0 N) : ∀ s : Nat × ℝ, Vert pe r0 N s.1 → Q x V pe N s := by
  induction N with
  | zero => exact fun s _ => q_zero s
  | succ N ih =>
    intro s hs
    obtain ⟨θ, hq⟩ := h.q_succ (x := x) (V := V) (ih (h.mono (by omega)) _ (h.start N (by omega)))
    exact (h.q_conn (h.connected _ s (Or.inr ⟨N, by omega, rfl⟩) hs)).1 hq

/-- **the kernel of the form**: it is parametrised by the elements killed by `1 + x + ... + x^N`. -/
theorem Grows.kernel (h : Grows pe r0 N) : ∃ ρ : V →ₗ[Λ] (Nat → V),
    (∀ u : Nat → V, (∀ k < N, ∑ l ∈ Finset.range N, Hm x pe k l • u l = 0) ↔ ∃ z, qn x (N + 1) • z = 0 ∧ ∀ k < N, u k = ρ z k) ∧
    ∀ z, (∀ k < N, ρ z k = 0) → qn x (N + 1) • z = 0 → z = 0 := by
  obtain ⟨ρ, r1, -, r3⟩ := h.q_all (x := x) (V := V) (r0, 0) (Or.inl rfl)
  refine ⟨ρ, fun u => ?_, r3⟩
  have := r1 u 0
  unfold Sol at this
  simp only [smul_zero, add_zero] at this
  rw [this]
  exact ⟨fun ⟨z, z1, z2⟩ => ⟨z, z2.symm, z1⟩, fun ⟨z, z1, z2⟩ => ⟨z, z2, z1.symm⟩⟩

end

end Hcp.PlaneTree
