import Verif.Proofs.YData
import Mathlib.Analysis.SpecialFunctions.Pow.Continuity
import Mathlib.Tactic.LinearCombination

/-! # The edge data satisfy the local equation -/

namespace Hcp

theorem edgeY_eq (u : Nat → ℂ) {n1 d : Nat} (h : n1 ≤ d) (m : Nat) (t : ℂ) :
    ∏ k ∈ Finset.range d, exact.root m (sgnFactor u n1 t k) = Spec.edgeY m n1 d u t := by
  unfold Spec.edgeY
  rw [Finset.range_eq_Ico, ← Finset.prod_Ico_consecutive _ (Nat.zero_le n1) h, ← Finset.range_eq_Ico]
  congr 1
  · refine Finset.prod_congr rfl fun k hk => ?_
    rw [sgnFactor, if_pos (Finset.mem_range.1 hk)]; rfl
  · refine Finset.prod_congr rfl fun k hk => ?_
    rw [sgnFactor, if_neg (by have := (Finset.mem_Ico.1 hk).1; omega)]; rfl

theorem edgeY_pow (u : Nat → ℂ) {n1 d m : Nat} (h : n1 ≤ d) (hm : 0 < m) (t : ℂ) :
    Spec.edgeY m n1 d u t ^ m = (-1) ^ n1 * ∏ k ∈ Finset.range d, (t - u k) := by
  rw [← edgeY_eq u h, ← Finset.prod_pow, ← sgnFactor_prod u h]
  exact Finset.prod_congr rfl fun k _ => root_pow hm _

theorem edgePt_sub (a b s t : ℂ) : Spec.edgePt a b s - Spec.edgePt a b t = (s - t) * ((b - a) / 2) := by
  unfold Spec.edgePt; ring

theorem edgePt_neg_one (a b : ℂ) : Spec.edgePt a b (-1) = a := by unfold Spec.edgePt; ring
theorem edgePt_one (a b : ℂ) : Spec.edgePt a b 1 = b := by unfold Spec.edgePt; ring

theorem edgePt_abPt {x : Nat → ℂ} {a b : Nat} (h : x a ≠ x b) (k : Nat) :
    Spec.edgePt (x a) (x b) (abPt exact x a b k) = x k := by
  have h' : x b - x a ≠ 0 := sub_ne_zero.2 h.symm
  show (x a + x b) / 2 + (x k * (2 : ℂ) ^ (1 : Int) - (x b + x a)) / (x b - x a) * ((x b - x a) / 2) = x k
  rw [zpow_one]
  field_simp
  ring

/-- splitting the two ends off a product over all branch points -/
theorem prod_ends {a b n : Nat} (ha : a < n) (hb : b < n) (hab : a ≠ b) {τ : Nat → Nat}
    (hτ : Set.BijOn τ (Set.Iio (n - 2)) {k | k < n ∧ k ≠ a ∧ k ≠ b}) (f : Nat → ℂ) :
    ∏ k ∈ Finset.range n, f k = f a * f b * ∏ i ∈ Finset.range (n - 2), f (τ i) := by
  have h1 : ∏ i ∈ Finset.range (n - 2), f (τ i) = ∏ k ∈ (Finset.range n).erase a |>.erase b, f k := by
    refine Finset.prod_bij (fun i _ => τ i) ?_ ?_ ?_ (fun _ _ => rfl)
    · intro i hi
      have := hτ.mapsTo (Finset.mem_range.1 hi)
      simp only [Set.mem_ofPred_eq] at this
      simp only [Finset.mem_erase, Finset.mem_range]; tauto
    · intro i hi j hj h
      exact hτ.injOn (Finset.mem_range.1 hi) (Finset.mem_range.1 hj) h
    · intro k hk
      simp only [Finset.mem_erase, Finset.mem_range] at hk
      obtain ⟨i, hi, rfl⟩ := hτ.surjOn (show k ∈ {k | k < n ∧ k ≠ a ∧ k ≠ b} by
        simp only [Set.mem_ofPred_eq]; tauto)
      exact ⟨i, Finset.mem_range.2 hi, rfl⟩
  rw [h1, mul_assoc, Finset.mul_prod_erase _ _ (by simp [hb, hab.symm]), Finset.mul_prod_erase _ _ (by simp [ha])]

theorem edge_equation {m n a b n1 : Nat} (hm : 0 < m) (ha : a < n) (hb : b < n) (hab : a ≠ b) (hn1 : n1 ≤ n - 2)
    {x u : Nat → ℂ} {τ : Nat → Nat} (hτ : Set.BijOn τ (Set.Iio (n - 2)) {k | k < n ∧ k ≠ a ∧ k ≠ b})
    (hu : ∀ i < n - 2, Spec.edgePt (x a) (x b) (u i) = x (τ i)) {c : ℂ}
    (hc : c ^ m = (-1) ^ (n1 + 1) * ((x b - x a) / 2) ^ n) (t : ℂ) :
    (c * Spec.edgeY m n1 (n - 2) u t) ^ m * (1 - t ^ 2) =
      ∏ k ∈ Finset.range n, (Spec.edgePt (x a) (x b) t - x k) := by
  rw [mul_pow, edgeY_pow u hn1 hm, hc, prod_ends ha hb hab hτ]
  have h1 : ∏ i ∈ Finset.range (n - 2), (Spec.edgePt (x a) (x b) t - x (τ i))
      = (∏ i ∈ Finset.range (n - 2), (t - u i)) * ((x b - x a) / 2) ^ (n - 2) := by
    have : ∀ i ∈ Finset.range (n - 2), Spec.edgePt (x a) (x b) t - x (τ i) = (t - u i) * ((x b - x a) / 2) := by
      intro i hi
      rw [← hu i (Finset.mem_range.1 hi), edgePt_sub]
    rw [Finset.prod_congr rfl this, Finset.prod_mul_distrib, Finset.prod_const, Finset.card_range]
  rw [h1]
  have h2 : ((x b - x a) / 2) ^ n = ((x b - x a) / 2) ^ (n - 2) * ((x b - x a) / 2) ^ 2 := by
    rw [← pow_add]; congr 1; omega
  have h3 : (-1 : ℂ) ^ (n1 + 1) * (-1) ^ n1 = -1 := by
    rw [← pow_add, Odd.neg_one_pow ⟨n1, by omega⟩]
  have ea : Spec.edgePt (x a) (x b) t - x a = (t + 1) * ((x b - x a) / 2) := by
    unfold Spec.edgePt; ring
  have eb : Spec.edgePt (x a) (x b) t - x b = (t - 1) * ((x b - x a) / 2) := by
    unfold Spec.edgePt; ring
  rw [h2, ea, eb]
  linear_combination ((x b - x a) / 2) ^ (n - 2) * ((x b - x a) / 2) ^ 2 *
    (∏ i ∈ Finset.range (n - 2), (t - u i)) * (1 - t ^ 2) * h3

/-- product of the differences to the other branch points (`f'(x_a)` for monic `f`) -/
noncomputable def fder (x : Nat → ℂ) (n a : Nat) : ℂ := ∏ k ∈ (Finset.range n).erase a, (x a - x k)

/-- the constant of an edge: `C^m = ± ((b-a)/2)^n` -/
theorem edgeData_const {m n a b n1 : Nat} (hm : 0 < m) (ha : a < n) (hb : b < n) (hab : a ≠ b)
    {x u : Nat → ℂ} (h : Spec.EdgeData m n x a b n1 u) :
    u n ^ m * (-1) ^ n1 = -((x b - x a) / 2) ^ 2 * ((x b - x a) / 2) ^ (n - 2) := by
  obtain ⟨τ, hτ, hp⟩ := h.pts
  have hd : ∀ t, t ^ 2 ≠ 1 → (u n * Spec.edgeY m n1 (n - 2) u t) ^ m * (1 - t ^ 2) =
      (t ^ 2 - 1) * ((x b - x a) / 2) ^ 2 * ∏ i ∈ Finset.range (n - 2), ((t - u i) * ((x b - x a) / 2)) := by
    intro t _
    rw [h.eqn t, prod_ends ha hb hab hτ]
    have : ∀ i ∈ Finset.range (n - 2), Spec.edgePt (x a) (x b) t - x (τ i) = (t - u i) * ((x b - x a) / 2) := by
      intro i hi
      rw [← hp i (Finset.mem_range.1 hi), edgePt_sub]
    rw [Finset.prod_congr rfl this]
    congr 1
    unfold Spec.edgePt; ring
  have hpoly : ∀ t, (u n * Spec.edgeY m n1 (n - 2) u t) ^ m =
      u n ^ m * ((-1) ^ n1 * ∏ k ∈ Finset.range (n - 2), (t - u k)) := by
    intro t; rw [mul_pow, edgeY_pow u h.n1_le hm]
  obtain ⟨t0, ht0, ht1⟩ : ∃ t : ℂ, t ^ 2 ≠ 1 ∧ ∏ k ∈ Finset.range (n - 2), (t - u k) ≠ 0 := by
    have hfin : Set.Finite ({1, -1} ∪ (Finset.image u (Finset.range (n - 2)) : Set ℂ)) :=
      Set.Finite.union (by simp) (Finset.finite_toSet _)
    obtain ⟨t, ht⟩ := (Set.infinite_univ (α := ℂ)).exists_notMem_finite hfin
    simp only [Set.mem_union, Set.mem_insert_iff, Set.mem_singleton_iff, not_or] at ht
    refine ⟨t, fun hh => ?_, ?_⟩
    · have h0 : (t - 1) * (t + 1) = 0 := by linear_combination hh
      rcases mul_eq_zero.1 h0 with h | h
      · exact ht.2.1.1 (sub_eq_zero.1 h)
      · exact ht.2.1.2 (eq_neg_of_add_eq_zero_left h)
    · rw [Finset.prod_ne_zero_iff]
      intro k hk hk0
      apply ht.2.2
      simp only [Finset.coe_image, Set.mem_image, Finset.mem_coe]
      exact ⟨k, hk, (sub_eq_zero.1 hk0).symm⟩
  have e0 := hd t0 ht0
  rw [hpoly t0, Finset.prod_mul_distrib, Finset.prod_const, Finset.card_range] at e0
  have hne : (1 - t0 ^ 2) * ∏ k ∈ Finset.range (n - 2), (t0 - u k) ≠ 0 :=
    mul_ne_zero (sub_ne_zero.2 (Ne.symm ht0)) ht1
  apply mul_right_cancel₀ hne
  linear_combination e0

theorem edgeData_at {m n a b n1 : Nat} (hm : 0 < m) (ha : a < n) (hb : b < n) (hab : a ≠ b)
    {x u : Nat → ℂ} (h : Spec.EdgeData m n x a b n1 u) :
    u (n + 1) ^ m = (x b - x a) / 4 * fder x n a ∧ u (n + 2) ^ m = (x a - x b) / 4 * fder x n b := by
  obtain ⟨τ, hτ, hp⟩ := h.pts
  have e1 := edgeData_const hm ha hb hab h
  -- the constant
  have hcst : ∀ t, (u n * Spec.edgeY m n1 (n - 2) u t) ^ m =
      -((x b - x a) / 2) ^ 2 * ∏ i ∈ Finset.range (n - 2), ((t - u i) * ((x b - x a) / 2)) := by
    have hpoly : ∀ t, (u n * Spec.edgeY m n1 (n - 2) u t) ^ m =
        u n ^ m * ((-1) ^ n1 * ∏ k ∈ Finset.range (n - 2), (t - u k)) := by
      intro t; rw [mul_pow, edgeY_pow u h.n1_le hm]
    intro t
    rw [hpoly t, Finset.prod_mul_distrib, Finset.prod_const, Finset.card_range]
    linear_combination (∏ k ∈ Finset.range (n - 2), (t - u k)) * e1
  have hprod : ∀ v, (∏ k ∈ ((Finset.range n).erase a).erase b, (v - x k)) =
      ∏ i ∈ Finset.range (n - 2), (v - x (τ i)) := by
    intro v
    symm
    refine Finset.prod_bij (fun i _ => τ i) ?_ ?_ ?_ (fun _ _ => rfl)
    · intro i hi
      have := hτ.mapsTo (Finset.mem_range.1 hi)
      simp only [Set.mem_ofPred_eq] at this
      simp only [Finset.mem_erase, Finset.mem_range]; tauto
    · intro i hi j hj h
      exact hτ.injOn (Finset.mem_range.1 hi) (Finset.mem_range.1 hj) h
    · intro k hk
      simp only [Finset.mem_erase, Finset.mem_range] at hk
      obtain ⟨i, hi, rfl⟩ := hτ.surjOn (show k ∈ {k | k < n ∧ k ≠ a ∧ k ≠ b} by
        simp only [Set.mem_ofPred_eq]; tauto)
      exact ⟨i, Finset.mem_range.2 hi, rfl⟩
  have hv : ∀ t, ∏ i ∈ Finset.range (n - 2), ((t - u i) * ((x b - x a) / 2)) =
      ∏ i ∈ Finset.range (n - 2), (Spec.edgePt (x a) (x b) t - x (τ i)) := by
    intro t
    refine Finset.prod_congr rfl fun i hi => ?_
    rw [← hp i (Finset.mem_range.1 hi), edgePt_sub]
  constructor
  · rw [h.ya, hcst, hv, edgePt_neg_one, ← hprod, fder,
      ← Finset.mul_prod_erase ((Finset.range n).erase a) (fun k => x a - x k) (a := b) (by simp [hb, hab.symm])]
    ring
  · rw [h.yb, hcst, hv, edgePt_one, ← hprod, fder, Finset.erase_right_comm,
      ← Finset.mul_prod_erase ((Finset.range n).erase b) (fun k => x b - x k) (a := a) (by simp [ha, hab])]
    ring

variable {A : Type} {X : Arith A} {R : A → ℂ → Prop}

/-- `ydata_init_edge` in any arithmetic with the inclusion property. -/
theorem ydataInitEdge_spec (E : Encloses X exact R) (T : Tests A) {x : Nat → A} {x' : Nat → ℂ}
    (hR : ∀ k, R (x k) (x' k)) {a b n m : Nat} (ha : a < n) (hb : b < n) (hab : a ≠ b) (hm : 0 < m)
    (hx : x' a ≠ x' b) :
    (∃ yd, ydataInitEdge X T x a b n m = .ok yd ∧ yd.m = m ∧ yd.n = n ∧ T.hasZero yd.c = false ∧
      (∀ i < n - 2, (i < yd.n1 → T.reNonpos (yd.u i) = false) ∧
        (yd.n1 ≤ i → T.reNonpos (yd.u i) = true)) ∧
      ∃ u', (∀ i, R (yd.u i) (u' i)) ∧ Spec.EdgeData m n x' a b yd.n1 u') ∨
    (ydataInitEdge X T x a b n m = .abort "Cab contains 0" ∧
      ∃ c c' n1, R c c' ∧ T.hasZero c = true ∧ c' ^ m = (-1) ^ (n1 + 1) * ((x' b - x' a) / 2) ^ n) := by
  obtain ⟨n1, v, τ, e, h1, h2, h3, h4, h5, h6⟩ := abPoints_spec X T x ha hb hab (fun _ => X.zero)
  -- the exact counterpart of the array
  let ba : ℂ := exact.mul2exp (exact.sub (x' b) (x' a)) (-1)
  have hba : ba = (x' b - x' a) / 2 := by
    show (x' b - x' a) * (2 : ℂ) ^ (-1 : Int) = _
    rw [zpow_neg_one]; ring
  let v' : Nat → ℂ := fun i => if i < n - 2 then abPt exact x' a b (τ i)
    else if i = n - 2 then ba
    else if i = n - 1 then exact.div (exact.add (x' b) (x' a)) (exact.sub (x' b) (x' a)) else exact.zero
  have hv : RelV R v v' := by
    intro i
    simp only [v']
    by_cases c1 : i < n - 2
    · rw [if_pos c1, (h6 i c1).1]
      exact E.div (E.sub (E.mul2exp 1 (hR _)) (E.add (hR b) (hR a))) (E.sub (hR b) (hR a))
    · rw [if_neg c1]
      by_cases c2 : i = n - 2
      · rw [if_pos c2, c2, h3]; exact E.mul2exp _ (E.sub (hR b) (hR a))
      · rw [if_neg c2]
        by_cases c3 : i = n - 1
        · rw [if_pos c3, c3, h2]; exact E.div (E.add (hR b) (hR a)) (E.sub (hR b) (hR a))
        · rw [if_neg c3, h4 i (by omega)]; exact E.zero
  have hvba : v' (n - 2) = ba := by simp [v']
  let kk := T.reNeg (X.pow (v (n - 2)) n)
  let c := cabVal X kk (v (n - 2)) n1 n m
  let c' := cabVal exact kk ba n1 n m
  have hcc : R c c' := cabVal_rel E kk (by rw [← hvba]; exact hv _) n1 n m
  have hcp : c' ^ m = (-1) ^ (n1 + 1) * ((x' b - x' a) / 2) ^ n := by
    rw [← hba]; exact cabVal_pow hm kk ba n1 n
  have hcab : constantCab X T (v (n - 2)) n1 n m = if T.hasZero c then .abort "Cab contains 0" else .ok c :=
    constantCab_eq X T _ _ _ _
  by_cases hz : T.hasZero c = true
  · right
    refine ⟨?_, c, c', n1, hcc, hz, hcp⟩
    unfold ydataInitEdge
    simp only [e, Res.ok_bind, rdV_ok (show n - 2 < n + 3 by omega), hcab, if_pos hz, Res.abort_bind]
  · left
    let v1 : Nat → A := fun j => if j = n then c else v j
    let v1' : Nat → ℂ := fun j => if j = n then c' else v' j
    have hv1 : RelV R v1 v1' := by
      intro i; simp only [v1, v1']; split
      · exact hcc
      · exact hv i
    have lim : ∀ (w : Nat → A) (w' : Nat → ℂ), RelV R w w' → w' n = c' → (∀ i < n - 2, w' i = v' i) → ∀ (s : Int),
        ∃ z, limitEdge X w n1 n m s = .ok z ∧ R z (c' * Spec.edgeY m n1 (n - 2) v' s) := by
      intro w w' hw hwc hwv s
      have r1 := mthRootPolDef_rel E (sz := n + 3) hw n1 (n - 2) (E.ofInt s) m
      rw [mthRootPolDef_spec (by omega)] at r1
      obtain ⟨z, ez, hz⟩ := r1.ok_left
      refine ⟨X.mul z (w n), ?_, ?_⟩
      · unfold limitEdge
        simp only [ez, Res.ok_bind, rdV_ok (show n < n + 3 by omega)]
      · have : c' * Spec.edgeY m n1 (n - 2) v' s = exact.mul (∏ k ∈ Finset.range (n - 2),
            exact.root m (sgnFactor w' n1 (exact.ofInt s) k)) (w' n) := by
          rw [← edgeY_eq v' h1, hwc]
          show c' * _ = _ * c'
          rw [mul_comm]
          congr 1
          refine Finset.prod_congr rfl fun k hk => ?_
          unfold sgnFactor
          rw [hwv k (Finset.mem_range.1 hk)]
          rfl
        rw [this]
        exact E.mul hz (hw n)
    have h1n : ∀ i < n - 2, v1' i = v' i := fun i hi => by simp only [v1']; rw [if_neg (by omega)]
    obtain ⟨ya, ea, ra⟩ := lim v1 v1' hv1 (by simp [v1']) h1n (-1)
    let v2 : Nat → A := fun j => if j = n + 1 then ya else v1 j
    let v2' : Nat → ℂ := fun j => if j = n + 1 then c' * Spec.edgeY m n1 (n - 2) v' ((-1 : Int) : ℂ) else v1' j
    have hv2 : RelV R v2 v2' := by
      intro i; simp only [v2, v2']; split
      · exact ra
      · exact hv1 i
    obtain ⟨yb, eb, rb⟩ := lim v2 v2' hv2 (by simp [v2', v1'])
      (fun i hi => by simp only [v2']; rw [if_neg (by omega)]; exact h1n i hi) 1
    let v3 : Nat → A := fun j => if j = n + 2 then yb else v2 j
    let v3' : Nat → ℂ := fun j => if j = n + 2 then c' * Spec.edgeY m n1 (n - 2) v' ((1 : Int) : ℂ) else v2' j
    have hv3 : RelV R v3 v3' := by
      intro i; simp only [v3, v3']; split
      · exact rb
      · exact hv2 i
    have h3v : ∀ i < n, v3 i = v i := fun i hi => by
      simp only [v3, v2, v1]; rw [if_neg (by omega), if_neg (by omega), if_neg (by omega)]
    have h3v' : ∀ i < n, v3' i = v' i := fun i hi => by
      simp only [v3', v2', v1']; rw [if_neg (by omega), if_neg (by omega), if_neg (by omega)]
    have h3c : v3' n = c' := by simp [v3', v2', v1']
    have hY : ∀ t, Spec.edgeY m n1 (n - 2) v3' t = Spec.edgeY m n1 (n - 2) v' t := by
      intro t
      unfold Spec.edgeY
      congr 1
      · exact Finset.prod_congr rfl fun k hk => by
          have := Finset.mem_range.1 hk
          rw [h3v' k (by omega)]
      · exact Finset.prod_congr rfl fun k hk => by
          have := (Finset.mem_Ico.1 hk).2
          rw [h3v' k (by omega)]
    have hpt : ∀ i < n - 2, Spec.edgePt (x' a) (x' b) (v' i) = x' (τ i) := by
      intro i hi
      simp only [v']
      rw [if_pos hi]
      exact edgePt_abPt hx _
    refine ⟨{ m := m, n := n, n1 := n1, u := v3 }, ?_, rfl, rfl, ?_, ?_, v3', hv3, ?_⟩
    · unfold ydataInitEdge
      simp only [e, Res.ok_bind, rdV_ok (show n - 2 < n + 3 by omega), hcab, if_neg hz]
      simp only [wrV_ok (show n < n + 3 by omega), wrV_ok (show n + 1 < n + 3 by omega),
        wrV_ok (show n + 2 < n + 3 by omega), Res.ok_bind]
      have ea' : limitEdge X (fun j => if j = n then c else v j) n1 n m (-1) = .ok ya := ea
      rw [ea', Res.ok_bind]
      have eb' : limitEdge X (fun j => if j = n + 1 then ya else if j = n then c else v j) n1 n m 1 = .ok yb := eb
      rw [eb', Res.ok_bind]
    · show T.hasZero (v3 n) = false
      simp only [v3, v2, v1]
      rw [if_neg (by omega), if_neg (by omega), if_pos trivial]
      simpa using hz
    · intro i hi
      show (i < n1 → T.reNonpos (v3 i) = false) ∧ (n1 ≤ i → T.reNonpos (v3 i) = true)
      rw [h3v i (by omega)]
      exact (h6 i hi).2
    · refine ⟨h1, ⟨τ, h5, fun i hi => ?_⟩, ?_, ?_, ?_, ?_, ?_⟩
      · rw [h3v' i (by omega)]; exact hpt i hi
      · rw [h3v' _ (by omega), hvba, hba]
      · rw [h3v' _ (by omega)]
        simp only [v']
        rw [if_neg (by omega), if_neg (by omega), if_pos trivial]; rfl
      · intro t
        rw [h3c, hY]
        exact edge_equation hm ha hb hab h1 h5 hpt hcp t
      · rw [h3c, hY]
        simp [v3', v2']
      · rw [h3c, hY]
        simp [v3']

end Hcp
