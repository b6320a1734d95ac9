import Verif.Props.Tree
import Verif.Spec.Segment
import Verif.Model.TreeParam
import Mathlib.Analysis.Convex.StrictConvexBetween
import Mathlib.Analysis.InnerProductSpace.Convex
import Mathlib.Analysis.SpecialFunctions.Complex.Log
import Mathlib.Analysis.SpecialFunctions.Pow.Real
import Mathlib.Tactic.LinearCombination

/-!
# C46: no edge of the tree passes through another branch point
-/

namespace Hcp
open Spec

section
variable {W : Type} [LinearOrder W] [Zero W]

theorem edgePt_seg_inj {a b : ℂ} (h : a ≠ b) {s t : ℂ} (e : edgePt a b s = edgePt a b t) : s = t := by
  unfold edgePt at e
  have h1 : (b - a) / 2 ≠ 0 := div_ne_zero (sub_ne_zero.2 h.symm) two_ne_zero
  have h2 := add_left_cancel e
  exact mul_right_cancel₀ h1 h2

theorem edgePt_subseg (a b : ℂ) (s t u : ℂ) : edgePt (edgePt a b s) (edgePt a b t) u = edgePt a b ((s + t) / 2 + u * ((t - s) / 2)) := by
  unfold edgePt
  ring

theorem edgePt_seg_ends (a b : ℂ) : edgePt a b (-1) = a ∧ edgePt a b 1 = b := by
  unfold edgePt
  constructor <;> ring

theorem blocked_symm {x : Nat → ℂ} {len i j : Nat} (h : Blocked x len i j) : Blocked x len j i := by
  obtain ⟨k, h1, h2, h3, t, h4, h5, h6⟩ := h
  refine ⟨k, h1, h3, h2, -t, by linarith, by linarith, ?_⟩
  rw [h6]
  unfold edgePt
  push_cast
  ring

/-- between a point with a property and a point without it, two neighbours on the segment differ -/
theorem exists_unblocked {x : Nat → ℂ} {len a b : Nat} (hx : Set.InjOn x (Set.Iio len)) (ha : a < len) (hb : b < len) (hab : a ≠ b)
    (Q : Nat → Prop) (hQa : Q a) (hQb : ¬ Q b) : ∃ u v, u < len ∧ v < len ∧ u ≠ v ∧ Q u ∧ ¬ Q v ∧ ¬ Blocked x len u v := by
  classical
  have hne : x a ≠ x b := fun h => hab (hx ha hb h)
  have hd : ∀ k, ∃ t : ℝ, OnSeg (x a) (x b) (x k) → -1 ≤ t ∧ t ≤ 1 ∧ x k = edgePt (x a) (x b) t := by
    intro k
    by_cases h : OnSeg (x a) (x b) (x k)
    · obtain ⟨t, h⟩ := h
      exact ⟨t, fun _ => h⟩
    · exact ⟨0, fun h' => absurd h' h⟩
  choose t ht using hd
  let S := (Finset.range len).filter fun k => OnSeg (x a) (x b) (x k)
  have hS : ∀ k, k ∈ S ↔ k < len ∧ OnSeg (x a) (x b) (x k) := fun k => by simp [S]
  have haS : a ∈ S := (hS a).2 ⟨ha, -1, by norm_num, by norm_num, by push_cast; exact (edgePt_seg_ends _ _).1.symm⟩
  have hbS : b ∈ S := (hS b).2 ⟨hb, 1, by norm_num, by norm_num, by push_cast; exact (edgePt_seg_ends _ _).2.symm⟩
  have tinj : ∀ k ∈ S, ∀ l ∈ S, t k = t l → k = l := by
    intro k hk l hl h
    have e1 := (ht k ((hS k).1 hk).2).2.2
    have e2 := (ht l ((hS l).1 hl).2).2.2
    exact hx ((hS k).1 hk).1 ((hS l).1 hl).1 (by rw [e1, e2, h])
  have hta : t a = -1 := by
    have e1 := (ht a ((hS a).1 haS).2).2.2
    have := edgePt_seg_inj hne ((edgePt_seg_ends (x a) (x b)).1.trans e1)
    exact_mod_cast this.symm
  obtain ⟨v, hv, hvmin⟩ := Finset.exists_min_image (S.filter fun k => ¬ Q k) t ⟨b, Finset.mem_filter.2 ⟨hbS, hQb⟩⟩
  rw [Finset.mem_filter] at hv
  have hav : t a < t v := by
    rw [hta]
    refine lt_of_le_of_ne (ht v ((hS v).1 hv.1).2).1 fun h => hv.2 ?_
    have : a = v := tinj a haS v hv.1 (by rw [hta, h])
    exact this ▸ hQa
  obtain ⟨u, hu, humax⟩ := Finset.exists_max_image (S.filter fun k => Q k ∧ t k < t v) t ⟨a, Finset.mem_filter.2 ⟨haS, hQa, hav⟩⟩
  rw [Finset.mem_filter] at hu
  refine ⟨u, v, ((hS u).1 hu.1).1, ((hS v).1 hv.1).1, fun h => hv.2 (h ▸ hu.2.1), hu.2.1, hv.2, ?_⟩
  rintro ⟨k, hk, hku, hkv, s, hs1, hs2, hs3⟩
  have eu := ht u ((hS u).1 hu.1).2
  have ev := ht v ((hS v).1 hv.1).2
  rw [eu.2.2, ev.2.2, edgePt_subseg] at hs3
  have hlt := hu.2.2
  have hkS : k ∈ S := (hS k).2 ⟨hk, (t u + t v) / 2 + s * ((t v - t u) / 2), by nlinarith, by nlinarith, by rw [hs3]; push_cast; rfl⟩
  have ek := (ht k ((hS k).1 hkS).2).2.2
  have htk : t k = (t u + t v) / 2 + s * ((t v - t u) / 2) := by
    have := edgePt_seg_inj hne (ek.symm.trans hs3)
    exact_mod_cast this
  have h1 : t u ≤ t k := by rw [htk]; nlinarith
  have h2 : t k ≤ t v := by rw [htk]; nlinarith
  have h3 : t u ≠ t k := fun h => hku (tinj u hu.1 k hkS h).symm
  have h4 : t k ≠ t v := fun h => hkv (tinj k hkS v hv.1 h)
  by_cases hQ : Q k
  · exact absurd (humax k (Finset.mem_filter.2 ⟨hkS, hQ, lt_of_le_of_ne h2 h4⟩)) (not_le.2 (lt_of_le_of_ne h1 h3))
  · exact absurd (hvmin k (Finset.mem_filter.2 ⟨hkS, hQ⟩)) (not_le.2 (lt_of_le_of_ne h2 h4))

/-- **C46.** Distinct points.  If the parameter of every blocked pair (another point lies on its segment) is below that of every free pair, then no selected edge is blocked: for any number of
points, any order of ties, any parameters. -/
theorem C46_edges_free (c : W) {sort : List (Edge W) → List (Edge W)} (hsort : SortsByR sort) (wt : Nat → Nat → W) (tr : Tree W) (len : Nat) (hn : tr.n < len ∨ tr.n = 0)
    {x : Nat → ℂ} (hx : Set.InjOn x (Set.Iio len))
    (hsep : ∀ i j k l, i < j → j < len → k < l → l < len → Blocked x len i j → ¬ Blocked x len k l → wt i j < wt k l) :
    ∃ tr', spanningTree (WOps.ofOrder c) sort wt tr len = .ok tr' ∧ tr'.e.length = tr.n ∧ ∀ f ∈ tr'.e, ¬ Blocked x len f.a f.b := by
  obtain ⟨tr', E, h1, h2, h3, h4, ⟨L, rfl⟩, _, h6⟩ := tree_core (WOps.ofOrder c) sort hsort.perm wt tr len hn (fun _ => True) trivial (fun _ _ _ _ _ => trivial)
  obtain ⟨hg, hr⟩ := steps_grow h4 h6
  refine ⟨tr', h1, h3, fun f hf hbl => ?_⟩
  obtain ⟨k, hk, rfl⟩ := List.getElem_of_mem hf
  obtain ⟨g1, g2, g3⟩ := hr _ hf
  have hgk := hg k (by rw [List.length_map]; exact hk)
  simp only [List.getElem_map] at hgk
  obtain ⟨q1, q2, q3⟩ := hgk
  obtain ⟨u, v, hu, hv, huv, hQu, hQv, hfree⟩ := exists_unblocked hx g1 g2 q1
    (fun w => if k = 0 then w = tr'.e[k].a else Touches ((tr'.e.map fun x => (x.a, x.b)).take k) w)
    (by
      split
      · rfl
      · rename_i h0; exact q3 h0)
    (by
      split
      · exact q1.symm
      · exact q2)
  have hle := steps_greedy h4 (hsort.sorted L) h6 k (by rw [List.length_map]; exact hk) u v hu hv huv (by
    intro h0
    simp only [h0, if_false] at hQu hQv
    exact ⟨hQu, hQv⟩)
  simp only [List.getElem_map] at hle
  have key : ∀ i j, i < len → j < len → i ≠ j → ∃ i' j', i' < j' ∧ j' < len ∧ pairWeight wt i j = wt i' j' ∧ (Blocked x len i j ↔ Blocked x len i' j') := by
    intro i j hi hj hij
    unfold pairWeight
    rcases Nat.lt_or_gt_of_ne hij with h | h
    · exact ⟨i, j, h, hj, by rw [min_eq_left h.le, max_eq_right h.le], Iff.rfl⟩
    · exact ⟨j, i, h, hi, by rw [min_eq_right h.le, max_eq_left h.le], ⟨blocked_symm, blocked_symm⟩⟩
  obtain ⟨i1, j1, a1, a2, a3, a4⟩ := key _ _ g1 g2 q1
  obtain ⟨i2, j2, b1, b2, b3, b4⟩ := key _ _ hu hv huv
  rw [a3, b3] at hle
  exact absurd (hsep i1 j1 i2 j2 a1 a2 b1 b2 (a4.1 hbl) (fun h => hfree (b4.2 h))) (not_lt.2 hle)

end

/-! ## The two parameters -/

/-- the parameter of a pair is the least value over the other points; if a value is minimal exactly on the segment, pairs are separated -/
theorem param_separates {f : ℂ → ℂ → ℂ → ℝ} {c0 : ℝ} {x : Nat → ℂ} {len : Nat} (hx : Set.InjOn x (Set.Iio len))
    (hge : ∀ a b c, a ≠ b → c0 ≤ f a b c) (heq : ∀ a b c, a ≠ b → c ≠ a → c ≠ b → (f a b c = c0 ↔ OnSeg a b c)) (hnn : ∀ a b c, 0 ≤ f a b c) :
    ∀ i j k l, i < j → j < len → k < l → l < len → Blocked x len i j → ¬ Blocked x len k l →
      paramEdge (WOps.ofOrder (-1 : ℝ)) (fun p => f (x i) (x j) (x p)) i j len < paramEdge (WOps.ofOrder (-1 : ℝ)) (fun p => f (x k) (x l) (x p)) k l len := by
  intro i j k l hij hj hkl hl hb hf
  have ne : ∀ p q, p < len → q < len → p ≠ q → x p ≠ x q := fun p q hp hq h e => h (hx hp hq e)
  obtain ⟨p, hp, hpi, hpj, hon⟩ := hb
  have h1 := (C42_edge_parameter (-1 : ℝ) (by norm_num) (fun p => f (x i) (x j) (x p)) (fun _ => hnn _ _ _) i j len).1 p hp hpi hpj
  have e1 : f (x i) (x j) (x p) = c0 := (heq _ _ _ (ne i j (by omega) hj (by omega)) (ne p i hp (by omega) hpi) (ne p j hp hj hpj)).2 hon
  rcases (C42_edge_parameter (-1 : ℝ) (by norm_num) (fun p => f (x k) (x l) (x p)) (fun _ => hnn _ _ _) k l len).2 with ⟨q, hq, hqk, hql, e2⟩ | ⟨hall, -⟩
  · rw [e2]
    rw [e1] at h1
    refine lt_of_le_of_lt h1 (lt_of_le_of_ne (hge _ _ _ (ne k l (by omega) hl (by omega))) fun h => hf ?_)
    exact ⟨q, hq, hqk, hql, (heq _ _ _ (ne k l (by omega) hl (by omega)) (ne q k hq (by omega) hqk) (ne q l hq hl hql)).1 h.symm⟩
  · exfalso
    have h1 := hall p hp
    have h2 := hall i (by omega)
    have h3 := hall j hj
    omega

theorem ellipseParam_ge (a b c : ℂ) (h : a ≠ b) : 1 ≤ ellipseParam a b c := by
  have hb : 0 < ‖b - a‖ := norm_pos_iff.2 (sub_ne_zero.2 h.symm)
  unfold ellipseParam
  rw [le_div_iff₀ hb, one_mul]
  calc ‖b - a‖ = ‖(c - a) - (c - b)‖ := by congr 1; ring
    _ ≤ _ := norm_sub_le _ _

theorem onSeg_iff_mem {a b c : ℂ} : OnSeg a b c ↔ c ∈ segment ℝ a b := by
  rw [segment_eq_image]
  constructor
  · rintro ⟨t, h1, h2, rfl⟩
    refine ⟨(1 + t) / 2, ⟨by linarith, by linarith⟩, ?_⟩
    simp only [Complex.real_smul]
    unfold edgePt
    push_cast
    ring
  · rintro ⟨s, ⟨h1, h2⟩, rfl⟩
    refine ⟨2 * s - 1, by linarith, by linarith, ?_⟩
    simp only [Complex.real_smul]
    unfold edgePt
    push_cast
    ring

theorem ellipseParam_eq (a b c : ℂ) (h : a ≠ b) : ellipseParam a b c = 1 ↔ OnSeg a b c := by
  have hb : ‖b - a‖ ≠ 0 := norm_ne_zero_iff.2 (sub_ne_zero.2 h.symm)
  rw [onSeg_iff_mem, mem_segment_iff_wbtw, ← dist_add_dist_eq_iff]
  unfold ellipseParam
  rw [div_eq_one_iff_eq hb, dist_eq_norm, dist_eq_norm, dist_eq_norm, norm_sub_rev a c, norm_sub_rev a b]

theorem arg_zero_pos {v : ℂ} (h0 : v ≠ 0) (h : (Complex.log v).im = 0) : ∃ r : ℝ, 0 < r ∧ v = r := by
  rw [Complex.log_im, Complex.arg_eq_zero_iff] at h
  refine ⟨v.re, lt_of_le_of_ne h.1 fun h1 => h0 ?_, ?_⟩
  · exact Complex.ext h1.symm h.2
  · exact Complex.ext (by simp) (by simp [h.2])

theorem casinh_im (w : ℂ) : (casinh w).im = 0 ↔ w.im = 0 := by
  set q := (w ^ 2 + 1) ^ ((2 : ℂ)⁻¹) with hq
  have hq2 : q ^ 2 = w ^ 2 + 1 := by
    have := Complex.cpow_nat_inv_pow (w ^ 2 + 1) two_ne_zero
    rw [hq]
    exact_mod_cast this
  have hv : w + q ≠ 0 := by
    intro h
    have : q = -w := by linear_combination h
    rw [this] at hq2
    have : (1 : ℂ) = 0 := by linear_combination -hq2
    exact one_ne_zero this
  constructor
  · intro h
    obtain ⟨r, hr, e⟩ := arg_zero_pos hv h
    have hr' : (r : ℂ) ≠ 0 := by exact_mod_cast hr.ne'
    have : w = ((r ^ 2 - 1) / (2 * r) : ℝ) := by
      push_cast
      rw [eq_div_iff (mul_ne_zero two_ne_zero hr')]
      have e' : q = r - w := by linear_combination e
      rw [e'] at hq2
      linear_combination -hq2
    rw [this, Complex.ofReal_im]
  · intro h
    obtain ⟨t, rfl⟩ : ∃ t : ℝ, w = t := ⟨w.re, Complex.ext rfl (by simp [h])⟩
    have e : q = (Real.sqrt (t ^ 2 + 1) : ℝ) := by
      rw [hq, show ((t : ℂ) ^ 2 + 1) = ((t ^ 2 + 1 : ℝ) : ℂ) by push_cast; rfl, show (2 : ℂ)⁻¹ = (((1 / 2 : ℝ)) : ℂ) by push_cast; norm_num,
        ← Complex.ofReal_cpow (by positivity), Real.sqrt_eq_rpow]
    have hpos : 0 < t + Real.sqrt (t ^ 2 + 1) := by
      have : |t| < Real.sqrt (t ^ 2 + 1) := Real.lt_sqrt_of_sq_lt (by rw [sq_abs]; linarith)
      have := neg_abs_le t
      linarith
    have : casinh (t : ℂ) = ((Real.log (t + Real.sqrt (t ^ 2 + 1)) : ℝ) : ℂ) := by
      unfold casinh
      rw [← hq, e, Complex.ofReal_log hpos.le]
      push_cast
      rfl
    rw [this, Complex.ofReal_im]

theorem catanh_im {z : ℂ} (h1 : z ≠ 1) (h2 : z ≠ -1) : (catanh z).im = 0 ↔ ∃ t : ℝ, -1 ≤ t ∧ t ≤ 1 ∧ z = t := by
  have n1 : 1 + z ≠ 0 := fun h => h2 (by linear_combination h)
  have n2 : 1 - z ≠ 0 := fun h => h1 (by linear_combination -h)
  have him : (catanh z).im = ((1 + z).arg - (1 - z).arg) / 2 := by
    unfold catanh
    rw [show (2 : ℂ) = ((2 : ℝ) : ℂ) by norm_num, Complex.div_ofReal_im, Complex.sub_im, Complex.log_im, Complex.log_im]
  rw [him]
  constructor
  · intro h
    have harg : (1 + z).arg = (1 - z).arg := by linarith
    have e := (Complex.arg_eq_arg_iff n1 n2).1 harg
    have p1 : 0 < ‖1 + z‖ := norm_pos_iff.2 n1
    have p2 : 0 < ‖1 - z‖ := norm_pos_iff.2 n2
    set α := ‖1 + z‖ with hα
    set β := ‖1 - z‖ with hβ
    have p1' : (α : ℂ) ≠ 0 := by exact_mod_cast p1.ne'
    have hs : ((α + β : ℝ) : ℂ) ≠ 0 := by exact_mod_cast (by linarith : α + β ≠ 0)
    refine ⟨(α - β) / (α + β), ?_, ?_, ?_⟩
    · rw [le_div_iff₀ (by linarith)]; linarith
    · rw [div_le_iff₀ (by linarith)]; linarith
    · rw [div_mul_eq_mul_div, div_eq_iff p1'] at e
      rw [Complex.ofReal_div, eq_div_iff hs]
      push_cast
      linear_combination e
  · rintro ⟨t, t1, t2, rfl⟩
    have a1 : (1 + (t : ℂ)) = ((1 + t : ℝ) : ℂ) := by push_cast; rfl
    have a2 : (1 - (t : ℂ)) = ((1 - t : ℝ) : ℂ) := by push_cast; rfl
    rw [a1, a2, Complex.arg_ofReal_of_nonneg (by linarith), Complex.arg_ofReal_of_nonneg (by linarith)]
    norm_num

theorem stripParam_eq {l : ℝ} (hl : l ≠ 0) (a b c : ℂ) (h : a ≠ b) (ha : c ≠ a) (hb : c ≠ b) : stripParam l a b c = 0 ↔ OnSeg a b c := by
  have hd : b - a ≠ 0 := sub_ne_zero.2 h.symm
  have hz : ∀ t : ℂ, (2 * c - a - b) / (b - a) = t ↔ c = edgePt a b t := by
    intro t
    rw [div_eq_iff hd]
    unfold edgePt
    constructor
    · intro h; linear_combination h / 2
    · intro h; rw [h]; ring
  unfold stripParam
  rw [abs_eq_zero, casinh_im, Complex.div_ofReal_im, div_eq_zero_iff, or_iff_left hl, catanh_im]
  · unfold OnSeg
    simp only [hz]
  · rw [Ne, hz, (edgePt_seg_ends a b).2]; exact hb
  · rw [Ne, hz, (edgePt_seg_ends a b).1]; exact ha

/-- exact numbers -/
noncomputable def exactCOps (l : ℝ) : COps ℂ ℝ where
  csub := (· - ·)
  cdiv := (· / ·)
  twice c := 2 * c
  cabs c := ‖c‖
  cimag c := c.im
  casinh := casinh
  catanh := catanh
  divLam c := c / l
  fabs x := |x|
  add := (· + ·)
  div := (· / ·)

/-- **C46 (exact parameters).** For all sets of distinct points, with the parameters of either integration method computed exactly, no selected edge passes through a third point. -/
theorem C46_no_third_point {sort : List (Edge ℝ) → List (Edge ℝ)} (hsort : SortsByR sort) {l : ℝ} (hl : l ≠ 0) (type : IntType)
    (tr : Tree ℝ) (len : Nat) (hn : tr.n < len ∨ tr.n = 0) {x : Nat → ℂ} (hx : Set.InjOn x (Set.Iio len)) :
    ∃ tr', spanningTreeOf (exactCOps l) (WOps.ofOrder (-1)) sort x tr len type = .ok tr' ∧ tr'.e.length = tr.n ∧ ∀ f ∈ tr'.e, ¬ Blocked x len f.a f.b := by
  have hgc : ∀ i j k l', i < j → j < len → k < l' → l' < len → Blocked x len i j → ¬ Blocked x len k l' →
      paramEdge (WOps.ofOrder (-1 : ℝ)) (fun p => ellipseParam (x i) (x j) (x p)) i j len < paramEdge (WOps.ofOrder (-1 : ℝ)) (fun p => ellipseParam (x k) (x l') (x p)) k l' len :=
    param_separates hx ellipseParam_ge (fun a b c h _ _ => ellipseParam_eq a b c h) (fun a b c => by unfold ellipseParam; positivity)
  have hde : ∀ i j k l', i < j → j < len → k < l' → l' < len → Blocked x len i j → ¬ Blocked x len k l' →
      paramEdge (WOps.ofOrder (-1 : ℝ)) (fun p => stripParam l (x i) (x j) (x p)) i j len < paramEdge (WOps.ofOrder (-1 : ℝ)) (fun p => stripParam l (x k) (x l') (x p)) k l' len :=
    param_separates hx (fun a b c _ => abs_nonneg _) (fun a b c => stripParam_eq hl a b c) (fun a b c => abs_nonneg _)
  cases type with
  | d2 => exact C46_edges_free (-1) hsort _ tr len hn hx hgc
  | gc => exact C46_edges_free (-1) hsort _ tr len hn hx hgc
  | de => exact C46_edges_free (-1) hsort _ tr len hn hx hde

end Hcp
