import Verif.Props.DeTree
import Verif.Props.DeTotal
import Verif.Proofs.Diam

/-!
# C85: convergence of the double-exponential runs
-/

namespace Hcp

open Set Spec

variable {x : Nat → ℂ} {n : Nat}

/-- the rate of convergence of the integrals of `x^i dx / y^j`, for parameters chosen from the precision `prec` -/
noncomputable def deRate (m j : Nat) (prec : ℝ) : ℝ := 2 ^ (-((m - j) / (m - 1) * prec : ℝ))

theorem deRate_pos (m j : Nat) (prec : ℝ) : 0 < deRate m j prec := Real.rpow_pos_of_pos two_pos _

theorem deRate_exp (m j : Nat) (prec : ℝ) : Real.exp (-((m - j) / (m - 1) * (prec * Real.log 2))) = deRate m j prec := by
  unfold deRate
  rw [Real.rpow_def_of_pos two_pos]
  congr 1
  ring

theorem deRate_mono {m j j' : Nat} (hm : 2 ≤ m) (h : j' ≤ j) {prec : ℝ} (hp : 0 ≤ prec) : deRate m j' prec ≤ deRate m j prec := by
  unfold deRate
  have hmR : (2 : ℝ) ≤ m := by exact_mod_cast hm
  have hjR : (j' : ℝ) ≤ j := by exact_mod_cast h
  refine Real.rpow_le_rpow_of_exponent_le (by norm_num) (neg_le_neg (mul_le_mul_of_nonneg_right ?_ hp))
  exact div_le_div_of_nonneg_right (by linarith) (by linarith)

/-- the parameters of an edge serve any edge with a larger parameter: sums and radii -/
theorem de_serve {lam : ℝ} (hlam : 0 < lam) (hlam2 : lam ≤ Real.pi / 2) (m2 : ℝ → ℝ) {m a b a' b' n1 n1' : Nat} (hm : 2 ≤ m) (hab : x a ≠ x b) (hab' : x a' ≠ x b') {p q : ℝ}
    (hP : IsLeastIn p (edgeHs lam x n a' b')) (hp0 : 0 < p) (hQ : IsLeastIn q (edgeHs lam x n a b)) (hpq : p ≤ q) {u u' : Nat → ℂ} (hE' : EdgeData m n x a' b' n1' u') (hE : EdgeData m n x a b n1 u)
    (hfree : ∀ i < n - 2, ∀ t : ℝ, -1 ≤ t → t ≤ 1 → u i ≠ t) {i j j1 : Nat} (hj1 : 1 ≤ j1) (hj1j : j1 ≤ j) (hj : j < m) :
    ∃ K : ℝ, 0 ≤ K ∧ ∀ (prec : Nat) (o : DeOut), 1 ≤ prec → deParams lam m2 ((List.range (n - 2)).map u') j1 m prec = .ok o →
      ‖trapSum m n1 (n - 2) u o.l i j o.h o.n - edgeIntegral m n1 (n - 2) u i j‖ ≤ K * deRate m j prec ∧ o.e ≤ K * deRate m j prec := by
  have hpi := Real.pi_gt_d2
  have hP' : IsLeastIn p (((List.range (n - 2)).map u').map (deHeight lam)) := by
    have hmem := edgeHs_mem (lam := lam) hab' hE'
    exact ⟨(hmem _).2 hP.1, fun s hs => hP.2 s ((hmem _).1 hs)⟩
  have hQ' : IsLeastIn q (((List.range (n - 2)).map u).map (deHeight lam)) := by
    have hmem := edgeHs_mem (lam := lam) hab hE
    exact ⟨(hmem _).2 hQ.1, fun s hs => hQ.2 s ((hmem _).1 hs)⟩
  have hR := deRadius_eq hP' hp0
  have hr0 : 0 < min (14 / 10) p := lt_min (by norm_num) hp0
  have hr1 := min_le_left (14 / 10 : ℝ) p
  have hstrip : FreeStrip lam (min (14 / 10) p) (n - 2) u := by
    intro k' hk' t ht hz
    have hq := deZ_ne_one lam t
    rw [hz] at hq
    have hA := de_height hlam hlam2 hq.1 hq.2 (t := t) (by linarith) hz
    have hB : q ≤ deHeight lam (u k') := hQ'.2 _ (List.mem_map_of_mem (List.mem_map.2 ⟨k', List.mem_range.2 hk', rfl⟩))
    have hD := min_le_right (14 / 10 : ℝ) p
    unfold deHeight at hB
    linarith
  obtain ⟨K, hK⟩ := de_upper (n1 := n1) (i := i) (j := j) (m := m) hm (hj1.trans hj1j) hj hE.n1_le hlam hlam2 (by positivity : 0 < min (14 / 10) p * (9 / 10)) (by linarith : _ < min (14 / 10) p)
    (by linarith) hstrip (fun k hk => ⟨fun h => hfree k hk 1 (by norm_num) le_rfl (by simp [h]), fun h => hfree k hk (-1) le_rfl (by norm_num) (by simp [h])⟩)
  obtain ⟨K', hK'0, hK'⟩ := deError_upper (m := m) (j := j1) hm hj1 (by omega) hlam hlam2 (by positivity : 0 < min (14 / 10) p * (9 / 10)) (by linarith) (deConstantM1 ((List.range (n - 2)).map u') m) (m2 (min (14 / 10) p * (9 / 10)))
  refine ⟨max |K| K', le_max_of_le_right hK'0, fun prec o hp ho => ?_⟩
  obtain ⟨-, h2, h3, h4, h5, h6⟩ := deParams_ok ho
  have hr : o.r = min (14 / 10) p * (9 / 10) := (Res.ok.inj (hR.symm.trans h2)).symm
  have h7 := hK prec hp
  have h8 := hK' prec hp
  rw [deRate_exp] at h7 h8
  rw [h4, h3] at h6
  rw [h3] at h4
  rw [hr] at h3 h4 h6
  have hd := (deRate_pos m j prec).le
  constructor
  · rw [h5, h3, h4]
    exact h7.trans (mul_le_mul_of_nonneg_right ((le_abs_self K).trans (le_max_left _ _)) hd)
  · rw [h6]
    exact h8.trans (mul_le_mul (le_max_right _ _) (deRate_mono hm hj1j (Nat.cast_nonneg _)) (deRate_pos _ _ _).le (le_max_of_le_right hK'0))

theorem setArith_mono : Encloses setArith setArith (· ⊆ ·) where
  zero := subset_rfl
  one := subset_rfl
  add h h' := image2_subset h h'
  sub h h' := image2_subset h h'
  mul h h' := image2_subset h h'
  neg h := image_mono h
  div h h' := image2_subset h h'
  inv h := image_mono h
  pow k h := image_mono (f := (exact.pow · k)) h
  ofInt _ := subset_rfl
  mul2exp k h := image_mono (f := (exact.mul2exp · k)) h
  root _ h := image_mono h
  sqrt h := image_mono h
  unitRoot _ := subset_rfl
  log h := image_mono h
  exp h := image_mono h
  divI h := image_mono h
  pi := subset_rfl

theorem setArith_nonempty : Encloses setArith exact (fun s _ => s.Nonempty) where
  zero := singleton_nonempty _
  one := singleton_nonempty _
  add h h' := h.image2 h'
  sub h h' := h.image2 h'
  mul h h' := h.image2 h'
  neg h := h.image _
  div h h' := h.image2 h'
  inv h := h.image _
  pow _ h := h.image _
  ofInt _ := singleton_nonempty _
  mul2exp _ h := h.image _
  root _ h := h.image _
  sqrt h := h.image _
  unitRoot _ := singleton_nonempty _
  log h := h.image _
  exp h := h.image _
  divI h := h.image _
  pi := singleton_nonempty _

/-- the row made from cells near to `z` is near to the row made from `z`: the distance in the cell of `x^i dx / y^j` is bounded by those of the integrals with the same exponent `j` -/
theorem row_near {c : Shape} (hc : c.Good) (ba2 ab cab : ℂ) {r i j : Nat} (hr : r < c.g) (hij : diffOf c.ni c.j1 r = (i, j)) :
    ∃ C : ℝ, 0 ≤ C ∧ ∀ (v y : Nat → Set ℂ) (z : Nat → ℂ) (D : Nat → ℝ) (δ : ℝ), (∀ k, 0 ≤ D k) → (∀ k, ∀ w ∈ v k, ‖w - z k‖ ≤ D k) → (∀ k < c.g, (diffOf c.ni c.j1 k).2 = j → D k ≤ δ) →
      edgeFactors setArith c {ba2} {ab} {cab} v = .ok y →
      ∃ y', edgeFactors setArith c {ba2} {ab} {cab} (fun k => Metric.closedBall (z k) (D k)) = .ok y' ∧ y r ⊆ y' r ∧ DiamLe (y' r) (C * δ) := by
  obtain ⟨k, nij, i', g1, g2, g3, g4⟩ := diffOf_spec c.ni c.j1 r (by rw [hc.sum]; exact hr)
  rw [g4] at hij
  obtain ⟨rfl, rfl⟩ := Prod.mk.inj hij
  refine ⟨‖(1 - exact.unitRoot c.m ^ ((c.m - (c.j1 + k)) % c.m)) / cab ^ (c.j1 + k)‖ * ‖ba2‖ ^ (i' + 1) * ∑ l ∈ Finset.range (i' + 1), (i'.choose l : ℝ) * ‖ab‖ ^ l * 2, by positivity,
    fun v y z D δ hD hv hδ hy => ?_⟩
  obtain ⟨y', s, e1, g, -, H⟩ := edgeFactors_diam c ba2 ab cab (by have := hc.m; omega) (fun k => Metric.closedBall (z k) (D k)) (fun k => ((2 * D k : ℝ) : ℂ))
    (fun k => ⟨2 * D k, rfl, fun w hw w' hw' => by
      rw [Metric.mem_closedBall, dist_eq_norm] at hw hw'
      rw [show w - w' = (w - z k) - (w' - z k) by ring]
      exact (norm_sub_le _ _).trans (by linarith)⟩) hc.pos hc.sum.le
  have hsub := edgeFactors_rel setArith_mono c (ba2 := {ba2}) (ab := {ab}) (cab := {cab}) (ba2' := {ba2}) (ab' := {ab}) (cab' := {cab}) subset_rfl subset_rfl subset_rfl (x := v) (y := fun k => Metric.closedBall (z k) (D k))
    (fun k w hw => by rw [Metric.mem_closedBall, dist_eq_norm]; exact hv k w hw)
  rw [hy, e1] at hsub
  refine ⟨y', e1, ?_, ?_⟩
  · cases hsub with
    | ok h => exact h r
  · obtain ⟨d, hd, hdd⟩ := g r
    have h1 := H k i' nij g1 g2
    rw [← g3, hd] at h1
    have h2 : d = ‖(1 - exact.unitRoot c.m ^ ((c.m - (c.j1 + k)) % c.m)) / cab ^ (c.j1 + k)‖ * ‖ba2‖ ^ (i' + 1) * ∑ l ∈ Finset.range (i' + 1), (i'.choose l : ℝ) * ‖ab‖ ^ l * (2 * D ((c.ni.take k).sum + (i' - l))) := by
      apply Complex.ofReal_injective
      rw [h1]
      unfold edgeSize bsum
      push_cast
      rfl
    refine hdd.mono ?_
    rw [h2, mul_assoc _ (Finset.sum _ _) δ, Finset.sum_mul]
    refine mul_le_mul_of_nonneg_left (Finset.sum_le_sum fun l hl => ?_) (by positivity)
    have h3 := diffOf_block c.ni c.j1 k nij (i' - l) g1 (by omega)
    have h4 : D ((c.ni.take k).sum + (i' - l)) ≤ δ := hδ _ (by omega) (by rw [h3])
    rw [mul_assoc _ 2 δ]
    exact mul_le_mul_of_nonneg_left (by linarith) (by positivity)

/-- Every row of `integrals_tree_de` is computed with the scheme made from the parameters of the edge, or of an edge before it. -/
theorem treeDe_rows_before {A B C W : Type} {O : MatOps} {V : AjEnv A B C W O} {c : Shape} {flag : Nat} {prec : Int} {data : List (YData A)} {Q : Nat → Nat → Prop} {ks : List Nat} (hnd : ks.Nodup) (hQ : ks.Pairwise Q)
    {de0 : DeInt A} (h0 : de0.n = 0) {I I' : Nat → Nat → A} (h : treeDe V c flag prec data ks de0 I = .ok I') :
    (∀ k ∉ ks, I' k = I k) ∧ ∀ k ∈ ks, ∃ (ye yj : YData A) (j : Nat) (p : DePar A) (de : DeInt A) (r : Nat → A), data[k]? = some ye ∧ (j = k ∨ Q j k) ∧ data[j]? = some yj ∧
      V.dePar (pointsOf c.n yj) (c.n - 1) c.j1 c.m prec = .ok p ∧ deIntInit (V.ar prec) (V.fns prec) p.h p.lam p.n p.err c.m = .ok de ∧
      deIntegralsPrecomp (V.ar prec) (V.tests prec) (c.n + 3) ye.u ye.n1 (c.n - 2) c de flag (decide (1000 < prec) && decide (5 < c.n - 2)) = .ok r ∧
      edgeFactors (V.ar prec) c ye.ba2 ye.ab ye.c (fun i => if i < c.g then de.err (r i) else r i) = .ok (I' k) := by
  have gen : ∀ (ls : List Nat), ls.Nodup → ls.Pairwise Q → ∀ (I I' : Nat → Nat → A) (de : DeInt A),
      (de.n = 0 ∨ ∃ (yj : YData A) (j : Nat) (p : DePar A), (∀ l ∈ ls, Q j l) ∧ data[j]? = some yj ∧ V.dePar (pointsOf c.n yj) (c.n - 1) c.j1 c.m prec = .ok p ∧
        deIntInit (V.ar prec) (V.fns prec) p.h p.lam p.n p.err c.m = .ok de) → treeDe V c flag prec data ls de I = .ok I' →
      (∀ k ∉ ls, I' k = I k) ∧ ∀ k ∈ ls, ∃ (ye yj : YData A) (j : Nat) (p : DePar A) (de : DeInt A) (r : Nat → A), data[k]? = some ye ∧ (j = k ∨ Q j k) ∧ data[j]? = some yj ∧
        V.dePar (pointsOf c.n yj) (c.n - 1) c.j1 c.m prec = .ok p ∧ deIntInit (V.ar prec) (V.fns prec) p.h p.lam p.n p.err c.m = .ok de ∧
        deIntegralsPrecomp (V.ar prec) (V.tests prec) (c.n + 3) ye.u ye.n1 (c.n - 2) c de flag (decide (1000 < prec) && decide (5 < c.n - 2)) = .ok r ∧
        edgeFactors (V.ar prec) c ye.ba2 ye.ab ye.c (fun i => if i < c.g then de.err (r i) else r i) = .ok (I' k) := by
    intro ls
    induction ls with
    | nil =>
      intro _ _ I I' de _ h
      simp only [treeDe, Res.ok.injEq] at h
      exact ⟨fun k _ => by rw [h], by simp⟩
    | cons l ls ih =>
      intro hnd hQ I I' de hde h
      unfold treeDe at h
      cases hl : data[l]? with
      | none => rw [hl] at h; cases h
      | some ye =>
      rw [hl] at h
      simp only [Res.bind_eq_ok] at h
      obtain ⟨p, h1, ⟨de1, row⟩, h2, h3⟩ := h
      obtain ⟨hln, hnd'⟩ := List.nodup_cons.1 hnd
      obtain ⟨hQl, hQ'⟩ := List.pairwise_cons.1 hQ
      unfold integralsEdgeDe at h2
      simp only [Res.bind_eq_ok] at h2
      obtain ⟨de1', h4, r, h5, row', h6, h7⟩ := h2
      obtain ⟨rfl, rfl⟩ := Prod.mk.inj (Res.ok.inj h7)
      have hinv : ∃ (yj : YData A) (j : Nat) (p : DePar A), (j = l ∨ Q j l) ∧ (∀ l ∈ ls, Q j l) ∧ data[j]? = some yj ∧ V.dePar (pointsOf c.n yj) (c.n - 1) c.j1 c.m prec = .ok p ∧
          deIntInit (V.ar prec) (V.fns prec) p.h p.lam p.n p.err c.m = .ok de1' := by
        unfold deScheme at h4
        split at h4
        · rename_i hc
          rw [Bool.and_eq_true] at hc
          unfold deParIf at h1
          rw [if_pos hc.1] at h1
          exact ⟨ye, l, p, .inl rfl, hQl, hl, h1, h4⟩
        · rename_i hc
          obtain rfl := Res.ok.inj h4
          rcases hde with hde | ⟨yj, j, q, q1, q2⟩
          · exfalso
            apply hc
            rw [hde]
            simp [deReplace]
          · exact ⟨yj, j, q, .inr (q1 l List.mem_cons_self), fun l' hl' => q1 l' (List.mem_cons_of_mem _ hl'), q2⟩
      obtain ⟨yj, j, q, q1, q2, q3⟩ := hinv
      obtain ⟨k1, k2⟩ := ih hnd' hQ' _ _ _ (Or.inr ⟨yj, j, q, q2, q3⟩) h3
      refine ⟨fun k hk => ?_, fun k hk => ?_⟩
      · rw [k1 k fun h => hk (List.mem_cons_of_mem _ h)]
        exact if_neg fun h : k = l => hk (h ▸ List.mem_cons_self)
      · rcases List.mem_cons.1 hk with rfl | hk
        · refine ⟨ye, yj, j, q, de1', r, hl, q1, q3.1, q3.2.1, q3.2.2, h5, ?_⟩
          rw [k1 k hln, if_pos rfl]
          exact h6
        · exact k2 k hk
  exact gen ks hnd hQ I I' de0 (Or.inl h0) h

/-- the radius of `de_params` is not negative -/
theorem deParams_nonneg {lam : ℝ} (hl : 0 < lam) (hl2 : lam ≤ Real.pi / 2) {m2 : ℝ → ℝ} (h2 : ∀ r, 0 ≤ m2 r) {u : List ℂ} {j m prec : Nat} (hm : 2 ≤ m) (hj : j < m) {o : DeOut} (hp : 1 ≤ prec) (h : deParams lam m2 u j m prec = .ok o) :
    0 ≤ o.e := by
  obtain ⟨-, k2, k3, k4, -, k6⟩ := deParams_ok h
  obtain ⟨s1, s2, -⟩ := C54_strip hl hl2 k2
  have hpi := Real.pi_gt_d2
  have hL := deL0_nonneg hm hl hl2 s1 (by linarith)
  have hlog : 0 < Real.log 2 := Real.log_pos one_lt_two
  have hpR : (1 : ℝ) ≤ prec := by exact_mod_cast hp
  have hh : 0 < o.h := by
    rw [k3]
    unfold deStep1
    positivity
  have hmR : (0 : ℝ) < m := by exact_mod_cast (by omega : 0 < m)
  have hjR : (0 : ℝ) < m - j := by
    have : (j : ℝ) < m := by exact_mod_cast hj
    linarith
  have hcos : 0 < Real.cos o.r := Real.cos_pos_of_mem_Ioo ⟨by linarith, by linarith⟩
  have hsin : 0 < Real.sin o.r := Real.sin_pos_of_pos_of_lt_pi s1 (by linarith)
  have hy0 : 0 ≤ Real.cos (lam * Real.sin o.r) := by
    refine Real.cos_nonneg_of_neg_pi_div_two_le_of_le ?_ ?_
    · have : 0 ≤ lam * Real.sin o.r := by positivity
      linarith
    · nlinarith [Real.sin_le_one o.r]
  have hm1 : 0 ≤ deConstantM1 u m := by
    unfold deConstantM1
    refine inv_nonneg.2 (Real.rpow_nonneg (List.prod_nonneg ?_) _)
    intro a ha
    obtain ⟨x, -, rfl⟩ := List.mem_map.1 ha
    split
    · exact abs_nonneg _
    · exact norm_nonneg _
  rw [k6]
  unfold deError deErrorT deErrorQ
  refine add_nonneg (by positivity) (div_nonneg (mul_nonneg (h2 _) ?_) ?_)
  · unfold deConstantB
    dsimp only
    have hxr : 0 ≤ Real.cos o.r * Real.sqrt (Real.pi / 2 / (lam * Real.sin o.r) - 1) := by positivity
    have hsh := Real.sinh_nonneg_iff.2 hxr
    have q1 := Real.rpow_nonneg hxr (2 * (m - j) / m : ℝ)
    have q2 := Real.rpow_nonneg hy0 (2 * (m - j) / m : ℝ)
    have q3 := Real.rpow_nonneg hsh (2 * (m - j) / m : ℝ)
    positivity
  · have : 0 ≤ 2 * (Real.pi * o.r) / o.h := by positivity
    linarith [Real.add_one_le_exp (2 * (Real.pi * o.r) / o.h)]

variable {sort : List (Edge ℝ) → List (Edge ℝ)} {ord : List (Edge ℝ) → List Nat}

/-- the tree of the double-exponential rule: its edges, their parameters, its data -/
theorem de_tree (hs : SortsByR sort) {lam : ℝ} (hlam : 0 < lam) {m : Nat} (hm : 2 ≤ m) (hn : 3 ≤ n) (hx : InjOn x (Iio n)) {N : Nat} (hN : N < n) :
    ∃ (tr : Tree ℝ) (data : List (YData (Set ℂ))), spanningTreeOf (exactCOps lam) (WOps.ofOrder (-1)) sort x (treeInit (WOps.ofOrder (-1)) N) n .de = .ok tr ∧
      treeYdataInit setArith sndTests (fun k => {x k}) n m tr.e = .ok data ∧ (∀ ed ∈ tr.e, ed.a < n ∧ ed.b < n ∧ ed.a ≠ ed.b ∧ 0 < ed.r ∧ IsLeastIn ed.r (edgeHs lam x n ed.a ed.b)) ∧ FreeEdges x n tr.e := by
  have hN' : (treeInit (WOps.ofOrder (-1 : ℝ)) N).n < n ∨ (treeInit (WOps.ofOrder (-1 : ℝ)) N).n = 0 := .inl hN
  obtain ⟨tr, e1, hlen, hb⟩ := C46_no_third_point hs hlam.ne' .de (treeInit (WOps.ofOrder (-1)) N) n hN' hx
  have e1' := e1
  unfold spanningTreeOf at e1'
  obtain ⟨t1, q1, -, g0, g1, hr⟩ := C09_grows_as_tree (WOps.ofOrder (-1)) sort hs.perm _ (treeInit (WOps.ofOrder (-1)) N) n hN'
  obtain rfl := Res.ok.inj (e1'.symm.trans q1)
  have hes : ∀ ed ∈ tr.e, ed.a < n ∧ ed.b < n ∧ ed.a ≠ ed.b := by
    intro ed hed
    obtain ⟨k, hk, rfl⟩ := List.getElem_of_mem hed
    have := (g1 k (by rw [Tree.pairs, List.length_map]; exact hk)).1
    exact ⟨(hr _ hed).1, (hr _ hed).2.1, by simpa [Tree.pairs] using this⟩
  have hnz : ∀ y ∈ tr.e, y.r ≠ 0 := fun y hy => selected_ne_zero hlam.ne' .de hx (hr y hy).1 (hr y hy).2.1 (hes y hy).2.2 (hb _ hy) (hr y hy).2.2
  have hleast : ∀ ed ∈ tr.e, IsLeastIn ed.r (edgeHs lam x n ed.a ed.b) := by
    intro ed hed
    rw [(hr ed hed).2.2]
    have := paramEdge_leastH lam hn (i := min ed.a ed.b) (j := max ed.a ed.b) x
    rcases le_total ed.a ed.b with h | h
    · rw [min_eq_left h, max_eq_right h] at this ⊢
      exact this
    · rw [min_eq_right h, max_eq_left h] at this ⊢
      rw [edgeHs_comm lam x n ed.a ed.b]
      exact this
  have hpos : ∀ ed ∈ tr.e, 0 < ed.r := by
    intro ed hed
    refine lt_of_le_of_ne ?_ (hnz ed hed).symm
    obtain ⟨k, -, e⟩ := List.mem_map.1 (hleast ed hed).1
    rw [← e]
    exact abs_nonneg _
  have hdata : ∀ es : List (Edge ℝ), (∀ ed ∈ es, ed.a < n ∧ ed.b < n ∧ ed.a ≠ ed.b) → ∃ ys, treeYdataInit setArith sndTests (fun k => {x k}) n m es = .ok ys := by
    intro es
    induction es with
    | nil => exact fun _ => ⟨[], rfl⟩
    | cons ed es ih =>
      intro h
      obtain ⟨ys, q⟩ := ih fun e he => h e (List.mem_cons_of_mem _ he)
      obtain ⟨q1, q2, q3⟩ := h ed List.mem_cons_self
      rcases C20_edge_data setArith_pt sndTests (x := fun k => {x k}) (x' := x) (fun _ => rfl) q1 q2 q3 (m := m) (by omega) (fun h => q3 (hx q1 q2 h)) with ⟨yd, hyd, -⟩ | ⟨_, s, z, hz, h', h0⟩
      · refine ⟨yd :: ys, ?_⟩
        unfold treeYdataInit
        rw [hyd, Res.ok_bind, q, Res.ok_bind]
      · subst hz
        simp only [sndTests, decide_eq_true_eq, mem_singleton_iff] at h'
        exact absurd h'.symm h0
  obtain ⟨data, hd⟩ := hdata tr.e hes
  exact ⟨tr, data, e1, hd, fun ed hed => ⟨(hes ed hed).1, (hes ed hed).2.1, (hes ed hed).2.2, hpos ed hed, hleast ed hed⟩, fun f hf k hk ha hb' t t1 t2 e => hb f hf ⟨k, hk, ha, hb', t, t1, t2, e⟩⟩

/-- The integrals of C85, at the level of the integration of the tree: no bound on the precision. -/
theorem de_stages (hs : SortsByR sort) (ho : OrdersByR ord) {lam : ℝ} (hlam : 0 < lam) (hlam2 : lam ≤ Real.pi / 2) (m2 : ℝ → ℝ) {m n : Nat} (hm : 2 ≤ m) (hn : 3 ≤ n) (hx : InjOn x (Iio n))
    {c : Sec} (hc : secInit m n = .ok c) {flag : Nat} (hroot : RootsDefault flag n) :
    ∃ (tr : Tree ℝ) (data : List (YData (Set ℂ))) (u : Nat → Nat → ℂ), spanningTreeOf (exactCOps lam) (WOps.ofOrder (-1)) sort x (treeInit (WOps.ofOrder (-1)) (treeEdges c).toNat) n .de = .ok tr ∧
      treeYdataInit setArith sndTests (fun k => {x k}) n m tr.e = .ok data ∧ TreeSize m n tr.e.length ∧
      (∀ (k : Nat) (ed : Edge ℝ), tr.e[k]? = some ed → ed.a < n ∧ ed.b < n ∧ ed.a ≠ ed.b ∧ IsBranchM m n x (x ed.a) (x ed.b) (storedY m n data u k)) ∧ FreeEdges x n tr.e ∧ ExactData (fun s z => s = {z}) m n x tr.e data u ∧
      (∀ (prec : Int) (fuel : Nat), 2 ≤ prec → ∃ I, ajIntegrals (idealDe x lam sort ord lam m2) fuel c.shape flag prec .de tr.e data = .ok I) ∧
      ∀ (k r i j : Nat) (ed : Edge ℝ), tr.e[k]? = some ed → r < c.shape.g → diffOf c.shape.ni c.shape.j1 r = (i, j) →
        ∃ K : ℝ, ∀ (prec : Int) (fuel : Nat) (I : Nat → Nat → Set ℂ), 2 ≤ prec → ajIntegrals (idealDe x lam sort ord lam m2) fuel c.shape flag prec .de tr.e data = .ok I →
          (∀ w ∈ I k r, ‖w - cycleIntM m (x ed.a) (x ed.b) i j (storedY m n data u k) 0‖ ≤ K * 2 ^ (-((m - j) / (m - 1) * prec : ℝ))) ∧ ((∀ ρ, 0 ≤ m2 ρ) → (I k r).Nonempty) := by
  have hn2 : (2 : Int) ≤ n := by omega
  obtain ⟨_, e1, e2, _⟩ := secInit_fields hc hn2
  have hcn : c.shape.n = n := by unfold Sec.shape; simp [e2]
  have hcm : c.shape.m = m := by unfold Sec.shape; simp [e1]
  have hG := shape_good hn2 hc
  have hec := C03_tree_size (by omega) hc
  have hlt := edgeCount_lt (edgeCount_of_size hec)
  obtain ⟨tr, data, ht, hd, hes, hfree⟩ := de_tree hs hlam hm hn hx hlt
  have hab : ∀ ed ∈ tr.e, x ed.a ≠ x ed.b := fun ed hed h => (hes ed hed).2.2.1 (hx (hes ed hed).1 (hes ed hed).2.1 h)
  obtain ⟨hdl, hget⟩ := treeYdataInit_get hd
  obtain ⟨u, hu⟩ := exactData_exists setArith_pt sndTests (x := fun k => {x k}) (x' := x) (fun _ => rfl) (by omega) (fun ed hed => ⟨(hes ed hed).1, (hes ed hed).2.1, hab ed hed⟩) hd
  have hbr := branches_of (by omega : 0 < m) hab hfree hdl hu
  have hlen : tr.e.length = (treeEdges c).toNat := by
    obtain ⟨t1, q1, q2, -⟩ := C46_no_third_point hs hlam.ne' .de (treeInit (WOps.ofOrder (-1)) (treeEdges c).toNat) n (.inl hlt) hx
    obtain rfl := Res.ok.inj (ht.symm.trans q1)
    exact q2
  refine ⟨tr, data, u, ht, hd, by rw [hlen]; exact hec, fun k ed hk => ?_, hfree, hu, fun prec fuel hip => ?_, fun k r i j ed hk hr hij => ?_⟩
  · have hed := List.mem_of_getElem? hk
    exact ⟨(hes ed hed).1, (hes ed hed).2.1, (hes ed hed).2.2.1, (hbr k ed hk).1⟩
  · refine treeDe_total (idealDe_exact hs.perm ho.perm) hlam hlam2 (by omega) hc hroot (by omega) (data := data) (ord tr.e) ⟨0, {0}, fun _ => {0}, fun _ => {0}, fun _ => {0}, id⟩ (fun _ _ => {0}) (fun k hk => ?_) (Or.inl rfl)
    have hk' : k < tr.e.length := by simpa using (ho.perm tr.e).mem_iff.1 hk
    obtain ⟨yd, hy⟩ : ∃ yd, data[k]? = some yd := ⟨_, List.getElem?_eq_getElem (by omega)⟩
    obtain ⟨hyn, hyu, hE⟩ := hu k _ yd (List.getElem?_eq_getElem hk') hy
    exact ⟨yd, hy, hyn, hE.n1_le, u k, hyu, edgeData_free hE (hfree _ (List.getElem_mem hk'))⟩
  have hed := List.mem_of_getElem? hk
  have hkl := (List.getElem?_eq_some_iff.1 hk).1
  obtain ⟨yd, hyd⟩ : ∃ yd, data[k]? = some yd := ⟨_, List.getElem?_eq_getElem (by omega)⟩
  obtain ⟨hyn, hyu, hE⟩ := hu k ed yd hk hyd
  have hfr := edgeData_free hE (hfree ed hed)
  have hj1 : 1 ≤ c.shape.j1 := hG.j1
  have hj1m : c.shape.j1 < m := by
    have h0 := hG.len
    rcases Nat.eq_zero_or_pos c.shape.ni.length with h | h
    · rw [List.length_eq_zero_iff] at h
      have := hG.sum
      rw [h] at this
      simp at this
      omega
    · omega
  obtain ⟨C, hC0, hC⟩ := row_near hG (u k (n - 2)) (u k (n - 1)) (u k n) hr hij
  -- the constants
  have hK : ∀ k' r' : Nat, ∃ K : ℝ, 0 ≤ K ∧ ∀ (g : Edge ℝ) (yj : YData (Set ℂ)) (i' : Nat), tr.e[k']? = some g → data[k']? = some yj → g.r ≤ ed.r → r' < c.shape.g → diffOf c.shape.ni c.shape.j1 r' = (i', j) →
      ∀ (prec : Nat) (o : DeOut), 1 ≤ prec → deParams lam m2 ((List.range (n - 2)).map (u k')) c.shape.j1 m prec = .ok o →
        ‖trapSum m yd.n1 (n - 2) (u k) o.l i' j o.h o.n - edgeIntegral m yd.n1 (n - 2) (u k) i' j‖ ≤ K * deRate m j prec ∧ o.e ≤ K * deRate m j prec := by
    intro k' r'
    by_cases hcond : ∃ (g : Edge ℝ) (yj : YData (Set ℂ)) (i' : Nat), tr.e[k']? = some g ∧ data[k']? = some yj ∧ g.r ≤ ed.r ∧ r' < c.shape.g ∧ diffOf c.shape.ni c.shape.j1 r' = (i', j)
    · obtain ⟨g, yj, i', c1, c2, c3, c4, c5⟩ := hcond
      have hgm := List.mem_of_getElem? c1
      obtain ⟨-, -, hE'⟩ := hu k' g yj c1 c2
      obtain ⟨kk, nij, i'', g1, g2, g3, g4⟩ := diffOf_spec c.shape.ni c.shape.j1 r' (by rw [hG.sum]; exact c4)
      have hexp := diffOf_exp hG c4
      rw [c5] at g4 hexp
      obtain ⟨-, hjk⟩ := Prod.mk.inj g4
      obtain ⟨K, hK0, hK⟩ := de_serve hlam hlam2 m2 hm (hab ed hed) (hab g hgm) (hes g hgm).2.2.2.2 (hes g hgm).2.2.2.1 (hes ed hed).2.2.2.2 c3 hE' hE hfr (i := i') (j := j) (j1 := c.shape.j1) hj1 (by omega) (by rw [← hcm]; exact hexp.2)
      refine ⟨K, hK0, fun g' yj' i1 b1 b2 b3 b4 b5 prec o hp hop => ?_⟩
      rw [c5] at b5
      obtain ⟨rfl, -⟩ := Prod.mk.inj b5
      exact hK prec o hp hop
    · exact ⟨0, le_rfl, fun g yj i' b1 b2 b3 b4 b5 => absurd ⟨g, yj, i', b1, b2, b3, b4, b5⟩ hcond⟩
  choose K hK0 hK using hK
  set KK : ℝ := ∑ k' ∈ Finset.range tr.e.length, ∑ r' ∈ Finset.range c.shape.g, K k' r' with hKK
  have hKle : ∀ k' r', k' < tr.e.length → r' < c.shape.g → K k' r' ≤ KK := fun k' r' b1 b2 =>
    (Finset.single_le_sum (f := fun r' => K k' r') (fun _ _ => hK0 _ _) (Finset.mem_range.2 b2)).trans
      (Finset.single_le_sum (f := fun k' => ∑ r' ∈ Finset.range c.shape.g, K k' r') (fun _ _ => Finset.sum_nonneg fun _ _ => hK0 _ _) (Finset.mem_range.2 b1))
  have hKK0 : 0 ≤ KK := Finset.sum_nonneg fun _ _ => Finset.sum_nonneg fun _ _ => hK0 _ _
  refine ⟨C * (2 * KK), fun prec fuel I hip hint => ?_⟩
  have hnd : (ord tr.e).Nodup := (ho.perm tr.e).nodup_iff.2 List.nodup_range
  have hko : k ∈ ord tr.e := (ho.perm tr.e).mem_iff.2 (List.mem_range.2 hkl)
  obtain ⟨-, hrows⟩ := treeDe_rows_before (V := idealDe x lam sort ord lam m2) hnd (ho.sorted tr.e) rfl hint
  obtain ⟨ye, yj, k', p, de, rr, b1, b2, b3, b4, b5, b6, b7⟩ := hrows k hko
  obtain rfl := Option.some.inj (hyd.symm.trans b1)
  obtain ⟨g, hgk, -⟩ := hget k' yj b3
  have hgr : g.r ≤ ed.r := by
    rcases b2 with rfl | b2
    · rw [Option.some.inj (hgk.symm.trans hk)]
    · exact b2 g ed hgk hk
  have hk'l := (List.getElem?_eq_some_iff.1 hgk).1
  obtain ⟨-, hyu', -⟩ := hu k' g yj hgk b3
  -- the parameters
  obtain ⟨o, ho1, rfl⟩ : ∃ o, deParams lam m2 ((List.range (n - 2)).map (u k')) c.shape.j1 m prec.toNat = .ok o ∧ p = ⟨o.n, {(o.h : ℂ)}, {(o.l : ℂ)}, growBall o.e⟩ := by
    have b4' : setDePar lam m2 (pointsOf c.shape.n yj) c.shape.j1 c.shape.m prec = .ok p := b4
    unfold setDePar at b4'
    rw [Res.bind_eq_ok] at b4'
    obtain ⟨o, o1, o2⟩ := b4'
    refine ⟨o, ?_, (Res.ok.inj o2).symm⟩
    rw [hcn, hcm] at o1
    unfold pointsOf at o1
    rw [List.map_map] at o1
    rw [← o1]
    congr 2
    funext i
    rw [Function.comp, hyu' i, pick_singleton]
  have hp1 : 1 ≤ prec.toNat := by omega
  have hon := deParams_pos hlam hlam2 hm hp1 ho1
  -- the sums
  have b5' : deIntInit setArith setFns {(o.h : ℂ)} {(o.l : ℂ)} o.n (growBall o.e) c.shape.m = .ok de := b5
  have b6' : deIntegralsPrecomp setArith sndTests (c.shape.n + 3) yd.u yd.n1 (c.shape.n - 2) c.shape de flag (decide (1000 < prec) && decide (5 < c.shape.n - 2)) = .ok rr := b6
  have b7' : edgeFactors setArith c.shape yd.ba2 yd.ab yd.c (fun i => if i < c.shape.g then de.err (rr i) else rr i) = .ok (I k) := b7
  rw [hcn] at b6'
  obtain ⟨de', rr', s1, s2, s3, s4⟩ := de_sums setArith_pt setFns_pt sndTests hn2 hc (sz := n + 3) (d1 := yd.n1) (d := n - 2) (by omega) hE.n1_le (u := yd.u) (u' := u k) hyu hfr
    (p := ⟨o.n, {(o.h : ℂ)}, {(o.l : ℂ)}, growBall o.e⟩) hon (h' := o.h) (lam' := o.l) rfl rfl (flag := flag) (big := decide (1000 < prec) && decide (5 < n - 2)) (by
      rcases hroot with h | h | ⟨h, h7⟩
      · exact Or.inl h
      · exact Or.inr (Or.inl (Or.inl h))
      · exact Or.inr (Or.inl (Or.inr ⟨h, by rw [Bool.and_eq_false_iff]; exact Or.inr (decide_eq_false (by omega))⟩)))
  obtain rfl := Res.ok.inj (b5'.symm.trans s1)
  obtain rfl := Res.ok.inj (b6'.symm.trans s2)
  rw [deIntInit_err b5'] at b7'
  have t1 : yd.ba2 = {u k (n - 2)} := by unfold YData.ba2; rw [hyn, hyu]
  have t2 : yd.ab = {u k (n - 1)} := by unfold YData.ab; rw [hyn, hyu]
  have t3 : yd.c = {u k n} := by unfold YData.c; rw [hyn, hyu]
  choose zz hzz using s3
  let z : Nat → ℂ := fun l => if l < c.shape.g then edgeIntegral m yd.n1 (n - 2) (u k) (diffOf c.shape.ni c.shape.j1 l).1 (diffOf c.shape.ni c.shape.j1 l).2 else 0
  let D : Nat → ℝ := fun l => max 0 o.e + ‖zz l - z l‖
  have hD0 : ∀ l, 0 ≤ D l := fun l => add_nonneg (le_max_left _ _) (norm_nonneg _)
  have hrate := (deRate_pos m j (prec.toNat : ℝ)).le
  have hipR : ((prec.toNat : Nat) : ℝ) = (prec : ℝ) := by
    have : ((prec.toNat : Nat) : Int) = prec := Int.toNat_of_nonneg (by omega)
    exact_mod_cast this
  obtain ⟨y', y1, y2, y3⟩ := hC (fun i => if i < c.shape.g then growBall o.e (rr i) else rr i) (I k) z D (2 * KK * deRate m j (prec.toNat : ℝ)) hD0 (fun l w hw => by
      have : ‖w - zz l‖ ≤ max 0 o.e := by
        split at hw
        · obtain ⟨z1, hz1, hz2⟩ := hw
          rw [hzz l, mem_singleton_iff] at hz1
          rw [hz1, norm_sub_rev] at hz2
          exact hz2.trans (le_max_right _ _)
        · rw [hzz l, mem_singleton_iff] at hw
          rw [hw, sub_self, norm_zero]
          exact le_max_left _ _
      calc ‖w - z l‖ = ‖(w - zz l) + (zz l - z l)‖ := by congr 1; ring
        _ ≤ _ := (norm_add_le _ _).trans (add_le_add this le_rfl)) (fun l hl hlj => by
      have hpair : diffOf c.shape.ni c.shape.j1 l = ((diffOf c.shape.ni c.shape.j1 l).1, j) := by rw [← hlj]
      obtain ⟨w1, w2⟩ := hK k' l g yj _ hgk b3 hgr hl hpair _ o hp1 ho1
      have hle := mul_le_mul_of_nonneg_right (hKle k' l hk'l hl) hrate
      have hzl : zz l = trapSum m yd.n1 (n - 2) (u k) o.l (diffOf c.shape.ni c.shape.j1 l).1 j o.h o.n := by
        have := s4 l _ _ hl hpair
        rw [hzz l, hcm] at this
        exact singleton_injective this
      have hz' : z l = edgeIntegral m yd.n1 (n - 2) (u k) (diffOf c.shape.ni c.shape.j1 l).1 j := by
        simp only [z, if_pos hl, hlj]
      have h0 : 0 ≤ KK * deRate m j (prec.toNat : ℝ) := mul_nonneg hKK0 hrate
      show max 0 o.e + ‖zz l - z l‖ ≤ _
      rw [hzl, hz']
      have := max_le h0 (w2.trans hle)
      linarith) (by rw [← t1, ← t2, ← t3]; exact b7')
  obtain ⟨row', w1, w2⟩ := row_of_integrals setArith_encloses (by omega) hc (hab ed hed) hyn hfr (fun i => by rw [hyu i]; exact mem_singleton _) hE (v := fun l => Metric.closedBall (z l) (D l)) (row := y') (z := z)
    (fun l => Metric.mem_closedBall_self (hD0 l)) (fun l i' j' hl hlj => by simp only [z, if_pos hl, hlj]) (by rw [t1, t2, t3]; exact y1)
  have hY : storedY m n data u k = branchY m n yd.n1 (u k) := by
    unfold storedY
    rw [hyd]
  refine ⟨fun w hw => ?_, fun hm2 => ?_⟩
  · have h1 := y3 w (y2 hw) (row' r) (w1 r)
    rw [w2 r i j hr hij] at h1
    rw [cycleIntM_eq, hY, Nat.zero_mul, pow_zero, inv_one, one_mul, ← hipR]
    refine h1.trans (le_of_eq ?_)
    unfold deRate
    ring
  · obtain ⟨yy, hyy, -⟩ := edgeFactors_spec c.shape 0 0 0 (by have := hG.m; omega) (fun _ => 0) hG.pos hG.sum.le
    have hrel := edgeFactors_rel setArith_nonempty c.shape (ba2 := yd.ba2) (ab := yd.ab) (cab := yd.c) (ba2' := 0) (ab' := 0) (cab' := 0) (by rw [t1]; exact singleton_nonempty _) (by rw [t2]; exact singleton_nonempty _)
      (by rw [t3]; exact singleton_nonempty _) (x := fun i => if i < c.shape.g then growBall o.e (rr i) else rr i) (y := fun _ => 0) (fun l => by
        dsimp only
        split
        · exact ⟨zz l, zz l, by rw [hzz l]; exact mem_singleton _, by rw [sub_self, norm_zero]; exact deParams_nonneg hlam hlam2 hm2 hm hj1m hp1 ho1⟩
        · rw [hzz l]; exact singleton_nonempty _)
    rw [b7', hyy] at hrel
    cases hrel with
    | ok h => exact h r

end Hcp
