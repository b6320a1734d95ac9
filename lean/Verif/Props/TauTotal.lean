import Verif.Props.Accuracy
import Verif.Props.Options
import Verif.Props.ComputeFails
import Verif.Props.RiemannComplex
import Mathlib.Topology.Instances.Matrix

/-!
# C76: `tau` on hyperelliptic curves
-/

namespace Hcp

open Set Spec Filter Topology

variable {C W : Type} {O : MatOps}

/-- matrices of periods of `x^i dx / y`, `i < g`, over `g` sums of elementary closed paths with coefficients `-1`, `0`, `1`, for determinations of `y` on the edges -/
def SignPeriods (n : Nat) (x : Nat → ℂ) (es : List (Edge W)) (g : Nat) (P : Matrix (Fin g) (Fin g) ℂ) : Prop :=
  ∃ (Y : Nat → ℝ → ℂ) (s : Fin g → Nat → ℤ), (∀ (k : Nat) (ed : Edge W), es[k]? = some ed → IsBranchM 2 n x (x ed.a) (x ed.b) (Y k)) ∧ (∀ k e, s k e = 0 ∨ s k e = 1 ∨ s k e = -1) ∧
    ∀ i k, P i k = ∑ e : Fin es.length, (s k e : ℂ) * cycleIntM 2 (x es[e].a) (x es[e].b) i 1 (Y e) 0

/-- The precision is large enough for `tau`: for an invertible matrix `P` of periods, no matrix `M` within the errors of C74 of `P` is singular, and the quotients `M⁻¹ N` are within `ε` of `P⁻¹ Q`.  Nothing in it refers to the program. -/
def TauReady (n : Nat) (x : Nat → ℂ) (es : List (Edge W)) (g : Nat) (prec : Int) (ε : ℝ) : Prop :=
  ∀ P Q, SignPeriods n x es g P → SignPeriods n x es g Q → P.det ≠ 0 → ∀ M N : Matrix (Fin g) (Fin g) ℂ,
    (∀ i k, ‖M i k - P i k‖ ≤ 8 * (i + 1) * es.length * 2 ^ (-prec)) → (∀ i k, ‖N i k - Q i k‖ ≤ 8 * (i + 1) * es.length * 2 ^ (-prec)) →
    M.det ≠ 0 ∧ ∀ i k, ‖(M⁻¹ * N) i k - (P⁻¹ * Q) i k‖ ≤ ε

theorem branch_ne {n : Nat} {x : Nat → ℂ} {ed : Edge W} (hab : x ed.a ≠ x ed.b) (hfree : ∀ k < n, k ≠ ed.a → k ≠ ed.b → ∀ t : ℝ, -1 ≤ t → t ≤ 1 → x k ≠ edgePt (x ed.a) (x ed.b) t) {m : Nat} {Z : ℝ → ℂ} (hm : 0 < m) (hZ : IsBranchM m n x (x ed.a) (x ed.b) Z) :
    ∀ t ∈ Ioo (-1 : ℝ) 1, Z t ≠ 0 := by
  intro t ht h0
  have h := hZ.2 t (Ioo_subset_Icc_self ht)
  rw [h0, zero_pow hm.ne', eq_comm, Finset.prod_eq_zero_iff] at h
  obtain ⟨k, hk, h⟩ := h
  have hba : x ed.b - x ed.a ≠ 0 := sub_ne_zero.2 hab.symm
  rw [sub_eq_zero] at h
  by_cases ka : k = ed.a
  · rw [ka] at h
    have : (x ed.b - x ed.a) * (t + 1) = 0 := by
      have h' := h
      unfold edgePt at h'
      linear_combination 2 * h'
    rcases mul_eq_zero.1 this with h1 | h1
    · exact hba h1
    · have : t + 1 = 0 := by exact_mod_cast h1
      linarith [ht.1]
  by_cases kb : k = ed.b
  · rw [kb] at h
    have : (x ed.b - x ed.a) * (t - 1) = 0 := by
      have h' := h
      unfold edgePt at h'
      linear_combination 2 * h'
    rcases mul_eq_zero.1 this with h1 | h1
    · exact hba h1
    · have : t - 1 = 0 := by exact_mod_cast h1
      linarith [ht.2]
  exact hfree k (Finset.mem_range.1 hk) ka kb t ht.1.le ht.2.le h.symm

theorem signPeriods_finite {n : Nat} {x : Nat → ℂ} {es : List (Edge W)} (hab : ∀ ed ∈ es, x ed.a ≠ x ed.b) (hfree : FreeEdges x n es) (g : Nat) : {P | SignPeriods n x es g P}.Finite := by
  by_cases hY0 : ∃ Y0 : Nat → ℝ → ℂ, ∀ (k : Nat) (ed : Edge W), es[k]? = some ed → IsBranchM 2 n x (x ed.a) (x ed.b) (Y0 k)
  swap
  · convert finite_empty
    refine eq_empty_iff_forall_notMem.2 fun P hP => ?_
    obtain ⟨Y, s, h, -⟩ := hP
    exact hY0 ⟨Y, h⟩
  obtain ⟨Y0, h0⟩ := hY0
  refine (finite_range fun S : Fin g → Fin es.length → Fin 3 => (Matrix.of fun i k => ∑ e : Fin es.length, (((S k e).val : ℂ) - 1) * cycleIntM 2 (x es[e].a) (x es[e].b) i 1 (Y0 e) 0 : Matrix (Fin g) (Fin g) ℂ)).subset ?_
  rintro P ⟨Y, s, h1, h2, h3⟩
  have hz : ∀ e : Fin es.length, ∃ z : ℤ, (z = 1 ∨ z = -1) ∧ ∀ i : Nat, cycleIntM 2 (x es[e].a) (x es[e].b) i 1 (Y e) 0 = z * cycleIntM 2 (x es[e].a) (x es[e].b) i 1 (Y0 e) 0 := by
    intro e
    have hm : es[e] ∈ es := List.getElem_mem _
    have he : es[e.val]? = some es[e] := List.getElem?_eq_getElem _
    obtain ⟨z, z1, z2⟩ := branch_unique (by norm_num) (h1 e _ he) (h0 e _ he) (branch_ne (hab _ hm) (hfree _ hm) (by norm_num) (h0 e _ he))
    have key : ∀ i : Nat, cycleIntM 2 (x es[e].a) (x es[e].b) i 1 (Y e) 0 = z⁻¹ * cycleIntM 2 (x es[e].a) (x es[e].b) i 1 (Y0 e) 0 := by
      intro i
      have e0 : segIntM (x es[e].a) (x es[e].b) i 1 (fun t => zeta 2 ^ 0 * Y e t) = (z ^ 1)⁻¹ * segIntM (x es[e].a) (x es[e].b) i 1 (fun t => zeta 2 ^ 0 * Y0 e t) := segIntM_of_branch fun t ht => by rw [z2 t ht]; ring
      have e1 : segIntM (x es[e].a) (x es[e].b) i 1 (fun t => zeta 2 ^ (0 + 1) * Y e t) = (z ^ 1)⁻¹ * segIntM (x es[e].a) (x es[e].b) i 1 (fun t => zeta 2 ^ (0 + 1) * Y0 e t) := segIntM_of_branch fun t ht => by rw [z2 t ht]; ring
      unfold cycleIntM
      rw [e0, e1, pow_one, mul_sub]
    rcases sq_eq_sq_iff_eq_or_eq_neg.1 (z1.trans (one_pow 2).symm) with h | h
    · exact ⟨1, Or.inl rfl, fun i => by rw [key, h]; norm_num⟩
    · exact ⟨-1, Or.inr rfl, fun i => by rw [key, h]; norm_num⟩
  choose z hz1 hz2 using hz
  have hS : ∀ k e, ∃ f : Fin 3, (f.val : ℤ) - 1 = s k e.val * z e := by
    intro k e
    rcases h2 k e with h | h | h <;> rcases hz1 e with h' | h' <;> rw [h, h']
    exacts [⟨1, rfl⟩, ⟨1, rfl⟩, ⟨2, rfl⟩, ⟨0, rfl⟩, ⟨0, rfl⟩, ⟨2, rfl⟩]
  choose S hS using hS
  refine ⟨S, ?_⟩
  ext i k
  show ∑ e : Fin es.length, (((S k e).val : ℂ) - 1) * cycleIntM 2 (x es[e].a) (x es[e].b) i 1 (Y0 e) 0 = P i k
  rw [h3]
  refine Finset.sum_congr rfl fun e _ => ?_
  rw [hz2 e, ← mul_assoc]
  congr 1
  have := congrArg (Int.cast : ℤ → ℂ) (hS k e)
  push_cast at this
  exact this

theorem quot_close {g : Nat} {P Q : Matrix (Fin g) (Fin g) ℂ} (hP : P.det ≠ 0) {ε : ℝ} (hε : 0 < ε) :
    ∃ δ > 0, ∀ M N : Matrix (Fin g) (Fin g) ℂ, (∀ i k, ‖M i k - P i k‖ ≤ δ) → (∀ i k, ‖N i k - Q i k‖ ≤ δ) → M.det ≠ 0 ∧ ∀ i k, ‖(M⁻¹ * N) i k - (P⁻¹ * Q) i k‖ ≤ ε := by
  have hdet : ContinuousAt (fun p : Matrix (Fin g) (Fin g) ℂ × Matrix (Fin g) (Fin g) ℂ => p.1.det) (P, Q) := (continuous_fst.matrix_det).continuousAt
  have h1 : ∀ᶠ p in 𝓝 (P, Q), p.1.det ≠ 0 := hdet.eventually_ne hP
  have hc : ContinuousAt (fun p : Matrix (Fin g) (Fin g) ℂ × Matrix (Fin g) (Fin g) ℂ => (p.1.det)⁻¹ • p.1.adjugate * p.2) (P, Q) := by
    refine ContinuousAt.mul (ContinuousAt.smul (hdet.inv₀ hP) (continuous_fst.matrix_adjugate).continuousAt) continuous_snd.continuousAt
  have h2 : ∀ᶠ p in 𝓝 (P, Q), ∀ i k, ‖((p.1.det)⁻¹ • p.1.adjugate * p.2) i k - ((P.det)⁻¹ • P.adjugate * Q) i k‖ < ε := by
    refine eventually_all.2 fun i => eventually_all.2 fun k => ?_
    have hk : Tendsto (fun p : Matrix (Fin g) (Fin g) ℂ × Matrix (Fin g) (Fin g) ℂ => ((p.1.det)⁻¹ • p.1.adjugate * p.2) i k) (𝓝 (P, Q)) (𝓝 (((P.det)⁻¹ • P.adjugate * Q) i k)) :=
      ((continuous_apply_apply i k).tendsto _).comp hc
    exact (hk.eventually (Metric.ball_mem_nhds _ hε)).mono fun p hp => by simpa [dist_eq_norm] using hp
  obtain ⟨δ, hδ, h⟩ := Metric.eventually_nhds_iff.1 (show ∀ᶠ p in 𝓝 ((P, Q) : (Fin g → Fin g → ℂ) × (Fin g → Fin g → ℂ)), (Matrix.det (p.1 : Matrix (Fin g) (Fin g) ℂ) ≠ 0 ∧ ∀ i k, ‖((Matrix.det (p.1 : Matrix (Fin g) (Fin g) ℂ))⁻¹ • Matrix.adjugate (p.1 : Matrix (Fin g) (Fin g) ℂ) * (p.2 : Matrix (Fin g) (Fin g) ℂ)) i k - ((P.det)⁻¹ • P.adjugate * Q) i k‖ < ε) from h1.and h2)
  refine ⟨δ / 2, by linarith, fun M N hM hN => ?_⟩
  have hd : dist ((M, N) : (Fin g → Fin g → ℂ) × (Fin g → Fin g → ℂ)) (P, Q) < δ := by
    refine lt_of_le_of_lt ?_ (half_lt_self hδ)
    rw [Prod.dist_eq]
    refine max_le ((dist_pi_le_iff (by linarith)).2 fun i => (dist_pi_le_iff (by linarith)).2 fun k => ?_) ((dist_pi_le_iff (by linarith)).2 fun i => (dist_pi_le_iff (by linarith)).2 fun k => ?_)
    · rw [dist_eq_norm]; exact hM i k
    · rw [dist_eq_norm]; exact hN i k
  obtain ⟨g1, g2⟩ := h hd
  refine ⟨g1, fun i k => ?_⟩
  have hi : ∀ A : Matrix (Fin g) (Fin g) ℂ, A⁻¹ = (A.det)⁻¹ • A.adjugate := fun A => by rw [Matrix.inv_def, Ring.inverse_eq_inv']
  rw [hi M, hi P]
  exact (g2 i k).le

/-- **C76 (precisions large enough exist).** -/
theorem C76_ready {n : Nat} {x : Nat → ℂ} {es : List (Edge W)} (hab : ∀ ed ∈ es, x ed.a ≠ x ed.b) (hfree : FreeEdges x n es) (g : Nat) {ε : ℝ} (hε : 0 < ε) : ∃ P0 : Nat, ∀ prec : Int, P0 ≤ prec → TauReady n x es g prec ε := by
  have hfin := signPeriods_finite hab hfree g
  have h2 : Tendsto (fun p : Nat => 8 * ((g : ℝ) + 1) * es.length * (1 / 2) ^ p) atTop (𝓝 0) := by
    have := (tendsto_pow_atTop_nhds_zero_of_lt_one (r := (1 / 2 : ℝ)) (by norm_num) (by norm_num)).const_mul (8 * ((g : ℝ) + 1) * es.length)
    rwa [mul_zero] at this
  have h3 : ∀ᶠ p : Nat in atTop, ∀ PQ ∈ {P | SignPeriods n x es g P} ×ˢ {P | SignPeriods n x es g P}, PQ.1.det ≠ 0 → ∃ δ > 0, 8 * ((g : ℝ) + 1) * es.length * (1 / 2) ^ p < δ ∧
      ∀ M N : Matrix (Fin g) (Fin g) ℂ, (∀ i k, ‖M i k - PQ.1 i k‖ ≤ δ) → (∀ i k, ‖N i k - PQ.2 i k‖ ≤ δ) → M.det ≠ 0 ∧ ∀ i k, ‖(M⁻¹ * N) i k - (PQ.1⁻¹ * PQ.2) i k‖ ≤ ε := by
    refine (eventually_all_finite (hfin.prod hfin)).2 fun PQ _ => ?_
    by_cases hd : PQ.1.det ≠ 0
    · obtain ⟨δ, hδ, h⟩ := quot_close (Q := PQ.2) hd hε
      exact (h2.eventually (gt_mem_nhds hδ)).mono fun p hp _ => ⟨δ, hδ, hp, h⟩
    · exact Eventually.of_forall fun p h => absurd h hd
  obtain ⟨P0, hP0⟩ := eventually_atTop.1 h3
  refine ⟨P0, fun prec hp P Q hP hQ hd M N hM hN => ?_⟩
  obtain ⟨p, rfl⟩ := Int.eq_ofNat_of_zero_le (show 0 ≤ prec by omega)
  obtain ⟨δ, -, d1, d2⟩ := hP0 p (by omega) (P, Q) ⟨hP, hQ⟩ hd
  have hle : ∀ i : Fin g, 8 * ((i : Nat) + 1 : ℝ) * es.length * 2 ^ (-(p : Int)) ≤ δ := by
    intro i
    refine le_trans ?_ d1.le
    rw [zpow_neg, zpow_natCast, one_div, inv_pow]
    have : ((i : Nat) : ℝ) ≤ g := by exact_mod_cast i.2.le
    gcongr
  exact d2 M N (fun i k => (hM i k).trans (hle i)) fun i k => (hN i k).trans (hle i)

/-- coefficient of the edge `e` in a loop -/
def coefAt : List Gamma → Nat → Int
  | [], _ => 0
  | t :: l, e => if t.index = e then t.coeff else coefAt l e

theorem coefAt_zero {l : List Gamma} {e : Nat} (h : e ∉ l.map fun t => t.index) : coefAt l e = 0 := by
  induction l with
  | nil => rfl
  | cons t l ih =>
    rw [List.map_cons, List.mem_cons, not_or] at h
    rw [coefAt, if_neg (Ne.symm h.1), ih h.2]

theorem coefAt_sign {l : List Gamma} (h : ∀ t ∈ l, t.coeff = 1 ∨ t.coeff = -1) (e : Nat) : coefAt l e = 0 ∨ coefAt l e = 1 ∨ coefAt l e = -1 := by
  induction l with
  | nil => exact Or.inl rfl
  | cons t l ih =>
    rw [coefAt]
    split
    · exact Or.inr (h t (List.mem_cons_self ..))
    · exact ih fun t ht => h t (List.mem_cons_of_mem _ ht)

theorem loop_sum {l : List Gamma} {len : Nat} (hnd : (l.map fun t => t.index).Nodup) (hlt : ∀ t ∈ l, t.index < len) (F : Nat → ℂ) :
    (l.map fun t => (t.coeff : ℂ) * F t.index).sum = ∑ e : Fin len, (coefAt l e : ℂ) * F e := by
  induction l with
  | nil => simp [coefAt]
  | cons t l ih =>
    rw [List.map_cons, List.nodup_cons] at hnd
    rw [List.map_cons, List.sum_cons, ih hnd.2 fun t ht => hlt t (List.mem_cons_of_mem _ ht)]
    have ht := hlt t (List.mem_cons_self ..)
    have : ∀ e : Fin len, (coefAt (t :: l) e : ℂ) * F e = (if e = ⟨t.index, ht⟩ then (t.coeff : ℂ) * F t.index else 0) + (coefAt l e : ℂ) * F e := by
      intro e
      rw [coefAt]
      by_cases he : e = ⟨t.index, ht⟩
      · subst he
        rw [if_pos rfl, if_pos rfl, coefAt_zero hnd.1]
        simp
      · rw [if_neg he, if_neg fun h => he (Fin.ext h.symm), zero_add]
    rw [Finset.sum_congr rfl fun e _ => this e, Finset.sum_add_distrib, Finset.sum_ite_eq' Finset.univ, if_pos (Finset.mem_univ _)]

theorem signPeriods_of {A B : Type} {V : AjEnv A B C W O} {R : A → ℂ → Prop} {RC : {n m : Nat} → O.C n m → Matrix (Fin n) (Fin m) ℂ → Prop} {n : Nat} {x : Nat → ℂ} {c : Sec} (hn : 2 ≤ n) (hc : secInit 2 n = .ok c) {out : AjOut A W O c.shape.g} {Y : Nat → ℝ → ℂ} {ca cb : Nat → ℂ} {cc : IMat}
    {Q : Mat (out.tree.e.length * (2 - 1))} (hA : AjRight V R RC 2 n x c out Y ca cb cc Q) {ls : List (List Gamma)} (hl : ls.length = c.shape.g) (hm : ∀ l ∈ ls, l ∈ out.loopA ++ out.loopB) :
    SignPeriods n x out.tree.e c.shape.g (periodsOf 2 x out.tree.e Y c.shape ls) := by
  have hsg := hA.signs (Or.inl rfl)
  have hmem : ∀ k : Fin c.shape.g, ls.getD k [] ∈ out.loopA ++ out.loopB := fun k => by
    have hk : k.val < ls.length := by rw [hl]; exact k.2
    rw [List.getD_eq_getElem _ _ hk]
    exact hm _ (List.getElem_mem hk)
  refine ⟨Y, fun k e => coefAt (ls.getD k []) e, fun k ed h => (hA.branches k ed h).1, fun k e => coefAt_sign (hsg _ (hmem k)) e, fun i k => ?_⟩
  obtain ⟨h1, h2⟩ := hA.basis.terms _ (hmem k)
  have hnd : ((ls.getD k []).map fun t => t.index).Nodup := by
    refine List.Nodup.of_map (fun i => (i, 0)) ?_
    rw [List.map_map]
    refine (congrArg List.Nodup (List.map_congr_left fun t ht => ?_)).mp h2
    have := (h1 t ht).2.2
    simp only [Function.comp, Prod.mk.injEq, true_and]
    omega
  have key := loop_sum hnd (fun t ht => (h1 t ht).2.1) fun e => match out.tree.e[e]? with
    | some ed => cycleIntM 2 (x ed.a) (x ed.b) i 1 (Y e) 0
    | none => 0
  unfold periodsOf
  rw [Matrix.of_apply, diffOf_two (by exact_mod_cast hn) hc i.2]
  unfold loopPeriodM
  refine Eq.trans (congrArg List.sum (List.map_congr_left fun t ht => ?_)) (key.trans (Finset.sum_congr rfl fun e _ => ?_))
  · have : t.shift = 0 := by
      have := (h1 t ht).2.2
      omega
    rw [this]
    rfl
  · rw [List.getElem?_eq_getElem e.2]
    rfl

/-- **C76 (`tau` on hyperelliptic curves with exact branch points).** In the setting of C73, suppose that the edges of the tree meet only at common ends (C64: for real branch points, or when the parameter of the tree is above the bound) and that the precision is large
enough (`GcReady`, `TauReady`) with numbers of nodes which fit a machine integer.  Then `abel_jacobi_compute` without `AJ_NO_TAU` returns: everything it stores is right, integrals and periods are within the bounds of C74, and the ball returned for `tau` contains the
Riemann matrix of the curve in the basis of the loops and is within `ε` of it. -/
theorem C76_tau {x : Nat → ℂ} {lam : ℝ} {sort : List (Edge ℝ) → List (Edge ℝ)} {ord : List (Edge ℝ) → List Nat} {p : DePar (Set ℂ)} (hs : SortsByR sort) (ho : OrdersByR ord) (hlam : lam ≠ 0) {n : Nat} (hn : 3 ≤ n) (hx : InjOn x (Iio n)) {c : Sec} (hc : secInit 2 n = .ok c) :
    ∃ (tr : Tree ℝ) (extra : Int), spanningTreeOf (exactCOps lam) (WOps.ofOrder (-1)) sort x (treeInit (WOps.ofOrder (-1)) (treeEdges c).toNat) n .gc = .ok tr ∧
      extraprecTree setArith clampMag tr.e (fun k => {x k}) c.shape = .ok extra ∧ (TiesHarmless x n → ∃ P0 : Nat, ∀ ip : Nat, P0 ≤ ip → GcReady x n c.shape.g tr.e (ord tr.e) ip) ∧
      (∀ ε > 0, ∃ P0 : Nat, ∀ prec : Int, P0 ≤ prec → TauReady n x tr.e c.shape.g prec ε) ∧
      ∀ (prec : Int) (ip : Nat) (ε : ℝ), PlainEdges x tr.e → extra ≤ 2 ^ 61 → prec + extra = ip → 2 ≤ ip → (ip : Int) < 2 ^ 62 → GcReady x n c.shape.g tr.e (ord tr.e) ip → TauReady n x tr.e c.shape.g prec ε →
        (∀ ed ∈ tr.e, ∀ r, IsLeastIn r (edgeRs x n ed.a ed.b) → 2 * gcN (edgeRs x n ed.a ed.b) r c.shape.g ip < 2 ^ 63) →
        ∀ fuel flag : Nat, 2 ≤ fuel → intType flag c.m c.n = .gc → flag &&& ajNoInt = 0 → flag &&& ajNoAb = 0 → flag &&& ajNoTau = 0 → flag.testBit 5 = true ∨ n = 3 →
        ∃ (out : AjOut (Set ℂ) ℝ setMat c.shape.g) (t : Set (Matrix (Fin c.shape.g) (Fin c.shape.g) ℂ)) (tau : Matrix (Fin c.shape.g) (Fin c.shape.g) ℂ),
          ajRun (idealEnv x lam sort ord p) fuel c flag prec (treeInit (WOps.ofOrder (-1)) (treeEdges c).toNat) = .ok out ∧ out.tree = tr ∧ out.integrals ≠ none ∧ out.omega ≠ none ∧ out.tau = some t ∧
          ∃ (Y : Nat → ℝ → ℂ) (ca cb : Nat → ℂ) (cc : IMat) (Q : Mat (out.tree.e.length * (2 - 1))), AjRight (idealEnv x lam sort ord p) (fun s z => z ∈ s) InC 2 n x c out Y ca cb cc Q ∧ WithinGc x c prec out Y ∧
            (∀ tau', periodsOf 2 x out.tree.e Y c.shape out.loopA * tau' = periodsOf 2 x out.tree.e Y c.shape out.loopB ↔ tau' = tau) ∧ IsRiemannMatrix tau ∧ tau ∈ t ∧ ∀ T ∈ t, ∀ i k, ‖T i k - tau i k‖ ≤ ε := by
  have hn2 : (2 : Int) ≤ n := by omega
  have hlt := edgeCount_lt (edgeCount_of_size (C03_tree_size (by omega) hc))
  obtain ⟨tr', s1, -, s3⟩ := C46_no_third_point hs hlam .gc (treeInit (WOps.ofOrder (-1)) (treeEdges c).toNat) n (Or.inl hlt) hx
  obtain ⟨tr, extra, h1, h2, h3, H⟩ := C74_exact_numbers (x := x) (lam := lam) (p := p) hs ho hlam hn hx hc
  obtain rfl := Res.ok.inj (s1.symm.trans h1)
  have hfree : FreeEdges x n tr'.e := fun f hf k hk ha hb t t1 t2 e => s3 f hf ⟨k, hk, ha, hb, t, t1, t2, e⟩
  have hab : ∀ ed ∈ tr'.e, x ed.a ≠ x ed.b := by
    have h1' := h1
    unfold spanningTreeOf at h1'
    obtain ⟨t1, e1, -, g0, g1, g2⟩ := C09_grows_as_tree (WOps.ofOrder (-1)) sort hs.perm _ (treeInit (WOps.ofOrder (-1)) (treeEdges c).toNat) n (Or.inl hlt)
    obtain rfl := Res.ok.inj (h1'.symm.trans e1)
    intro ed hed h
    obtain ⟨k, hk, rfl⟩ := List.getElem_of_mem hed
    have := (g1 k (by rw [Tree.pairs, List.length_map]; exact hk)).1
    exact (show tr'.e[k].a ≠ tr'.e[k].b by simpa [Tree.pairs] using this) (hx (g2 _ hed).1 (g2 _ hed).2.1 h)
  have hpos : 0 ≤ treeEdges c := by
    obtain ⟨_, e1, e2, e3, _⟩ := secInit_fields hc hn2
    unfold treeEdges
    rw [e1, e2, e3]
    split <;> omega
  refine ⟨tr', extra, h1, h2, h3, fun ε hε => C76_ready hab hfree _ hε, fun prec ip ε hplain hex hip hip2 hip62 hready htau hfits fuel flag f1 f2 f3 f4 f5 f6 => ?_⟩
  -- the same call without `tau`
  have hsw : SameWork flag (flag ||| 2) := fun i i1 i2 i3 => by
    rw [Nat.testBit_or, show (2 : Nat) = 2 ^ 1 from rfl, Nat.testBit_two_pow]
    simp [Ne.symm i1]
  have hb : ∀ i, (flag ||| 2).testBit i = (flag.testBit i || decide (1 = i)) := fun i => by rw [Nat.testBit_or, show (2 : Nat) = 2 ^ 1 from rfl, Nat.testBit_two_pow]
  have b1 : flag.testBit 1 = false := by
    by_contra h
    exact noTau_iff.2 (by simpa using h) f5
  have b2 : flag.testBit 2 = false := by
    by_contra h
    exact noAb_iff.2 (by simpa using h) f4
  have b3 : flag.testBit 3 = false := by
    by_contra h
    exact noInt_iff.2 (by simpa using h) f3
  have c1 : (flag ||| 2).testBit 1 = true := by rw [hb]; simp
  have c2 : (flag ||| 2).testBit 2 = false := by rw [hb, b2]; simp
  have c3 : (flag ||| 2).testBit 3 = false := by rw [hb, b3]; simp
  obtain ⟨out', q1, rfl, q3, q4, Y', ca', cb', cc', Q', hA', hW'⟩ := H prec ip hex hip hip2 hip62 hready hfits fuel (flag ||| 2) f1 (by rw [← hsw.intType]; exact f2) (by
      by_contra h
      rw [noInt_iff.1 h] at c3
      cases c3) (Or.inr (noTau_iff.2 c1)) (f6.imp (fun h => by rw [hb, h]; rfl) id)
  obtain ⟨om0, om1, o1, o2⟩ := C75_tau hsw b1 c1 b2 c2 b3 c3 q1
  -- no singular matrix
  have hdet' := (C61_complex le_rfl (by omega) hc hx hA' hfree hplain).1
  have hP' := signPeriods_of (by omega) hc hA' hA'.basis.lengths.1 fun l hl => List.mem_append_left _ hl
  have hQ' := signPeriods_of (by omega) hc hA' hA'.basis.lengths.2 fun l hl => List.mem_append_right _ hl
  have hnz : ∀ M ∈ ({M : Matrix (Fin c.shape.g) (Fin c.shape.g) ℂ | ∀ i j : Fin c.shape.g, M i j ∈ om0 i j} : Set _), M.det ≠ 0 := fun M hM =>
    (htau _ _ hP' hQ' hdet' M _ (fun i k => (hW'.2 om0 om1 o1 i k).1 _ (hM i k)) fun i k => by rw [sub_self, norm_zero]; positivity).1
  have hsolve : setMat.solve (n := c.shape.g) (m := c.shape.g) ((idealEnv x lam sort ord p).mat om0) ((idealEnv x lam sort ord p).mat om1) = some (image2 (fun M N => M⁻¹ * N) ((idealEnv x lam sort ord p).mat om0) ((idealEnv x lam sort ord p).mat om1)) := if_pos hnz
  have htm : tauMatrix setMat (n := c.shape.g) (m := c.shape.g) ((idealEnv x lam sort ord p).mat om0) ((idealEnv x lam sort ord p).mat om1) = .ok (image2 (fun M N => M⁻¹ * N) ((idealEnv x lam sort ord p).mat om0) ((idealEnv x lam sort ord p).mat om1)) := by
    unfold tauMatrix solveMulti
    rw [hsolve]
  rw [htm] at o2
  have o3 : ajRun (idealEnv x lam sort ord p) fuel c flag prec (treeInit (WOps.ofOrder (-1)) (treeEdges c).toNat) = .ok { out' with tau := some (image2 (fun M N => M⁻¹ * N) ((idealEnv x lam sort ord p).mat om0) ((idealEnv x lam sort ord p).mat om1)) } := by
    rw [o2]
    exact congrArg (fun t => Res.ok ({ out' with tau := some t } : AjOut (Set ℂ) ℝ setMat c.shape.g)) (ite_self _)
  have he := Res.ok.inj ((ajTree_extra (ajRun_ok o3).1).symm.trans h2)
  generalize hout : ({ out' with tau := some (image2 (fun M N => M⁻¹ * N) ((idealEnv x lam sort ord p).mat om0) ((idealEnv x lam sort ord p).mat om1)) } : AjOut (Set ℂ) ℝ setMat c.shape.g) = out at o3 he
  have t1 : out.tree = out'.tree := by rw [← hout]
  have t2 : out.omega = some (om0, om1) := by rw [← hout]; exact o1
  have t3 : out.tau = some (image2 (fun M N => M⁻¹ * N) ((idealEnv x lam sort ord p).mat om0) ((idealEnv x lam sort ord p).mat om1)) := by rw [← hout]; rfl
  have t4 : out.integrals ≠ none := by rw [← hout]; exact q3
  obtain ⟨Y, ca, cb, cc, Q, hA, hW⟩ := C74_accuracy setMat_encl (idealEnv_sound (x := x) (lam := lam) (p := p) hs ho) idealEnv_exact idealEnv_sharp hn hx hc (tr0 := treeInit (WOps.ofOrder (-1)) (treeEdges c).toNat)
    (by show ((treeEdges c).toNat : Int) = treeEdges c; omega) o3 f2 f3 f6 (ip := ip) (by omega) (by rw [t1]; exact hready) (by omega)
  obtain ⟨hdet, hriem⟩ := C61_complex le_rfl (by omega) hc hx hA (by rw [t1]; exact hfree) (by rw [t1]; exact hplain)
  have hP := signPeriods_of (by omega) hc hA hA.basis.lengths.1 fun l hl => List.mem_append_left _ hl
  have hQ := signPeriods_of (by omega) hc hA hA.basis.lengths.2 fun l hl => List.mem_append_right _ hl
  obtain ⟨tau, u1, u2⟩ := hA.tau om0 om1 _ t2 t3
  have u3 : ∀ tau', periodsOf 2 x out.tree.e Y c.shape out.loopA * tau' = periodsOf 2 x out.tree.e Y c.shape out.loopB ↔ tau' = tau := by
    rcases u2 with u2 | u2
    · exact u2
    · exact absurd (u2.1.symm.trans hsolve) (by simp)
  refine ⟨out, _, tau, o3, t1, t4, by rw [t2]; simp, t3, Y, ca, cb, cc, Q, hA, hW, u3, hriem tau ((u3 tau).2 rfl), u1, ?_⟩
  rintro T ⟨M, hM, N, hN, rfl⟩ i k
  rw [← t1] at htau
  have := (htau _ _ hP hQ hdet M N (fun i k => (hW.2 om0 om1 t2 i k).1 _ (hM i k)) fun i k => (hW.2 om0 om1 t2 i k).2 _ (hN i k)).2 i k
  have hq : tau = (periodsOf 2 x out.tree.e Y c.shape out.loopA)⁻¹ * periodsOf 2 x out.tree.e Y c.shape out.loopB := by
    rw [← (u3 tau).2 rfl, ← Matrix.mul_assoc, Matrix.nonsing_inv_mul _ (isUnit_iff_ne_zero.2 hdet), Matrix.one_mul]
  rw [hq]
  exact this

/-! ## Trees whose edges do not cross -/

theorem meet_fan {a b d : ℂ} (hab : a ≠ b) (had : a ≠ d) (hd : ∀ t : ℝ, -1 ≤ t → t ≤ 1 → d ≠ edgePt a b t) (hb : ∀ t : ℝ, -1 ≤ t → t ≤ 1 → b ≠ edgePt a d t) {s t : ℝ} (s1 : -1 ≤ s) (t1 : -1 ≤ t) (e : edgePt a b s = edgePt a d t) : s = -1 ∧ t = -1 := by
  have h : (b - a) * ((s + 1 : ℝ) : ℂ) = (d - a) * ((t + 1 : ℝ) : ℂ) := by
    unfold edgePt at e
    push_cast
    linear_combination 2 * e
  have aux : ∀ {a b d : ℂ} {s t : ℝ}, (b - a) * ((s + 1 : ℝ) : ℂ) = (d - a) * ((t + 1 : ℝ) : ℂ) → -1 ≤ s → -1 < t → s ≤ t → ∃ r : ℝ, -1 ≤ r ∧ r ≤ 1 ∧ d = edgePt a b r := by
    intro a b d s t h s1 t1 hst
    have ht : 0 < t + 1 := by linarith
    refine ⟨2 * ((s + 1) / (t + 1)) - 1, ?_, ?_, ?_⟩
    · have : 0 ≤ (s + 1) / (t + 1) := div_nonneg (by linarith) ht.le
      linarith
    · have : (s + 1) / (t + 1) ≤ 1 := (div_le_one ht).2 (by linarith)
      linarith
    · have hc : ((t + 1 : ℝ) : ℂ) ≠ 0 := by exact_mod_cast ht.ne'
      have : d - a = (b - a) * (((s + 1) / (t + 1) : ℝ) : ℂ) := by
        rw [Complex.ofReal_div, ← mul_div_assoc, h, mul_div_assoc, div_self hc, mul_one]
      unfold edgePt
      push_cast at this ⊢
      linear_combination this
  have hs : s = -1 → t = -1 := fun hs => by
    rw [hs, neg_add_cancel, Complex.ofReal_zero, mul_zero, eq_comm, mul_eq_zero] at h
    rcases h with h | h
    · exact absurd (sub_eq_zero.1 h).symm had
    · have : t + 1 = 0 := by exact_mod_cast h
      linarith
  by_cases hs' : s = -1
  · exact ⟨hs', hs hs'⟩
  exfalso
  have s2 : -1 < s := lt_of_le_of_ne s1 (Ne.symm hs')
  have t2 : -1 < t := by
    refine lt_of_le_of_ne t1 fun ht => ?_
    rw [← ht, neg_add_cancel, Complex.ofReal_zero, mul_zero, mul_eq_zero] at h
    rcases h with h | h
    · exact hab (sub_eq_zero.1 h).symm
    · have : s + 1 = 0 := by exact_mod_cast h
      linarith
  rcases le_total s t with hst | hst
  · obtain ⟨r, r1, r2, r3⟩ := aux h s1 t2 hst
    exact hd r r1 r2 r3
  · obtain ⟨r, r1, r2, r3⟩ := aux h.symm t1 s2 hst
    exact hb r r1 r2 r3

/-- three points: the two edges of the tree cannot cross -/
theorem plainEdges_three {x : Nat → ℂ} {es : List (Edge W)} (hg : GrowsAsTree (es.map fun f => (f.a, f.b))) (hes : ∀ ed ∈ es, ed.a < 3 ∧ ed.b < 3) (hx : InjOn x (Iio 3)) (hfree : FreeEdges x 3 es) : PlainEdges x es := by
  refine plainEdges_of hg fun f hf g hg' n1 n2 n3 n4 => ?_
  obtain ⟨f1, f2⟩ := hes f hf
  obtain ⟨g1, g2⟩ := hes g hg'
  have hne : ∀ p q, p < 3 → q < 3 → p ≠ q → x p ≠ x q := fun p q hp hq h e => h (hx hp hq e)
  have key : ∀ p q r : Nat, p < 3 → q < 3 → r < 3 → p ≠ q → p ≠ r → (∀ t : ℝ, -1 ≤ t → t ≤ 1 → x r ≠ edgePt (x p) (x q) t) → (∀ t : ℝ, -1 ≤ t → t ≤ 1 → x q ≠ edgePt (x p) (x r) t) → MeetAtEnds (x p) (x q) (x p) (x r) := by
    intro p q r hp hq hr hpq hpr h1 h2 s t s1 s2 t1 t2 e
    obtain ⟨rfl, rfl⟩ := meet_fan (hne p q hp hq hpq) (hne p r hp hr hpr) h1 h2 s1 t1 e
    exact ⟨Or.inl rfl, Or.inl rfl⟩
  have hf' := hfree f hf g.b g2 n3 n4
  rcases (show g.a = f.a ∨ g.a = f.b by omega) with h | h
  · rw [h]
    refine key _ _ _ f1 f2 g2 n1 (Ne.symm n3) hf' ?_
    rw [← h]
    exact hfree g hg' f.b f2 (by omega) (by omega)
  · rw [h]
    refine meetAtEnds_swap (key _ _ _ f2 f1 g2 (Ne.symm n1) (Ne.symm n4) (fun t t1 t2 e => ?_) ?_)
    · rw [edgePt_rev] at e
      exact hf' (-t) (by linarith) (by linarith) e
    · rw [← h]
      exact hfree g hg' f.a f1 (by omega) (by omega)

end Hcp
