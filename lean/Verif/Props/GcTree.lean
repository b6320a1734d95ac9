import Verif.Model.GcTree
import Verif.Props.ComputeIdeal
import Verif.Props.Meet

/-!
# C81: the number of nodes for a tree
-/

open Filter Set

namespace Hcp
open Spec

variable {x : Nat → ℂ} {n : Nat}

/-- the integrals of `x^i / y` on an edge and their Gauss-Chebyshev sums with `N` nodes differ by at most `ε`, for `i ≤ d`; `u` are the coordinates of the other branch points -/
def SumsWithin (n n1 : Nat) (u : Nat → ℂ) (d N : Nat) (ε : ℝ) : Prop :=
  ∀ i ≤ d, ‖(Real.pi / N : ℂ) * ∑ k ∈ Finset.range N, (Real.cos ((2 * k + 1) / (2 * N) * Real.pi) : ℂ) ^ i /
        edgeY 2 n1 (n - 2) u (Real.cos ((2 * k + 1) / (2 * N) * Real.pi)) -
      ∫ t in (-1 : ℝ)..1, (t : ℂ) ^ i / edgeY 2 n1 (n - 2) u t * ((√(1 - t ^ 2)⁻¹ : ℝ) : ℂ)‖ ≤ ε

/-- the precision is large enough for the ellipses of all edges -/
def EdgesPrec (x : Nat → ℂ) (n : Nat) (es : List (Edge ℝ)) (d prec : Nat) : Prop :=
  ∀ ed ∈ es, ∀ r, IsLeastIn r (edgeRs x n ed.a ed.b) → GcPrec (edgeRs x n ed.a ed.b) r d prec

/-- the edge `f` does not need more nodes than `ed` -/
def NeedsLess (x : Nat → ℂ) (n d prec : Nat) (f ed : Edge ℝ) : Prop :=
  ∀ r s, IsLeastIn r (edgeRs x n ed.a ed.b) → IsLeastIn s (edgeRs x n f.a f.b) → gcN (edgeRs x n f.a f.b) s d prec ≤ gcN (edgeRs x n ed.a ed.b) r d prec

/-- **C81 (partial).** Take `n ≥ 3` distinct branch points known exactly and the tree of the Gauss-Chebyshev rule (with any number of edges).  `gc_params_tree` returns exactly when the numbers of nodes of the edge `tree->min` fit in machine
integers, and with its number of nodes (or more) the sums of `x^i / y`, `i < n`, are within `2^(1-prec)` of the integrals on the edge `tree->min` and on every edge which does not need more nodes.  From some precision on these are all
the edges with a parameter larger than `tree->r`, and all the edges if two pairs of points with the same smallest ellipse have the same ellipses.
Missing: edges with the same parameter but other ellipses, and small precisions. -/
theorem C81_tree_nodes_partial {sort : List (Edge ℝ) → List (Edge ℝ)} (hs : SortsByR sort) {lam : ℝ} (hlam : lam ≠ 0) (hn : 3 ≤ n) (hx : InjOn x (Iio n)) {N : Nat} (hN : N < n) (hN0 : 0 < N) :
    ∃ (tr : Tree ℝ) (e0 : Edge ℝ) (data : List (YData ℂ)), spanningTreeOf (exactCOps lam) (WOps.ofOrder (-1)) sort x (treeInit (WOps.ofOrder (-1)) N) n .gc = .ok tr ∧ tr.e.length = N ∧
      treeYdataInit exact exactTests x n 2 tr.e = .ok data ∧ data.length = N ∧ tr.e[tr.min]? = some e0 ∧ e0.r = tr.r ∧
      (∃ P0 : Nat, ∀ prec : Nat, P0 ≤ prec → EdgesPrec x n tr.e (n - 1) prec ∧ ∀ f ∈ tr.e, tr.r < f.r ∨ TiesHarmless x n → NeedsLess x n (n - 1) prec f e0) ∧
      ∀ prec : Nat, EdgesPrec x n tr.e (n - 1) prec →
        ∀ fuel, 2 ≤ fuel → ((∃ p, gcParamsTree exactPar exactDbl fuel tr data n prec = .ok p) ↔ 2 * gcN (edgeRs x n e0.a e0.b) tr.r (n - 1) prec < 2 ^ 63) ∧
        ∀ p, gcParamsTree exactPar exactDbl fuel tr data n prec = .ok p → ∀ (k : Nat) (f : Edge ℝ) (yd : YData ℂ), tr.e[k]? = some f → data[k]? = some yd → k = tr.min ∨ NeedsLess x n (n - 1) prec f e0 →
          ∀ M : Nat, p.n ≤ M → SumsWithin n yd.n1 yd.u (n - 1) M (2 ^ (1 - prec : Int)) := by
  have hN' : (treeInit (WOps.ofOrder (-1 : ℝ)) N).n < n ∨ (treeInit (WOps.ofOrder (-1 : ℝ)) N).n = 0 := .inl hN
  obtain ⟨tr, e1, hlen, hb⟩ := C46_no_third_point hs hlam .gc (treeInit (WOps.ofOrder (-1)) N) n hN' hx
  change tr.e.length = N at hlen
  have e1' := e1
  unfold spanningTreeOf at e1'
  obtain ⟨tr', E, h1, h2, h3, h4, ⟨L, rfl⟩, h5, h6⟩ := tree_core (WOps.ofOrder (-1)) sort hs.perm (fun i j => paramEdge (WOps.ofOrder (-1)) (fun k => treeParam (exactCOps lam) .gc (x i) (x j) (x k)) i j n)
    (treeInit (WOps.ofOrder (-1)) N) n hN' WorstInv (by intro _; exact ⟨fun _ => rfl, fun h => absurd rfl h⟩) (fun _ tr x h _ => worstInv_step (-1) tr x h)
  obtain rfl := Res.ok.inj (e1'.symm.trans h1)
  obtain ⟨hg, hr⟩ := steps_grow h4 h6
  have hes : ∀ ed ∈ tr.e, ed.a < n ∧ ed.b < n ∧ ed.a ≠ ed.b := by
    intro ed hed
    obtain ⟨k, hk, rfl⟩ := List.getElem_of_mem hed
    have := (hg k (by simpa using hk)).1
    simp only [List.getElem_map] at this
    exact ⟨(hr _ hed).1, (hr _ hed).2.1, this⟩
  have hnz : ∀ y ∈ tr.e, y.r ≠ 0 := fun y hy => selected_ne_zero hlam .gc hx (hr y hy).1 (hr y hy).2.1 (hes y hy).2.2 (hb _ hy) (hr y hy).2.2
  have hne : tr.e ≠ [] := by
    intro h
    rw [h] at hlen
    simp at hlen
    omega
  obtain ⟨-, ⟨hmin, hrmin⟩, hle⟩ := (h5 hnz).2 hne
  have hleast : ∀ ed ∈ tr.e, IsLeastIn ed.r (edgeRs x n ed.a ed.b) := by
    intro ed hed
    rw [(hr ed hed).2.2]
    have := paramEdge_least (lam := lam) hn (i := min ed.a ed.b) (j := max ed.a ed.b) x
    rcases le_total ed.a ed.b with h | h
    · rw [min_eq_left h, max_eq_right h] at this ⊢
      exact this
    · rw [min_eq_right h, max_eq_left h] at this ⊢
      rw [edgeRs_comm x n ed.a ed.b]
      exact this
  have hfree : ∀ ed ∈ tr.e, ∀ r ∈ edgeRs x n ed.a ed.b, 1 < r := by
    intro ed hed r hr
    obtain ⟨a1, a2, a3⟩ := hes ed hed
    obtain ⟨k, hk, rfl⟩ := List.mem_map.1 hr
    simp only [List.mem_filter, List.mem_range, decide_eq_true_eq] at hk
    have hab : x ed.a ≠ x ed.b := fun h => a3 (hx a1 a2 h)
    refine lt_of_le_of_ne (ellipseParam_ge _ _ (x k) hab) fun h => ?_
    obtain ⟨t, t1, t2, e⟩ := (ellipseParam_eq _ _ (x k) hab).1 h.symm
    exact hb ed hed ⟨k, hk.1, hk.2.1, hk.2.2, t, t1, t2, e⟩
  have hdata : ∀ es : List (Edge ℝ), (∀ ed ∈ es, ed.a < n ∧ ed.b < n ∧ ed.a ≠ ed.b) → ∃ ys, treeYdataInit exact exactTests x n 2 es = .ok ys := by
    intro es
    induction es with
    | nil => exact fun _ => ⟨[], rfl⟩
    | cons ed es ih =>
      intro h
      obtain ⟨ys, q⟩ := ih fun e he => h e (List.mem_cons_of_mem _ he)
      obtain ⟨q1, q2, q3⟩ := h ed List.mem_cons_self
      rcases C20_edge_data exact_encloses exactTests (x := x) (fun _ => rfl) q1 q2 q3 (m := 2) (by norm_num) (fun h => q3 (hx q1 q2 h)) with ⟨yd, hyd, -⟩ | ⟨_, s, z, hz, h', h0⟩
      · refine ⟨yd :: ys, ?_⟩
        unfold treeYdataInit
        rw [hyd, Res.ok_bind, q, Res.ok_bind]
      · subst hz
        simp only [exactTests, decide_eq_true_eq] at h'
        exact absurd h' h0
  obtain ⟨data, hd⟩ := hdata tr.e hes
  obtain ⟨hdl, hget⟩ := treeYdataInit_get hd
  obtain ⟨u, hu⟩ := exactData_exists exact_encloses exactTests (x := x) (x' := x) (fun _ => rfl) (by norm_num) (fun ed hed => ⟨(hes ed hed).1, (hes ed hed).2.1, fun h => (hes ed hed).2.2 (hx (hes ed hed).1 (hes ed hed).2.1 h)⟩) hd
  have hpts : ∀ (k : Nat) (f : Edge ℝ) (yd : YData ℂ), tr.e[k]? = some f → data[k]? = some yd → EdgeData 2 n x f.a f.b yd.n1 yd.u := by
    intro k f yd h h'
    obtain ⟨-, q1, q2⟩ := hu k f yd h h'
    rwa [show yd.u = u k from funext q1]
  set e0 := tr.e[tr.min] with he0
  have hm0 : e0 ∈ tr.e := List.getElem_mem hmin
  have hmin' : tr.e[tr.min]? = some e0 := List.getElem?_eq_getElem hmin
  obtain ⟨y0, hy0⟩ : ∃ y0, data[tr.min]? = some y0 := ⟨_, List.getElem?_eq_getElem (by omega)⟩
  have hpt0 := hpts _ _ _ hmin' hy0
  -- the points of an edge
  have hP : ∀ (k : Nat) (f : Edge ℝ) (yd : YData ℂ), tr.e[k]? = some f → data[k]? = some yd → ((pointsOf n yd).map rOf).Perm (edgeRs x n f.a f.b) ∧ (∀ z ∈ pointsOf n yd, 1 < rOf z) ∧ IsMinR (pointsOf n yd) f.r := by
    intro k f yd h h'
    have hm := List.mem_of_getElem? h
    obtain ⟨a1, a2, a3⟩ := hes f hm
    have hperm : ((pointsOf n yd).map rOf).Perm (edgeRs x n f.a f.b) := edgeRs_perm (fun h => a3 (hx a1 a2 h)) (hpts k f yd h h')
    exact ⟨hperm, fun z hz => hfree f hm _ (hperm.mem_iff.1 (List.mem_map_of_mem hz)), isMinR_iff.2 ((isLeastIn_perm hperm).2 (hleast f hm))⟩
  obtain ⟨p0, u0, r0⟩ := hP _ _ _ hmin' hy0
  refine ⟨tr, e0, data, e1, hlen, hd, by omega, hmin', hrmin, ?_, fun prec hprec => ?_⟩
  · have E1 : ∀ᶠ prec : ℕ in atTop, ∀ f ∈ {f | f ∈ tr.e}, (tr.r < f.r ∨ TiesHarmless x n) → GcReady x n (n - 1) [e0, f] [0, 1] prec := by
      refine (eventually_all_finite tr.e.finite_toSet).2 fun f hf => ?_
      rw [eventually_imp_distrib_left]
      intro hor
      refine eventually_atTop.2 (C72_edges ?_ ?_ _)
      · intro ed hed
        rcases List.mem_cons.1 hed with rfl | hed
        · exact hfree _ hm0
        · obtain rfl := List.mem_singleton.1 hed
          exact hfree _ hf
      · unfold EllipseOrder
        simp only [List.pairwise_cons, List.mem_singleton, forall_eq, List.not_mem_nil, IsEmpty.forall_iff, implies_true, List.Pairwise.nil, and_true]
        rintro ed f' hed hf'
        obtain rfl : e0 = ed := by simpa using hed
        obtain rfl : f = f' := by simpa using hf'
        have hcase : tr.r < f.r ∨ tr.r = f.r := (hle f hf).lt_or_eq
        rcases hcase with h | h
        · exact .inl ⟨e0.r, (hleast _ hm0).1, fun s hs => by rw [hrmin]; exact h.trans_le ((hleast f hf).2 s hs)⟩
        · have ht := hor.resolve_left (by rw [h]; exact lt_irrefl _)
          obtain ⟨a1, a2, a3⟩ := hes e0 hm0
          obtain ⟨b1, b2, b3⟩ := hes f hf
          exact .inr (ht _ _ _ _ a1 a2 b1 b2 a3 b3 f.r (by rw [← h, ← hrmin]; exact hleast _ hm0) (hleast f hf))
    obtain ⟨P1, H1⟩ := eventually_atTop.1 E1
    have E2 : ∀ᶠ prec : ℕ in atTop, EdgesPrec x n tr.e (n - 1) prec := by
      refine (eventually_all_finite tr.e.finite_toSet).2 fun f hf => ?_
      obtain ⟨P0, hP0⟩ := C72_large (hleast f hf) (hfree f hf _ (hleast f hf).1) (n - 1)
      filter_upwards [eventually_ge_atTop P0] with prec hp s hs
      rw [isLeastIn_unique hs (hleast f hf)]
      exact hP0 prec hp
    obtain ⟨P2, H2⟩ := eventually_atTop.1 E2
    refine ⟨max P1 P2, fun prec hp => ⟨H2 prec (le_trans (le_max_right _ _) hp), fun f hf hor r s hr' hs' => ?_⟩⟩
    have hm := (H1 prec (le_trans (le_max_left _ _) hp) f hf hor).mono
    simp only [List.pairwise_cons, List.mem_singleton, forall_eq] at hm
    exact hm.1 e0 f rfl rfl r s hr' hs'
  · have hgp : ∀ (k : Nat) (f : Edge ℝ) (yd : YData ℂ), tr.e[k]? = some f → data[k]? = some yd → GcPrec ((pointsOf n yd).map rOf) f.r (n - 1) prec := by
      intro k f yd h h'
      have hm := List.mem_of_getElem? h
      exact gcPrec_perm (hP k f yd h h').1.symm (hprec f hm _ (hleast f hm))
    have hcall : ∀ fuel, gcParamsTree exactPar exactDbl fuel tr data n prec = gcParams exactPar exactDbl fuel (pointsOf n y0) ((n - 1 : Nat) : Int) prec := by
      intro fuel
      unfold gcParamsTree
      rw [hy0, Nat.cast_sub (by omega)]
      rfl
    intro fuel hf
    refine ⟨?_, fun p hp k f yd hk hyd hor M hM i hi => ?_⟩
    · rw [hcall, C72_returns u0 r0 (hgp _ _ _ hmin' hy0) hf, gcN_perm p0, hrmin]
    · rw [hcall] at hp
      obtain ⟨-, -, -, -, hpn, hpn1, -⟩ := C72_params u0 r0 (hgp _ _ _ hmin' hy0) hp
      obtain ⟨pf, uf, rf⟩ := hP k f yd hk hyd
      have hm := List.mem_of_getElem? hk
      have hneed : gcN ((pointsOf n yd).map rOf) f.r (n - 1) prec ≤ p.n := by
        rw [hpn, gcN_perm pf, gcN_perm p0]
        rcases hor with rfl | hor
        · rw [hmin'] at hk
          rw [Option.some.inj hk]
        · exact hor _ _ (hleast _ hm0) (hleast f hm)
      have h63 := (C72_returns u0 r0 (hgp _ _ _ hmin' hy0) hf).1 ⟨p, hp⟩
      obtain ⟨p', hp'⟩ := (C72_returns uf rf (hgp k f yd hk hyd) le_rfl).2 (by omega)
      have hpn' := (C72_params uf rf (hgp k f yd hk hyd) hp').2.2.2.2.1
      have hlenp : (pointsOf n yd).length = n - 2 := by simp [pointsOf]
      have hE := C72_error uf rf (hgp k f yd hk hyd) hp' (N := M) (by rw [hpn']; omega) hi (n1 := yd.n1) (by rw [hlenp]; exact (hpts k f yd hk hyd).n1_le)
      have hY : ∀ t : ℂ, edgeY 2 yd.n1 (pointsOf n yd).length (fun k => (pointsOf n yd).getD k 0) t = edgeY 2 yd.n1 (n - 2) yd.u t := by
        intro t
        have hget : ∀ j, j < n - 2 → (pointsOf n yd).getD j 0 = yd.u j := by
          intro j hj
          simp [pointsOf, hj]
        have hn1 := (hpts k f yd hk hyd).n1_le
        unfold edgeY
        rw [hlenp]
        congr 1
        · exact Finset.prod_congr rfl fun j hj => by simp only [hget j (by have := Finset.mem_range.1 hj; omega)]
        · exact Finset.prod_congr rfl fun j hj => by simp only [hget j (Finset.mem_Ico.1 hj).2]
      simp only [hY] at hE
      exact hE

/-- The equilateral triangle: from some precision on the hypotheses hold and all edges are served. -/
example : ∃ (tr : Tree ℝ) (e0 : Edge ℝ) (P0 : Nat), spanningTreeOf (exactCOps 1) (WOps.ofOrder (-1)) sortByR tri (treeInit (WOps.ofOrder (-1)) 2) 3 .gc = .ok tr ∧ tr.e.length = 2 ∧ tr.e[tr.min]? = some e0 ∧
    ∀ prec, P0 ≤ prec → EdgesPrec tri 3 tr.e 2 prec ∧ ∀ f ∈ tr.e, NeedsLess tri 3 2 prec f e0 := by
  obtain ⟨tr, e0, data, h1, h2, -, -, h3, -, ⟨P0, h4⟩, -⟩ := C81_tree_nodes_partial (x := tri) sortByR_sorts one_ne_zero le_rfl tri_inj (N := 2) (by norm_num) (by norm_num)
  exact ⟨tr, e0, P0, h1, h2, h3, fun prec hp => ⟨(h4 prec hp).1, fun f hf => (h4 prec hp).2 f hf (.inr (tiesHarmless_three _))⟩⟩

end Hcp
