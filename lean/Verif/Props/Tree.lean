import Verif.Proofs.TreeSel
import Verif.Proofs.TreeGraph
import Verif.Proofs.TreeSum
import Mathlib.Data.List.Sort
import Mathlib.Algebra.BigOperators.Finprod

/-!
# C09–C12: candidate edges and spanning tree
-/

namespace Hcp
open Spec

variable {W : Type}

/-- pairs of end points of the edges stored in the tree -/
def Tree.pairs (tr : Tree W) : List (Nat × Nat) := tr.e.map fun x => (x.a, x.b)

/-- **C11.** `edges_init` stays inside the array allocated by `spanning_tree`, fills it
completely, and enumerates each pair `i < j` exactly once with its parameter. -/
theorem C11_edges_enumerate_pairs (wt : Nat → Nat → W) (len : Nat) :
    ∃ L, edgesInit (len * (len - 1) / 2) wt len = .ok L ∧ L.length = len * (len - 1) / 2 ∧
      (L.map fun x => (x.a, x.b)).Nodup ∧
      ∀ x : Edge W, x ∈ L ↔ x.a < x.b ∧ x.b < len ∧ x.r = wt x.a x.b := by
  refine ⟨pairsFrom wt len len 0, ?_, pairsFrom_length wt len len 0 rfl, pairsFrom_nodup wt len len 0 rfl, ?_⟩
  · rw [edgesInit, edgesLoop_eq _ wt len len 0 [] rfl (by simp)]; simp
  · intro x
    rw [mem_pairsFrom wt len x len 0 rfl]; simp

/-- any smaller array would be overrun -/
theorem C11_allocation_is_tight (wt : Nat → Nat → W) : (edgesInit 2 wt 3).isUb := by
  simp [edgesInit, edgesLoop, edgesRow, pushChecked, Res.isUb]

/-- core statement on the selection loop, shared by C09 and C10 -/
theorem tree_core (o : WOps W) (sort : List (Edge W) → List (Edge W)) (hsort : ∀ l, (sort l).Perm l)
    (wt : Nat → Nat → W) (tr : Tree W) (len : Nat) (hn : tr.n < len ∨ tr.n = 0)
    (Q : Tree W → Prop) (h0 : Q { tr with e := [] })
    (hQ : ∀ (E : List (Edge W)) tr x, Q tr → GoodStep E tr.e x →
      Q (saveWorst o { tr with e := tr.e ++ [x] } tr.e.length x)) :
    ∃ tr' E, spanningTree o sort wt tr len = .ok tr' ∧ tr'.n = tr.n ∧ tr'.e.length = tr.n ∧ AllPairs wt len E ∧
      (∃ L, E = sort L) ∧ Q tr' ∧ ∀ k (h : k < tr'.e.length), GoodStep E (tr'.e.take k) tr'.e[k] := by
  obtain ⟨L, h1, _, _, h4⟩ := C11_edges_enumerate_pairs wt len
  have hE : AllPairs wt len (sort L) := fun x => (hsort L).mem_iff.trans (h4 x)
  obtain ⟨s', g1, g2, g3, g4, g5⟩ := selLoop_inv o hE Q (fun tr x => hQ _ tr x) tr.n _
    (selInv_init hE.nrm_self tr) h0 (by simpa using hn)
  simp at g3
  refine ⟨s'.tree, sort L, ?_, g5, g3, hE, ⟨L, rfl⟩, g4, g2.steps⟩
  rw [spanningTree, h1, Res.ok_bind]
  simp only [List.length_nil] at g1
  rw [g1, Res.ok_bind]

theorem steps_grow {wt : Nat → Nat → W} {len : Nat} {E e : List (Edge W)} (hE : AllPairs wt len E)
    (h : ∀ k (h : k < e.length), GoodStep E (e.take k) e[k]) :
    GrowsAsTree (e.map fun x => (x.a, x.b)) ∧ ∀ x ∈ e, x.a < len ∧ x.b < len ∧ x.r = wt (min x.a x.b) (max x.a x.b) := by
  constructor
  · intro k hk
    rw [List.length_map] at hk
    obtain ⟨h1, h2, h3, _⟩ := h k hk
    rw [← List.map_take]
    simp only [List.getElem_map]
    refine ⟨hE.ne h1, h2, fun hk0 => h3 ?_⟩
    intro hnil
    rw [List.take_eq_nil_iff] at hnil
    rcases hnil with h | h
    · exact hk0 h
    · rw [h] at hk; simp at hk
  · intro x hx
    obtain ⟨k, hk, rfl⟩ := List.getElem_of_mem hx
    have := (hE _).1 (h k hk).mem
    simp [Edge.nrm] at this
    exact ⟨by omega, by omega, this.2.2⟩

/-- **C09.** For any number of points, any weights (even incomparable ones), any
permutation of the candidate edges and any requested number of edges less than the number of points:
the selection succeeds without out-of-range access and produces a tree grown edge by
edge, whose edges carry the parameter of their pair. -/
theorem C09_grows_as_tree (o : WOps W) (sort : List (Edge W) → List (Edge W)) (hsort : ∀ l, (sort l).Perm l)
    (wt : Nat → Nat → W) (tr : Tree W) (len : Nat) (hn : tr.n < len ∨ tr.n = 0) :
    ∃ tr', spanningTree o sort wt tr len = .ok tr' ∧ tr'.n = tr.n ∧ tr'.e.length = tr.n ∧ GrowsAsTree tr'.pairs ∧
      ∀ x ∈ tr'.e, x.a < len ∧ x.b < len ∧ x.r = wt (min x.a x.b) (max x.a x.b) := by
  obtain ⟨tr', E, h1, h2, h3, h4, _, _, h6⟩ := tree_core o sort hsort wt tr len hn (fun _ => True) trivial
    (fun _ _ _ _ _ => trivial)
  exact ⟨tr', h1, h2, h3, steps_grow h4 h6⟩

/-- **C09 (graph form).** With one edge less than the number of points, the selected edges form
a spanning tree of the complete graph on the points. -/
theorem C09_spanning_tree (o : WOps W) (sort : List (Edge W) → List (Edge W)) (hsort : ∀ l, (sort l).Perm l)
    (wt : Nat → Nat → W) (tr : Tree W) (len : Nat) (hn : tr.n + 1 = len) :
    ∃ tr', spanningTree o sort wt tr len = .ok tr' ∧ (graphOf len tr'.pairs).IsTree := by
  obtain ⟨tr', h1, h2, h3, h4, h5⟩ := C09_grows_as_tree o sort hsort wt tr len (by omega)
  refine ⟨tr', h1, graph_isTree h4 ?_ (by rw [Tree.pairs, List.length_map]; omega)⟩
  intro e he
  obtain ⟨x, hx, rfl⟩ := List.mem_map.1 he
  exact ⟨(h5 x hx).1, (h5 x hx).2.1⟩

theorem selLoop_add (o : WOps W) (len : Nat) : ∀ (a b k : Nat) (s : Sel W),
    selLoop o len (a + b) k s = selLoop o len a k s >>= selLoop o len b (k + a)
  | 0, b, k, s => by simp [selLoop]
  | a + 1, b, k, s => by
    rw [Nat.succ_add, selLoop, selLoop, bind_assoc]
    congr 1
    funext s'
    rw [selLoop_add o len a b (k + 1) s']
    congr 2; omega

theorem scanDown_none {len : Nat} {e : List (Edge W)} (hr : InRange len e) {t : Nat → Bool}
    (ht : ∀ v, v < len → t v = true) : ∀ n, n ≤ e.length → scanDown len e t false n = .ub "e[-1]"
  | 0, _ => rfl
  | n + 1, hn => by
    have hlt : n < e.length := by omega
    obtain ⟨ha, hb⟩ := hr e[n] (List.getElem_mem hlt)
    simp [scanDown, List.getElem?_eq_getElem hlt, readFlag, ha, hb, ht _ ha, ht _ hb,
      scanDown_none hr ht n (by omega)]

/-- **C09 (limit of validity).** Requesting at least as many edges as points reads before the
start of the edge array, whatever the weights and the sort. -/
theorem C09_too_many_edges (o : WOps W) (sort : List (Edge W) → List (Edge W)) (hsort : ∀ l, (sort l).Perm l)
    (wt : Nat → Nat → W) (tr : Tree W) (len : Nat) (hn : len ≤ tr.n) (h0 : 0 < tr.n) :
    (spanningTree o sort wt tr len).isUb := by
  obtain ⟨L, h1, hlen, _, h4⟩ := C11_edges_enumerate_pairs wt len
  have hE : AllPairs wt len (sort L) := fun x => (hsort L).mem_iff.trans (h4 x)
  rw [spanningTree, h1, Res.ok_bind]
  by_cases hl : len ≤ 1
  · have hL : L = [] := List.eq_nil_of_length_eq_zero (by
      rw [hlen]; have : len = 0 ∨ len = 1 := by omega
      rcases this with rfl | rfl <;> rfl)
    have hs : sort L = [] := by
      have := hsort L; rw [hL] at this ⊢; exact List.perm_nil.1 this
    obtain ⟨n, hn'⟩ : ∃ n, tr.n = n + 1 := ⟨tr.n - 1, by omega⟩
    rw [hs, hn', selLoop]
    simp [selStep, scanDown, Res.isUb]
  · obtain ⟨s', g1, g2, g3, _, _⟩ := selLoop_inv o hE (fun _ => True) (fun _ _ _ _ => trivial) (len - 1) _
      (selInv_init hE.nrm_self tr) trivial (by simp; omega)
    simp at g3
    obtain ⟨b, hb⟩ : ∃ b, tr.n = (len - 1) + (b + 1) := ⟨tr.n - len, by omega⟩
    simp only [List.length_nil] at g1
    rw [hb, selLoop_add]
    rw [hb] at g1
    rw [g1, Res.ok_bind, selLoop]
    obtain ⟨hg, hr⟩ := steps_grow hE g2.steps
    have hrange : ∀ e ∈ (s'.tree.e.map fun x => (x.a, x.b)), e.1 < len ∧ e.2 < len := by
      intro e he
      obtain ⟨x, hx, rfl⟩ := List.mem_map.1 he
      exact ⟨(hr x hx).1, (hr x hx).2.1⟩
    have hall : ∀ v, v < len → s'.t v = true := by
      intro v hv
      rw [g2.flags]
      obtain ⟨i, hi, rfl⟩ := vtx_surj hg hrange (by rw [List.length_map]; omega) hv
      have := (touches_take_iff hg _ le_rfl (by rw [List.length_map]; omega) (vtx _ i)).2 ⟨i, hi, rfl⟩
      rw [List.take_length] at this
      exact this
    have hstep : selStep o len (0 + (len - 1)) s' = .ub "e[-1]" := by
      have hk : ((0 + (len - 1)) == 0) = false := by simp; omega
      rw [selStep, hk, scanDown_none (hE.inRange g2.norm) hall _ le_rfl]; rfl
    rw [hstep]
    trivial

/-- **C12.** In the tree, when `k < l` and edges `k`, `l` meet, edge `l` starts at an end
point of edge `k`, and never ends there: the two cases distinguished by
`intersection_tree` (same start; end of `k` = start of `l`) are exhaustive and exclusive. -/
theorem C12_edges_meet_at_start (o : WOps W) (sort : List (Edge W) → List (Edge W))
    (hsort : ∀ l, (sort l).Perm l) (wt : Nat → Nat → W) (tr : Tree W) (len : Nat)
    {tr' : Tree W} (hok : spanningTree o sort wt tr len = .ok tr') (hn : tr.n < len ∨ tr.n = 0)
    {k l : Nat} (hkl : k < l) (hl : l < tr'.e.length) :
    let ek := tr'.e[k]
    let el := tr'.e[l]
    (el.b ≠ ek.a ∧ el.b ≠ ek.b) ∧ ¬ (el.a = ek.a ∧ el.a = ek.b) := by
  obtain ⟨tr'', h1, _, h3, h4, h5⟩ := C09_grows_as_tree o sort hsort wt tr len hn
  rw [hok] at h1; cases h1
  have hg := h4 l (by rw [Tree.pairs, List.length_map]; exact hl)
  have hgk := h4 k (by rw [Tree.pairs, List.length_map]; omega)
  simp only [Tree.pairs, List.getElem_map] at hg hgk
  have hmem : (tr'.e[k].a, tr'.e[k].b) ∈ (tr'.e.map fun x => (x.a, x.b)).take l := by
    rw [← List.map_take]
    refine List.mem_map.2 ⟨tr'.e[k], ?_, rfl⟩
    rw [List.mem_take_iff_getElem]
    exact ⟨k, by omega, rfl⟩
  refine ⟨⟨fun h => hg.2.1 ⟨_, hmem, Or.inl h⟩, fun h => hg.2.1 ⟨_, hmem, Or.inr h⟩⟩, ?_⟩
  rintro ⟨ha, hb⟩
  exact hgk.1 (ha.symm.trans hb)

section optimal

variable [LinearOrder W] [Zero W]

/-- the comparisons of `double` on a linearly ordered type (no NaN) -/
def WOps.ofOrder (negOne : W) : WOps W where
  lt x y := decide (x < y)
  isZero x := decide (x = 0)
  zero := 0
  negOne := negOne

/-- `sort` is a correct sorting routine for `edge_cmp` -/
structure SortsByR (sort : List (Edge W) → List (Edge W)) : Prop where
  perm : ∀ l, (sort l).Perm l
  sorted : ∀ l, (sort l).Pairwise fun x y => x.r ≤ y.r

omit [Zero W] in
theorem steps_greedy {wt : Nat → Nat → W} {len : Nat} {E e : List (Edge W)} (hE : AllPairs wt len E)
    (hs : E.Pairwise fun x y => x.r ≤ y.r)
    (h : ∀ k (h : k < e.length), GoodStep E (e.take k) e[k]) :
    Greedy len wt (e.map fun x => (x.a, x.b)) := by
  intro k hk u v hu hv huv hc
  rw [List.length_map] at hk
  obtain ⟨h1, h2, h3, i, h4, h5⟩ := h k hk
  rw [← List.map_take] at hc
  simp only [List.getElem_map]
  have hr : e[k].r = pairWeight wt e[k].a e[k].b := ((hE _).1 h1).2.2
  let y : Edge W := ⟨min u v, max u v, pairWeight wt u v⟩
  have hy : y ∈ E := (hE y).2 ⟨by simp [y]; omega, by simp [y]; omega, rfl⟩
  obtain ⟨j, hj, hjy⟩ := List.getElem_of_mem hy
  have hjy' : E[j]? = some y := by rw [List.getElem?_eq_getElem hj, hjy]
  have hle : j ≤ i := by
    by_contra hcon
    obtain ⟨g1, g2⟩ := h5 j y (by omega) hjy'
    have hk0 : k ≠ 0 := by rintro rfl; simp at g1
    obtain ⟨c1, c2⟩ := hc hk0
    have e1 : Touches (List.map Edge.pair (e.take k)) u := c1
    have e2 : ¬ Touches (List.map Edge.pair (e.take k)) v := c2
    rcases le_total u v with huv' | huv'
    · simp only [y, min_eq_left huv', max_eq_right huv'] at g2; exact e2 (g2.1 e1)
    · simp only [y, min_eq_right huv', max_eq_left huv'] at g2; exact e2 (g2.2 e1)
  have hi : i < E.length := by
    by_contra hcon
    rw [List.getElem?_eq_none (by omega)] at h4; cases h4
  have hei : E[i] = e[k].nrm := by rw [List.getElem?_eq_getElem hi] at h4; exact Option.some.inj h4
  have hyr : y.r ≤ E[i].r := by
    rcases Nat.lt_or_ge j i with hlt | hge
    · have := (List.pairwise_iff_getElem.1 hs) j i hj hi hlt
      rwa [hjy] at this
    · have : j = i := by omega
      subst this; rw [hjy]
  rw [hei] at hyr
  rw [← hr]
  exact hyr

/-- **C10 (greedy).** Each selected edge has maximal parameter among the pairs joining the points
already reached to the others (among all pairs for the first edge). -/
theorem C10_greedy_choice (c : W) {sort : List (Edge W) → List (Edge W)} (hsort : SortsByR sort)
    (wt : Nat → Nat → W) (tr : Tree W) (len : Nat) (hn : tr.n < len ∨ tr.n = 0) :
    ∃ tr', spanningTree (WOps.ofOrder c) sort wt tr len = .ok tr' ∧
      ∀ k (hk : k < tr'.e.length) u v, u < len → v < len → u ≠ v →
        (k ≠ 0 → Touches (tr'.pairs.take k) u ∧ ¬ Touches (tr'.pairs.take k) v) →
        wt (min u v) (max u v) ≤ tr'.e[k].r := by
  obtain ⟨tr', E, h1, h2, h3, h4, ⟨L, rfl⟩, _, h6⟩ := tree_core (WOps.ofOrder c) sort hsort.perm wt tr len hn
    (fun _ => True) trivial (fun _ _ _ _ _ => trivial)
  refine ⟨tr', h1, ?_⟩
  intro k hk u v hu hv huv hc
  have := steps_greedy h4 (hsort.sorted L) h6 k (by rw [List.length_map]; exact hk) u v hu hv huv hc
  have hr := ((h4 _).1 (h6 k hk).mem).2.2
  simp only [List.getElem_map] at this
  exact this.trans_eq hr.symm

/-- **C10 (maximality).** For every threshold, no spanning tree has more edges of
parameter at least the threshold than the selected tree. -/
theorem C10_dominates_every_tree (c : W) {sort : List (Edge W) → List (Edge W)} (hsort : SortsByR sort)
    (wt : Nat → Nat → W) (tr : Tree W) (len : Nat) (hn : tr.n + 1 = len) :
    ∃ tr', spanningTree (WOps.ofOrder c) sort wt tr len = .ok tr' ∧
      ∀ (T : SimpleGraph (Fin len)), T.IsTree → ∀ x : W,
        Nat.card (T ⊓ heavy len wt x).edgeSet ≤ Nat.card (graphOf len tr'.pairs ⊓ heavy len wt x).edgeSet := by
  obtain ⟨tr', E, h1, h2, h3, h4, ⟨L, rfl⟩, _, h6⟩ := tree_core (WOps.ofOrder c) sort hsort.perm wt tr len
    (by omega) (fun _ => True) trivial (fun _ _ _ _ _ => trivial)
  obtain ⟨hg, hr⟩ := steps_grow h4 h6
  refine ⟨tr', h1, fun T hT x => greedy_dominates (steps_greedy h4 (hsort.sorted L) h6) hg ?_ (by
    rw [List.length_map]; omega) x hT⟩
  intro e he
  obtain ⟨y, hy, rfl⟩ := List.mem_map.1 he
  exact ⟨(hr y hy).1, (hr y hy).2.1⟩

/-- invariant of `tree->r`, `tree->min` when no selected parameter is zero -/
def WorstInv (tr : Tree W) : Prop :=
  (∀ x ∈ tr.e, x.r ≠ 0) →
    (tr.e = [] → tr.r = 0) ∧
    (tr.e ≠ [] → tr.r ≠ 0 ∧ (∃ h : tr.min < tr.e.length, tr.e[tr.min].r = tr.r) ∧ ∀ x ∈ tr.e, tr.r ≤ x.r)

theorem worstInv_step (c : W) (tr : Tree W) (x : Edge W) (h : WorstInv tr) :
    WorstInv (saveWorst (WOps.ofOrder c) { tr with e := tr.e ++ [x] } tr.e.length x) := by
  intro hnz
  rw [saveWorst_e] at hnz
  simp only at hnz
  have hx : x.r ≠ 0 := hnz x (by simp)
  obtain ⟨h1, h2⟩ := h (fun y hy => hnz y (by simp [hy]))
  refine ⟨fun he => by rw [saveWorst_e] at he; simp at he, fun _ => ?_⟩
  by_cases h0 : tr.e = []
  · have hr := h1 h0
    have : saveWorst (WOps.ofOrder c) { tr with e := tr.e ++ [x] } tr.e.length x =
        { tr with e := tr.e ++ [x], r := x.r, min := tr.e.length } := by
      simp [saveWorst, WOps.ofOrder, hr]
    rw [this]
    refine ⟨hx, ⟨by simp, by simp⟩, ?_⟩
    intro y hy
    simp [h0] at hy
    rw [hy]
  · obtain ⟨g1, ⟨g2, g3⟩, g4⟩ := h2 h0
    by_cases hlt : x.r < tr.r
    · have : saveWorst (WOps.ofOrder c) { tr with e := tr.e ++ [x] } tr.e.length x =
          { tr with e := tr.e ++ [x], r := x.r, min := tr.e.length } := by
        simp [saveWorst, WOps.ofOrder, hlt]
      rw [this]
      refine ⟨hx, ⟨by simp, by simp⟩, ?_⟩
      intro y hy
      simp only [List.mem_append, List.mem_singleton] at hy
      rcases hy with hy | rfl
      · exact hlt.le.trans (g4 y hy)
      · exact le_rfl
    · have : saveWorst (WOps.ofOrder c) { tr with e := tr.e ++ [x] } tr.e.length x =
          { tr with e := tr.e ++ [x] } := by
        simp [saveWorst, WOps.ofOrder, g1, hlt]
      rw [this]
      refine ⟨g1, ⟨by simp; omega, ?_⟩, ?_⟩
      · simp only [List.getElem_append_left g2]; exact g3
      · intro y hy
        simp only [List.mem_append, List.mem_singleton] at hy
        rcases hy with hy | rfl
        · exact g4 y hy
        · exact not_lt.1 hlt

/-- **C10 (worst edge, bottleneck).** On a freshly initialised tree with `len - 1` edges, if no selected parameter is zero:
`tree->r` is the smallest selected parameter, reached at index `tree->min`, and every
connected graph on the points, in particular every spanning tree, has an edge whose parameter is
at most `tree->r`.  Partial: non-zero parameters and a fresh tree are needed
(`C10_zero_parameter_fails`, `C10_stale_worst_fails`). -/
theorem C10_bottleneck_partial (c : W) {sort : List (Edge W) → List (Edge W)} (hsort : SortsByR sort)
    (wt : Nat → Nat → W) (len : Nat) (hlen : 2 ≤ len) :
    ∃ tr', spanningTree (WOps.ofOrder c) sort wt (treeInit (WOps.ofOrder c) (len - 1)) len = .ok tr' ∧ ((∀ x ∈ tr'.e, x.r ≠ 0) →
      (∃ h : tr'.min < tr'.e.length, tr'.e[tr'.min].r = tr'.r) ∧ (∀ x ∈ tr'.e, tr'.r ≤ x.r) ∧
      ∀ H : SimpleGraph (Fin len), H.Connected → ∃ u v, H.Adj u v ∧ pairWeight wt u.val v.val ≤ tr'.r) := by
  obtain ⟨tr', E, h1, h2, h3, h4, ⟨L, rfl⟩, h5, h6⟩ := tree_core (WOps.ofOrder c) sort hsort.perm wt
    (treeInit (WOps.ofOrder c) (len - 1)) len (Or.inl (by simp [treeInit]; omega)) WorstInv
    (by intro _; exact ⟨fun _ => rfl, fun h => absurd rfl h⟩) (fun _ tr x h _ => worstInv_step c tr x h)
  change tr'.e.length = len - 1 at h3
  obtain ⟨hg, hr⟩ := steps_grow h4 h6
  have hne : tr'.e ≠ [] := by intro h; rw [h] at h3; simp at h3; omega
  refine ⟨tr', h1, fun hnz => ?_⟩
  obtain ⟨_, ⟨g2, g3⟩, g4⟩ := (h5 hnz).2 hne
  refine ⟨⟨g2, g3⟩, g4, ?_⟩
  intro H hH
  have hgr := steps_greedy h4 (hsort.sorted L) h6 tr'.min (by rw [List.length_map]; exact g2)
  simp only [List.getElem_map] at hgr
  have hmr : pairWeight wt tr'.e[tr'.min].a tr'.e[tr'.min].b = tr'.r := by
    rw [← g3]; exact ((hr _ (List.getElem_mem g2)).2.2).symm
  rw [hmr] at hgr
  have hrange := hr _ (List.getElem_mem g2)
  by_cases hk : tr'.min = 0
  · have : Nontrivial (Fin len) := Fin.nontrivial_iff_two_le.2 hlen
    obtain ⟨u⟩ := hH.nonempty
    obtain ⟨v, hv⟩ := hH.preconnected.exists_adj_of_nontrivial u
    exact ⟨u, v, hv, hgr u.val v.val u.isLt v.isLt (fun h => hv.ne (Fin.ext h)) (fun h => absurd hk h)⟩
  · obtain ⟨b1, b2, b3⟩ := hg tr'.min (by rw [List.length_map]; exact g2)
    simp only [List.getElem_map] at b1 b2 b3
    let S : Set (Fin len) := { v | Touches ((tr'.e.map fun x => (x.a, x.b)).take tr'.min) v.val }
    obtain ⟨x, y, hxy, hx, hy⟩ := crossing_edge hH S (u := ⟨tr'.e[tr'.min].a, hrange.1⟩)
      (v := ⟨tr'.e[tr'.min].b, hrange.2.1⟩) (b3 hk) b2
    exact ⟨x, y, hxy, hgr x.val y.val x.isLt y.isLt (fun h => hxy.ne (Fin.ext h)) (fun _ => ⟨hx, hy⟩)⟩

/-- insertion sort on the parameter, an instance of `SortsByR` -/
def sortByR (l : List (Edge W)) : List (Edge W) := l.insertionSort fun x y => x.r ≤ y.r

omit [Zero W] in
theorem sortByR_sorts : SortsByR (sortByR (W := W)) where
  perm l := List.perm_insertionSort _ l
  sorted l := by
    have : Std.Total (fun x y : Edge W => x.r ≤ y.r) := ⟨fun x y => le_total x.r y.r⟩
    have : IsTrans (Edge W) (fun x y => x.r ≤ y.r) := ⟨fun _ _ _ h1 h2 => le_trans h1 h2⟩
    exact List.pairwise_insertionSort _ l

/-- **C42.** With non-negative values, the parameter of an edge is the least value over the other
points, or `-1` when there is no other point. -/
theorem C42_edge_parameter (c : W) (hc : c < 0) (f : Nat → W) (hf : ∀ k, 0 ≤ f k) (i j len : Nat) :
    (∀ k < len, k ≠ i → k ≠ j → paramEdge (WOps.ofOrder c) f i j len ≤ f k) ∧
    ((∃ k < len, k ≠ i ∧ k ≠ j ∧ paramEdge (WOps.ofOrder c) f i j len = f k) ∨
      ((∀ k < len, k = i ∨ k = j) ∧ paramEdge (WOps.ofOrder c) f i j len = c)) := by
  induction len with
  | zero =>
    refine ⟨fun k hk => absurd hk (by omega), Or.inr ⟨fun k hk => absurd hk (by omega), rfl⟩⟩
  | succ n ih =>
    obtain ⟨h1, h2⟩ := ih
    have hstep : paramEdge (WOps.ofOrder c) f i j (n + 1) =
        (let p := paramEdge (WOps.ofOrder c) f i j n
         if n == i || n == j then p else if decide (p < 0) || decide (f n < p) then f n else p) := by
      unfold paramEdge
      rw [List.range_succ, List.foldl_append]
      rfl
    rw [hstep]
    generalize paramEdge (WOps.ofOrder c) f i j n = p at h1 h2
    by_cases hn : n = i ∨ n = j
    · have hb : (n == i || n == j) = true := by simpa using hn
      simp only [hb, if_true]
      refine ⟨?_, ?_⟩
      · intro k hk hki hkj
        exact h1 k (by rcases hn with h | h <;> omega) hki hkj
      · rcases h2 with ⟨k, hk, g⟩ | ⟨g1, g2⟩
        · exact Or.inl ⟨k, by omega, g⟩
        · refine Or.inr ⟨fun k hk => ?_, g2⟩
          rcases Nat.lt_succ_iff_lt_or_eq.1 hk with h | h
          · exact g1 k h
          · subst h; exact hn
    · have hb : (n == i || n == j) = false := by simpa using hn
      push Not at hn
      simp only [hb, Bool.false_eq_true, if_false]
      by_cases hp : p < 0 ∨ f n < p
      · have hb2 : (decide (p < 0) || decide (f n < p)) = true := by simpa using hp
        simp only [hb2, if_true]
        refine ⟨?_, Or.inl ⟨n, by omega, hn.1, hn.2, rfl⟩⟩
        intro k hk hki hkj
        rcases Nat.lt_succ_iff_lt_or_eq.1 hk with h | h
        · rcases h2 with ⟨k', hk', g1, g2, g3⟩ | ⟨g1, g2⟩
          · rcases hp with hp | hp
            · exact absurd (g3 ▸ hf k') (not_le.2 hp)
            · exact hp.le.trans (h1 k h hki hkj)
          · exact absurd (g1 k h) (by omega)
        · subst h; exact le_rfl
      · have hb2 : (decide (p < 0) || decide (f n < p)) = false := by simpa using hp
        push Not at hp
        simp only [hb2, Bool.false_eq_true, if_false]
        refine ⟨?_, ?_⟩
        · intro k hk hki hkj
          rcases Nat.lt_succ_iff_lt_or_eq.1 hk with h | h
          · exact h1 k h hki hkj
          · subst h; exact hp.2
        · rcases h2 with ⟨k, hk, g⟩ | ⟨g1, g2⟩
          · exact Or.inl ⟨k, by omega, g⟩
          · exact absurd (g2 ▸ hp.1) (not_le.2 hc)

end optimal

section total

variable [AddCommGroup W] [LinearOrder W] [IsOrderedAddMonoid W]

/-- sum of the parameters of the edges of a graph -/
noncomputable def totalWeight (len : Nat) (wt : Nat → Nat → W) (G : SimpleGraph (Fin len)) : W :=
  ∑ᶠ e ∈ G.edgeSet, Sym2.lift ⟨fun u v : Fin len => pairWeight wt u.val v.val, fun u v => by
    simp only [pairWeight, min_comm, max_comm]⟩ e

/-- **C10 (maximum spanning tree).** The total parameter of the selected tree is maximal. -/
theorem C10_maximum_total (c : W) {sort : List (Edge W) → List (Edge W)} (hsort : SortsByR sort)
    (wt : Nat → Nat → W) (tr : Tree W) (len : Nat) (hn : tr.n + 1 = len) :
    ∃ tr', spanningTree (WOps.ofOrder c) sort wt tr len = .ok tr' ∧ (graphOf len tr'.pairs).IsTree ∧
      ∀ T : SimpleGraph (Fin len), T.IsTree → totalWeight len wt T ≤ totalWeight len wt (graphOf len tr'.pairs) := by
  classical
  obtain ⟨tr', h1, h2⟩ := C10_dominates_every_tree c hsort wt tr len hn
  obtain ⟨tr'', h1', h3⟩ := C09_spanning_tree (WOps.ofOrder c) sort hsort.perm wt tr len hn
  rw [h1] at h1'; cases h1'
  refine ⟨tr', h1, h3, fun T hT => ?_⟩
  have hfin : ∀ G : SimpleGraph (Fin len), G.edgeSet.Finite := fun G => Set.toFinite _
  let w : Sym2 (Fin len) → W := Sym2.lift ⟨fun u v : Fin len => pairWeight wt u.val v.val, fun u v => by
    simp only [pairWeight, min_comm, max_comm]⟩
  have hsum : ∀ G : SimpleGraph (Fin len), totalWeight len wt G = ∑ e ∈ (hfin G).toFinset, w e := by
    intro G
    exact finsum_mem_eq_finite_toFinset_sum _ (hfin G)
  have hcard : ∀ G : SimpleGraph (Fin len), (hfin G).toFinset.card = Nat.card G.edgeSet := by
    intro G
    rw [← Set.ncard_eq_toFinset_card _ (hfin G)]; rfl
  have hheavy : ∀ (G : SimpleGraph (Fin len)) (x : W), ((hfin G).toFinset.filter fun e => x ≤ w e).card =
      Nat.card (G ⊓ heavy len wt x).edgeSet := by
    intro G x
    rw [← hcard]
    congr 1
    ext e
    induction e with
    | _ u v =>
      simp only [Finset.mem_filter, Set.Finite.mem_toFinset, SimpleGraph.mem_edgeSet, SimpleGraph.inf_adj]
      constructor
      · rintro ⟨g1, g2⟩; exact ⟨g1, g1.ne, g2⟩
      · rintro ⟨g1, g2⟩; exact ⟨g1, g2.2⟩
  rw [hsum, hsum]
  have c1 := (SimpleGraph.isTree_iff_connected_and_card.1 hT).2
  have c2 := (SimpleGraph.isTree_iff_connected_and_card.1 h3).2
  refine sum_le_of_dominates w w _ _ _ rfl ?_ ?_
  · rw [hcard, hcard]; omega
  · intro x
    rw [hheavy, hheavy]
    exact h2 T hT x

end total

/-! ### negations and instances -/

/-- weights of the counterexample: a zero parameter is selected between non-zero ones -/
def zeroWt : Nat → Nat → ℤ := fun i j => if i = 0 ∧ j = 1 then 9 else if i = 2 ∧ j = 3 then 5 else 0

/-- **C10 (negation, zero parameter).** Four points: the selected tree contains an edge of
parameter `0`, but `tree->r = 5`, because `!tree->r` is used as "not set yet". -/
theorem C10_zero_parameter_fails :
    ∃ tr', spanningTree (WOps.ofOrder (-1)) sortByR zeroWt (treeInit (WOps.ofOrder (-1)) 3) 4 = .ok tr' ∧
      tr'.r = 5 ∧ ∃ x ∈ tr'.e, x.r = 0 := by
  refine ⟨_, rfl, ?_, ?_⟩ <;> decide +kernel

/-- **C10 (negation, stale estimate).** A second call on the same tree with other
parameters keeps the old `tree->r`, which is not the parameter of any selected edge. -/
theorem C10_stale_worst_fails :
    ∃ tr1 tr2, spanningTree (WOps.ofOrder (-1)) sortByR (fun _ _ => (1 : ℤ)) (treeInit (WOps.ofOrder (-1)) 2) 3 =
        .ok tr1 ∧
      spanningTree (WOps.ofOrder (-1)) sortByR (fun _ _ => (7 : ℤ)) tr1 3 = .ok tr2 ∧
      ∀ x ∈ tr2.e, x.r ≠ tr2.r := by
  refine ⟨_, _, rfl, rfl, ?_⟩
  decide +kernel

/-- the hypotheses of C09, C10, C12 are met: five points, weights without zero -/
example : ∃ tr', spanningTree (WOps.ofOrder (-1)) sortByR (fun i j => ((i * 7 + j * j) % 11 + 1 : ℤ))
    (treeInit (WOps.ofOrder (-1)) 4) 5 = .ok tr' ∧ tr'.pairs = [(0, 3), (3, 1), (0, 4), (4, 2)] ∧ ∀ x ∈ tr'.e, x.r ≠ 0 := by
  refine ⟨_, rfl, ?_⟩
  decide +kernel

/-- C42: three other points -/
example : paramEdge (WOps.ofOrder (-1 : ℤ)) (fun k => (k : ℤ) * 2 + 1) 1 3 5 = 1 := by decide +kernel

end Hcp
