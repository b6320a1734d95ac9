import Verif.Props.Segment
import Verif.Props.SheetTree

/-!
# C14 and C46 together: from the branch points to the intersection matrix
-/

namespace Hcp
open Spec

/-- **C14 (from the points).** For every `m ≥ 2` below `2^62`, all `n ≥ 1` distinct branch points and any number `N < n` of edges, in exact arithmetic, with either method of integration: the spanning tree, the data
of its edges and the intersection matrix are all computed; no edge passes through a third branch point, each edge has its local equation, and the entries are the local
intersection numbers determined by the sheet gap between the branches stored at the common point. -/
theorem C14_from_points {sort : List (Edge ℝ) → List (Edge ℝ)} (hsort : SortsByR sort) {lam : ℝ} (hlam : lam ≠ 0) (type : IntType)
    {x : Nat → ℂ} {n m N : Nat} (hN : N < n) (hm : 2 ≤ m) (hm' : m < 2 ^ 62) (hx : Set.InjOn x (Set.Iio n)) :
    ∃ tr data c, spanningTreeOf (exactCOps lam) (WOps.ofOrder (-1)) sort x (treeInit (WOps.ofOrder (-1)) N) n type = .ok tr ∧
      tr.e.length = N ∧ GrowsAsTree tr.pairs ∧ (N + 1 = n → (graphOf n tr.pairs).IsTree) ∧ (∀ f ∈ tr.e, ¬ Blocked x n f.a f.b) ∧
      treeYdataInit exact exactTests x n m tr.e = .ok data ∧ data.length = tr.e.length ∧
      intersectionTree (shiftOracle exact exactTests data m) tr.e m = .ok c ∧
      (∀ k, (hk : k < tr.e.length) → ∀ y, data[k]? = some y → y.n = n ∧ Spec.EdgeData m n x tr.e[k].a tr.e[k].b y.n1 y.u) ∧
      (∀ k < tr.e.length, ∀ α < m - 1, ∀ β < m - 1, c (k * (m - 1) + α) (k * (m - 1) + β) = Spec.selfNumber α β) ∧
      (∀ i j, i < tr.e.length * (m - 1) → j < tr.e.length * (m - 1) → c i j = - c j i) ∧
      ∀ k l yk yl, (hkl : k < l) → (hl : l < tr.e.length) → data[k]? = some yk → data[l]? = some yl →
        (tr.e[l].a = tr.e[k].a → ∃ S, Spec.SheetGap m yk.ba2 yl.ba2 yk.ya yl.ya S ∧
          ∀ α < m - 1, ∀ β < m - 1, c (k * (m - 1) + α) (l * (m - 1) + β) = Spec.localNumber m α β S) ∧
        (tr.e[l].a = tr.e[k].b → ∃ S, Spec.SheetGap m (-yk.ba2) yl.ba2 yk.yb yl.ya S ∧
          ∀ α < m - 1, ∀ β < m - 1, c (k * (m - 1) + α) (l * (m - 1) + β) = - Spec.localNumber m α β S) ∧
        (tr.e[l].a ≠ tr.e[k].a → tr.e[l].a ≠ tr.e[k].b →
          ∀ α < m - 1, ∀ β < m - 1, c (k * (m - 1) + α) (l * (m - 1) + β) = 0) := by
  have hlt : (treeInit (WOps.ofOrder (-1 : ℝ)) N).n < n ∨ (treeInit (WOps.ofOrder (-1 : ℝ)) N).n = 0 := Or.inl (by simp [treeInit]; omega)
  obtain ⟨tr, h1, -, h3⟩ := C46_no_third_point hsort hlam type (treeInit (WOps.ofOrder (-1)) N) n hlt hx
  have h1' := h1
  unfold spanningTreeOf at h1'
  obtain ⟨t1, e1, -, g0, g1, g2⟩ := C09_grows_as_tree (WOps.ofOrder (-1)) sort hsort.perm _ (treeInit (WOps.ofOrder (-1)) N) n hlt
  obtain rfl := Res.ok.inj (h1'.symm.trans e1)
  have ht : N + 1 = n → (graphOf n tr.pairs).IsTree := by
    intro hN1
    obtain ⟨t2, e2, ht⟩ := C09_spanning_tree (WOps.ofOrder (-1)) sort hsort.perm _ (treeInit (WOps.ofOrder (-1)) N) n (by simp [treeInit]; omega)
    obtain rfl := Res.ok.inj (h1'.symm.trans e2)
    exact ht
  obtain ⟨data, c, k⟩ := C14_tree hm hm' hx tr.e (fun f hf => ⟨(g2 f hf).1, (g2 f hf).2.1, by
      obtain ⟨k, hk, rfl⟩ := List.getElem_of_mem hf
      have := (g1 k (by rw [Tree.pairs, List.length_map]; exact hk)).1
      simpa [Tree.pairs] using this⟩)
    (fun f hf k hk ha hb t t1 t2 e => h3 f hf ⟨k, hk, ha, hb, t, t1, t2, e⟩)
    (fun k l hkl hl => by
      have := C12_edges_meet_at_start (WOps.ofOrder (-1)) sort hsort.perm _ _ n h1' hlt hkl hl
      exact ⟨fun _ => this.1.2, fun _ => this.1.1⟩)
  exact ⟨tr, data, c, h1, g0, g1, ht, h3, k⟩

/-- an instance with aligned points `0, 1, 2`: the pair `(0, 2)` is blocked -/
example : ∃ tr, spanningTreeOf (exactCOps (Real.pi / 2)) (WOps.ofOrder (-1)) sortByR (fun k => (k : ℂ)) (treeInit (WOps.ofOrder (-1)) 2) 3 .de = .ok tr ∧
    (∀ f ∈ tr.e, ¬ Blocked (fun k => (k : ℂ)) 3 f.a f.b) ∧ Blocked (fun k => (k : ℂ)) 3 0 2 := by
  obtain ⟨tr, -, -, h1, -, -, -, h2, -⟩ := C14_from_points (m := 2) (n := 3) (N := 2) (x := fun k => (k : ℂ)) sortByR_sorts (lam := Real.pi / 2) (by positivity) .de (by norm_num) le_rfl (by norm_num)
    (fun a _ b _ h => Nat.cast_injective (R := ℂ) h)
  refine ⟨tr, h1, h2, 1, by norm_num, by norm_num, by norm_num, 0, by norm_num, by norm_num, ?_⟩
  unfold edgePt
  norm_num

end Hcp
