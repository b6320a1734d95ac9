import Verif.Proofs.MeetTree
import Verif.Proofs.MeetFails
import Verif.Props.HyperBasis
import Verif.Props.Crossing

/-!
# C64: edges of the tree meet only at branch points, when the tree is good enough
-/

namespace Hcp
open Spec

/-- different edges of the list have no common point besides common ends -/
def PlainEdges {W : Type} (x : Nat → ℂ) (es : List (Edge W)) : Prop :=
  ∀ (k l : Nat) (f g : Edge W), k ≠ l → es[k]? = some f → es[l]? = some g → MeetAtEnds (x f.a) (x f.b) (x g.a) (x g.b)

/-- bound on the parameter of the tree above which edges cannot cross -/
noncomputable def crossBound : IntType → ℝ
  | .d2 => Real.sqrt 2
  | .gc => Real.sqrt 2
  | .de => Real.pi / 6

theorem plainEdges_of {W : Type} {x : Nat → ℂ} {es : List (Edge W)} (hg : GrowsAsTree (es.map fun f => (f.a, f.b)))
    (H : ∀ f ∈ es, ∀ g ∈ es, f.a ≠ f.b → g.a ≠ g.b → g.b ≠ f.a → g.b ≠ f.b → MeetAtEnds (x f.a) (x f.b) (x g.a) (x g.b)) : PlainEdges x es := by
  have main : ∀ (k l : Nat) (f g : Edge W), k < l → es[k]? = some f → es[l]? = some g → MeetAtEnds (x f.a) (x f.b) (x g.a) (x g.b) := by
    intro k l f g hkl hf hg'
    obtain ⟨hk, rfl⟩ := List.getElem?_eq_some_iff.1 hf
    obtain ⟨hl, rfl⟩ := List.getElem?_eq_some_iff.1 hg'
    have h := tree_new_end hg hkl (by simpa using hl)
    have hk2 := (hg k (by simpa using hk)).1
    have hl2 := (hg l (by simpa using hl)).1
    simp only [List.getElem_map] at h hk2 hl2
    exact H _ (List.getElem_mem hk) _ (List.getElem_mem hl) hk2 hl2 h.1 h.2
  intro k l f g hkl hf hg'
  rcases Nat.lt_or_gt_of_ne hkl with h | h
  · exact main k l f g h hf hg'
  · exact meetAtEnds_symm (main l k g f h hg' hf)

theorem treeParam_nonneg {l : ℝ} (type : IntType) (a b c : ℂ) : 0 ≤ treeParam (exactCOps l) type a b c := by
  cases type
  · show 0 ≤ ellipseParam a b c
    unfold ellipseParam; positivity
  · show 0 ≤ ellipseParam a b c
    unfold ellipseParam; positivity
  · exact abs_nonneg _

theorem treeParam_outside {type : IntType} {a b c : ℂ} (hab : a ≠ b) (h : crossBound type < treeParam (exactCOps (Real.pi / 2)) type a b c) : ‖b - a‖ < ‖2 * c - a - b‖ := by
  cases type
  · exact ellipse_outside h
  · exact ellipse_outside h
  · exact strip_outside hab h

theorem treeParam_ne_zero {l : ℝ} (hl : l ≠ 0) (type : IntType) {a b c : ℂ} (hab : a ≠ b) (ha : c ≠ a) (hb : c ≠ b) (h : ¬ OnSeg a b c) : treeParam (exactCOps l) type a b c ≠ 0 := by
  cases type
  · have := ellipseParam_ge a b c hab
    show ellipseParam a b c ≠ 0
    linarith
  · have := ellipseParam_ge a b c hab
    show ellipseParam a b c ≠ 0
    linarith
  · exact fun h' => h ((stripParam_eq hl a b c hab ha hb).1 h')

/-- exact parameters of distinct points: the parameter of an edge which is not blocked is not zero, and bounds that of every other point -/
theorem tree_params {l : ℝ} (hl : l ≠ 0) (type : IntType) {x : Nat → ℂ} {n : Nat} (hx : Set.InjOn x (Set.Iio n)) {i j : Nat} (hi : i < n) (hj : j < n) (hij : i ≠ j) :
    (∀ k < n, k ≠ i → k ≠ j → paramEdge (WOps.ofOrder (-1)) (fun k => treeParam (exactCOps l) type (x i) (x j) (x k)) i j n ≤ treeParam (exactCOps l) type (x i) (x j) (x k)) ∧
      (¬ Blocked x n i j → paramEdge (WOps.ofOrder (-1)) (fun k => treeParam (exactCOps l) type (x i) (x j) (x k)) i j n ≠ 0) := by
  have ne : ∀ p q, p < n → q < n → p ≠ q → x p ≠ x q := fun p q hp hq h e => h (hx hp hq e)
  have := C42_edge_parameter (-1 : ℝ) (by norm_num) (fun p => treeParam (exactCOps l) type (x i) (x j) (x p)) (fun _ => treeParam_nonneg type _ _ _) i j n
  refine ⟨this.1, fun hbl => ?_⟩
  rcases this.2 with ⟨k, hk, hki, hkj, e⟩ | ⟨-, e⟩
  · rw [e]
    exact treeParam_ne_zero hl type (ne i j hi hj hij) (ne k i hk hi hki) (ne k j hk hj hkj) fun h => hbl ⟨k, hk, hki, hkj, h⟩
  · rw [e]; norm_num

/-- no selected parameter is zero -/
theorem selected_ne_zero {l : ℝ} (hl : l ≠ 0) (type : IntType) {x : Nat → ℂ} {n : Nat} (hx : Set.InjOn x (Set.Iio n)) {y : Edge ℝ} (h1 : y.a < n) (h2 : y.b < n) (hn : y.a ≠ y.b) (hb : ¬ Blocked x n y.a y.b)
    (hr : y.r = paramEdge (WOps.ofOrder (-1)) (fun k => treeParam (exactCOps l) type (x (min y.a y.b)) (x (max y.a y.b)) (x k)) (min y.a y.b) (max y.a y.b) n) : y.r ≠ 0 := by
  rw [hr]
  rcases Nat.lt_or_gt_of_ne hn with h | h
  · rw [min_eq_left h.le, max_eq_right h.le]; exact (tree_params hl type hx h1 h2 hn).2 hb
  · rw [min_eq_right h.le, max_eq_left h.le]; exact (tree_params hl type hx h2 h1 hn.symm).2 fun h => hb (blocked_symm h)

/-- **C10 (exact parameters).** For at least two distinct points and exact parameters of either method of integration, the tree of a fresh run has no zero parameter: `tree->r` is the smallest selected parameter, reached
at index `tree->min`, and every connected graph on the points has an edge of parameter at most `tree->r`. -/
theorem C10_bottleneck_exact {sort : List (Edge ℝ) → List (Edge ℝ)} (hsort : SortsByR sort) {l : ℝ} (hl : l ≠ 0) (type : IntType) {x : Nat → ℂ} {n : Nat} (hn : 2 ≤ n) (hx : Set.InjOn x (Set.Iio n)) :
    ∃ tr, spanningTreeOf (exactCOps l) (WOps.ofOrder (-1)) sort x (treeInit (WOps.ofOrder (-1)) (n - 1)) n type = .ok tr ∧
      (∃ h : tr.min < tr.e.length, tr.e[tr.min].r = tr.r) ∧ (∀ y ∈ tr.e, tr.r ≤ y.r) ∧
      ∀ H : SimpleGraph (Fin n), H.Connected → ∃ u v, H.Adj u v ∧
        pairWeight (fun i j => paramEdge (WOps.ofOrder (-1)) (fun k => treeParam (exactCOps l) type (x i) (x j) (x k)) i j n) u.val v.val ≤ tr.r := by
  have hN' : (treeInit (WOps.ofOrder (-1 : ℝ)) (n - 1)).n < n ∨ (treeInit (WOps.ofOrder (-1 : ℝ)) (n - 1)).n = 0 := .inl (by show n - 1 < n; omega)
  obtain ⟨tr, e1, -, hb⟩ := C46_no_third_point hsort hl type (treeInit (WOps.ofOrder (-1)) (n - 1)) n hN' hx
  have e1' := e1
  unfold spanningTreeOf at e1'
  obtain ⟨tr1, f1, f2⟩ := C10_bottleneck_partial (-1 : ℝ) hsort (fun i j => paramEdge (WOps.ofOrder (-1)) (fun k => treeParam (exactCOps l) type (x i) (x j) (x k)) i j n) n hn
  obtain rfl := Res.ok.inj (e1'.symm.trans f1)
  obtain ⟨tr2, g1, -, -, g2, g3⟩ := C09_grows_as_tree (WOps.ofOrder (-1 : ℝ)) sort hsort.perm (fun i j => paramEdge (WOps.ofOrder (-1)) (fun k => treeParam (exactCOps l) type (x i) (x j) (x k)) i j n)
    (treeInit (WOps.ofOrder (-1)) (n - 1)) n hN'
  obtain rfl := Res.ok.inj (f1.symm.trans g1)
  refine ⟨tr, e1, f2 fun y hy => ?_⟩
  obtain ⟨p1, p2, p3⟩ := g3 y hy
  obtain ⟨k, hk, rfl⟩ := List.getElem_of_mem hy
  have hyn := (g2 k (by simpa [Tree.pairs] using hk)).1
  simp only [Tree.pairs, List.getElem_map] at hyn
  exact selected_ne_zero hl type hx p1 p2 hyn (hb _ hy) p3

/-- **C64 (partial).** Distinct points, a tree of any number of edges, either method of integration with its parameters computed exactly, any order of ties: if the parameter `tree->r` is above the bound
(`√2` for Gauss–Chebyshev, `π/6` for double exponential), or if all points are real, different edges of the tree have no common point besides common ends.
Missing: the claim is false in general (`C64_fails`). -/
theorem C64_no_crossing_partial {sort : List (Edge ℝ) → List (Edge ℝ)} (hsort : SortsByR sort) (type : IntType) {x : Nat → ℂ} {n N : Nat} (hN : N < n) (hx : Set.InjOn x (Set.Iio n)) :
    ∃ tr, spanningTreeOf (exactCOps (Real.pi / 2)) (WOps.ofOrder (-1)) sort x (treeInit (WOps.ofOrder (-1)) N) n type = .ok tr ∧ tr.e.length = N ∧
      (crossBound type < tr.r ∨ (∀ v < n, (x v).im = 0) → PlainEdges x tr.e) := by
  have hl : Real.pi / 2 ≠ 0 := by positivity
  have hN' : (treeInit (WOps.ofOrder (-1 : ℝ)) N).n < n ∨ (treeInit (WOps.ofOrder (-1 : ℝ)) N).n = 0 := .inl hN
  obtain ⟨tr, e1, hlen, hb⟩ := C46_no_third_point hsort hl type (treeInit (WOps.ofOrder (-1)) N) n hN' hx
  refine ⟨tr, e1, hlen, ?_⟩
  unfold spanningTreeOf at e1
  set wt : Nat → Nat → ℝ := fun i j => paramEdge (WOps.ofOrder (-1)) (fun k => treeParam (exactCOps (Real.pi / 2)) type (x i) (x j) (x k)) i j n with hwt
  obtain ⟨tr', E, h1, h2, h3, h4, ⟨L, rfl⟩, h5, h6⟩ := tree_core (WOps.ofOrder (-1)) sort hsort.perm wt (treeInit (WOps.ofOrder (-1)) N) n hN' WorstInv
    (by intro _; exact ⟨fun _ => rfl, fun h => absurd rfl h⟩) (fun _ tr x h _ => worstInv_step (-1) tr x h)
  obtain rfl := Res.ok.inj (e1.symm.trans h1)
  obtain ⟨hg, hr⟩ := steps_grow h4 h6
  have ne : ∀ p q, p < n → q < n → p ≠ q → x p ≠ x q := fun p q hp hq h e => h (hx hp hq e)
  have par := fun i j (hi : i < n) (hj : j < n) (hij : i ≠ j) => tree_params hl type hx hi hj hij
  rintro (hc | hre)
  · refine plainEdges_of hg fun f hf g hg' n1 n2 n3 n4 => ?_
    have out : ∀ f ∈ tr.e, f.a ≠ f.b → Outside x n f.a f.b := by
      intro f hf hfn
      obtain ⟨r1, r2, r3⟩ := hr f hf
      have hnz : ∀ y ∈ tr.e, y.r ≠ 0 := by
        intro y hy
        obtain ⟨p1, p2, p3⟩ := hr y hy
        obtain ⟨k, hk, rfl⟩ := List.getElem_of_mem hy
        have hyn := (hg k (by simpa using hk)).1
        simp only [List.getElem_map] at hyn
        exact selected_ne_zero hl type hx p1 p2 hyn (hb _ hy) p3
      have hle := ((h5 hnz).2 (List.ne_nil_of_mem hf)).2.2 f hf
      have key : ∀ i j, i < n → j < n → i ≠ j → tr.r ≤ wt i j → Outside x n i j := fun i j hi hj hij h k hk hki hkj =>
        treeParam_outside (ne i j hi hj hij) (lt_of_lt_of_le hc (h.trans ((par i j hi hj hij).1 k hk hki hkj)))
      rw [r3] at hle
      rcases Nat.lt_or_gt_of_ne hfn with h | h
      · rw [min_eq_left h.le, max_eq_right h.le] at hle; exact key _ _ r1 r2 hfn hle
      · rw [min_eq_right h.le, max_eq_left h.le] at hle; exact outside_symm (key _ _ r2 r1 hfn.symm hle)
    exact meetAtEnds_outside hx (hr f hf).1 (hr f hf).2.1 (hr g hg').1 (hr g hg').2.1 n1 n2 n3 n4 (out f hf n1) (out g hg' n2)
  · refine plainEdges_of hg fun f hf g hg' n1 n2 n3 n4 => ?_
    exact meetAtEnds_line hx hre (hr f hf).1 (hr f hf).2.1 (hr g hg').1 (hr g hg').2.1 n1 n2 n3 n4 (hb f hf) (hb g hg')

/-- the points `0, 1, i, -1` -/
noncomputable def x4 : Nat → ℂ
  | 0 => 0
  | 1 => 1
  | 2 => Complex.I
  | _ => -1

theorem x4_inj : Set.InjOn x4 (Set.Iio 4) := by
  intro i hi j hj h
  simp only [Set.mem_Iio] at hi hj
  have hr := congrArg Complex.re h
  have him := congrArg Complex.im h
  interval_cases i <;> interval_cases j <;> first | rfl | (exfalso; norm_num [x4] at hr; done) | (exfalso; norm_num [x4] at him)

/-- the pairs with the point `0` -/
theorem x4_star (j : Nat) (h0 : 0 < j) (hj : j < 4) : 12 / 5 ≤ paramEdge (WOps.ofOrder (-1 : ℝ)) (fun k => ellipseParam (x4 0) (x4 j) (x4 k)) 0 j 4 := by
  rcases (C42_edge_parameter (-1 : ℝ) (by norm_num) (fun k => ellipseParam (x4 0) (x4 j) (x4 k)) (fun _ => by unfold ellipseParam; positivity) 0 j 4).2 with ⟨k, hk, h1, h2, e⟩ | ⟨h', -⟩
  · rw [e]
    interval_cases j <;> interval_cases k <;> first
      | exact absurd rfl h1
      | exact absurd rfl h2
      | (refine le_ellipse (p := 1) (q := 7 / 5) (d := 1) (by norm_num) ?_ ?_ ?_ (by norm_num) <;> norm_num [x4])
  · have := h' 1 (by norm_num)
    have := h' 2 (by norm_num)
    omega

/-- an instance of `C64_no_crossing_partial`, `C50_closed_from_points_partial`: four points, not on a line; the parameter of the tree is above the bound -/
theorem x4_plain {sort : List (Edge ℝ) → List (Edge ℝ)} (hsort : SortsByR sort) : Set.InjOn x4 (Set.Iio 4) ∧ ¬ (∀ v < 4, (x4 v).im = 0) ∧
    ∃ tr, spanningTreeOf (exactCOps (Real.pi / 2)) (WOps.ofOrder (-1)) sort x4 (treeInit (WOps.ofOrder (-1)) 3) 4 .gc = .ok tr ∧ crossBound .gc < tr.r ∧ PlainEdges x4 tr.e := by
  refine ⟨x4_inj, fun h => by have := h 2 (by norm_num); norm_num [x4] at this, ?_⟩
  obtain ⟨tr, h1, -, h2⟩ := C64_no_crossing_partial hsort .gc (N := 3) (by norm_num) x4_inj
  obtain ⟨tr', g1, -, -, g2⟩ := C10_bottleneck_exact hsort (by positivity : Real.pi / 2 ≠ 0) .gc (n := 4) (by norm_num) x4_inj
  obtain rfl := Res.ok.inj (h1.symm.trans g1)
  have hs : (SimpleGraph.fromRel fun u v : Fin 4 => u = 0).Connected := by
    have h0 : ∀ u : Fin 4, (SimpleGraph.fromRel fun u v : Fin 4 => u = 0).Reachable u 0 := by
      intro u
      by_cases hu : u = 0
      · rw [hu]
      · exact SimpleGraph.Adj.reachable ((SimpleGraph.fromRel_adj _ _ _).2 ⟨hu, .inr rfl⟩)
    exact ⟨fun u v => (h0 u).trans (h0 v).symm⟩
  obtain ⟨u, v, huv, hle⟩ := g2 _ hs
  obtain ⟨hne, huv⟩ := (SimpleGraph.fromRel_adj _ _ _).1 huv
  have hne' : u.val ≠ v.val := fun h => hne (Fin.ext h)
  have key : crossBound .gc < tr.r := by
    refine lt_of_lt_of_le ?_ ((?_ : (12 : ℝ) / 5 ≤ _).trans hle)
    · exact (Real.sqrt_lt' (by norm_num)).2 (by norm_num)
    · unfold pairWeight
      rcases huv with h | h
      · have h' : u.val = 0 := congrArg Fin.val h
        rw [h'] at hne' ⊢
        rw [min_eq_left (by omega), max_eq_right (by omega)]
        exact x4_star _ (by omega) v.isLt
      · have h' : v.val = 0 := congrArg Fin.val h
        rw [h'] at hne' ⊢
        rw [min_eq_right (by omega), max_eq_left (by omega)]
        exact x4_star _ (by omega) u.isLt
  exact ⟨tr, h1, key, h2 (.inl key)⟩

end Hcp
