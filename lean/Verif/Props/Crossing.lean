import Verif.Proofs.BallTree
import Verif.Props.HyperBasis

/-!
# C50: the matrix computed from balls holds the intersection numbers of the paths on the curve
-/

namespace Hcp
open Spec

variable {A W : Type} {X : Arith A} {R : A → ℂ → Prop}

/-- `Y k` is a continuous determination of `y` on the edge number `k`, which leaves both ends along the rays of `ca k` and `cb k` -/
def Branches (m n : Nat) (x : Nat → ℂ) (es : List (Edge W)) (Y : Nat → ℝ → ℂ) (ca cb : Nat → ℂ) : Prop :=
  ∀ (k : Nat) (ed : Edge W), es[k]? = some ed →
    IsBranchM m n x (x ed.a) (x ed.b) (Y k) ∧ LeavesAlong (Y k) (-1) (ca k) ∧ LeavesAlong (Y k) 1 (cb k)

/-- `c` is the table of the intersection numbers: its entry at row `(k, α)` and column `(l, β)` is the intersection number of the closed path over edge `k` which goes on the
sheet `ζ^α Y_k` and comes back on the next one, with the path of the same kind over edge `l` starting with the sheet `ζ^β Y_l`. -/
def HoldsNumbers (m : Nat) (es : List (Edge W)) (ca cb : Nat → ℂ) (c : IMat) : Prop :=
  ∀ (k l : Nat) (ek el : Edge W) (α β : Nat), es[k]? = some ek → es[l]? = some el → α < m - 1 → β < m - 1 →
    ((c (k * (m - 1) + α) (l * (m - 1) + β) : ℤ) : ℚ) = pathNumber (passages m ek.a ek.b (ca k) (cb k) α) (passages m el.a el.b (ca l) (cb l) β)

theorem holdsNumbers_of {m : Nat} (hm : 2 ≤ m) {es : List (Edge W)} {d Ya Yb : Nat → ℂ} {c : IMat}
    (h : PlainTree m es.length (startOf es) (endOf es) d Ya Yb c) : HoldsNumbers m es Ya Yb c := by
  intro k l ek el α β hk hl hα hβ
  obtain ⟨hk', rfl⟩ := List.getElem?_eq_some_iff.1 hk
  obtain ⟨hl', rfl⟩ := List.getElem?_eq_some_iff.1 hl
  rw [h.number hm hk' hl' hα hβ, startOf_eq hk', startOf_eq hl', endOf_eq hk', endOf_eq hl']

theorem branches_of {m n : Nat} (hm : 0 < m) {x : Nat → ℂ} {es : List (Edge W)} (hx : ∀ ed ∈ es, x ed.a ≠ x ed.b) (hfree : FreeEdges x n es) {data : List (YData A)}
    (hlen : data.length = es.length) {u : Nat → Nat → ℂ} (hu : ExactData R m n x es data u) :
    Branches m n x es (storedY m n data u) (fun k => u k (n + 1)) (fun k => u k (n + 2)) := by
  intro k ed hk
  obtain ⟨hk', rfl⟩ := List.getElem?_eq_some_iff.1 hk
  have hd : data[k]? = some (data[k]'(by omega)) := List.getElem?_eq_getElem (by omega)
  obtain ⟨-, -, hE⟩ := hu k _ _ hk hd
  have := branchY_spec hm hE (hx _ (List.getElem_mem hk')) (hfree _ (List.getElem_mem hk'))
  unfold storedY
  rw [hd]
  exact this

/-- **C50.** Curve `y^m = ∏ (x - x_k)`, `m ≥ 2`, distinct branch points given by balls; `es` any list of edges growing as a tree, none of which passes through a third
branch point.  Whenever the data of the edges and the intersection matrix are computed from these balls, the directions of edges with a common point being resolved, there are continuous
determinations of `y` on the edges, contained in the balls stored, for which the matrix holds the intersection numbers of the closed paths over the edges. -/
theorem C50_intersection_numbers (E : Encloses X exact R) {T : Tests A} (hT : SoundTests T R) {x : Nat → A} {x' : Nat → ℂ} (hR : ∀ k, R (x k) (x' k))
    {n m : Nat} (hm : 2 ≤ m) (hx : Set.InjOn x' (Set.Iio n)) {es : List (Edge W)} (hes : ∀ ed ∈ es, ed.a < n ∧ ed.b < n)
    (hgr : GrowsAsTree (es.map fun f => (f.a, f.b))) (hfree : FreeEdges x' n es) {data : List (YData A)} (hdata : treeYdataInit X T x n m es = .ok data)
    (hres : Resolved X T x' es data) {c : IMat} (hc : intersectionTree (shiftOracle X T data m) es m = .ok c) :
    ∃ (Y : Nat → ℝ → ℂ) (ca cb : Nat → ℂ), Branches m n x' es Y ca cb ∧ HoldsNumbers m es ca cb c ∧
      ∀ (k : Nat) (yd : YData A), data[k]? = some yd → R yd.ya (ca k) ∧ R yd.yb (cb k) := by
  have hne : ∀ ed ∈ es, ed.a < n ∧ ed.b < n ∧ ed.a ≠ ed.b := by
    intro ed hed
    obtain ⟨k, hk, rfl⟩ := List.getElem_of_mem hed
    have := (hgr k (by simpa using hk)).1
    exact ⟨(hes _ hed).1, (hes _ hed).2, by simpa using this⟩
  obtain ⟨u, hu⟩ := exactData_exists E T hR (by omega) (fun ed hed => ⟨(hne ed hed).1, (hne ed hed).2.1, fun h => (hne ed hed).2.2 (hx (hne ed hed).1 (hne ed hed).2.1 h)⟩) hdata
  obtain ⟨hlen, hget⟩ := treeYdataInit_get hdata
  refine ⟨storedY m n data u, _, _, branches_of (by omega) (fun ed hed h => (hne ed hed).2.2 (hx (hne ed hed).1 (hne ed hed).2.1 h)) hfree hlen hu,
    holdsNumbers_of hm (plainTree_balls E hT hm hx hes hgr hfree hlen hu hres hc), fun k yd hd => ?_⟩
  obtain ⟨ed, h1, -⟩ := hget k yd hd
  obtain ⟨h2, h3, -⟩ := hu k ed yd h1 hd
  unfold YData.ya YData.yb
  rw [h2]
  exact ⟨h3 _, h3 _⟩

/-- **C50 (from the points).** On exact numbers nothing fails: for every `m ≥ 2` below `2^62` and all `n ≥ 1` distinct branch points, with either method of integration, the tree,
the data and the intersection matrix are computed, and the matrix holds the crossing numbers, at the branch points, of the closed paths over the edges for the determinations of `y` stored. -/
theorem C50_from_points {sort : List (Edge ℝ) → List (Edge ℝ)} (hsort : SortsByR sort) {lam : ℝ} (hlam : lam ≠ 0) (type : IntType)
    {x : Nat → ℂ} {n m N : Nat} (hN : N < n) (hm : 2 ≤ m) (hm' : m < 2 ^ 62) (hx : Set.InjOn x (Set.Iio n)) :
    ∃ tr data c, spanningTreeOf (exactCOps lam) (WOps.ofOrder (-1)) sort x (treeInit (WOps.ofOrder (-1)) N) n type = .ok tr ∧
      treeYdataInit exact exactTests x n m tr.e = .ok data ∧ intersectionTree (shiftOracle exact exactTests data m) tr.e m = .ok c ∧
      ∃ (Y : Nat → ℝ → ℂ) (ca cb : Nat → ℂ), Branches m n x tr.e Y ca cb ∧ HoldsNumbers m tr.e ca cb c ∧
        ∀ (k : Nat) (yd : YData ℂ), data[k]? = some yd → yd.ya = ca k ∧ yd.yb = cb k := by
  obtain ⟨tr, data, c, h1, hlen, hgr, -, hbl, hdat, hdl, hc, hed, -⟩ := C14_from_points hsort hlam type hN hm hm' hx
  have h1' := h1
  unfold spanningTreeOf at h1'
  obtain ⟨t1, e1, -, -, -, g2⟩ := C09_grows_as_tree (WOps.ofOrder (-1)) sort hsort.perm _ (treeInit (WOps.ofOrder (-1 : ℝ)) N) n (Or.inl (by simp [treeInit]; omega))
  obtain rfl := Res.ok.inj (h1'.symm.trans e1)
  have hes : ∀ ed ∈ tr.e, ed.a < n ∧ ed.b < n := fun ed h => ⟨(g2 ed h).1, (g2 ed h).2.1⟩
  have hfree : FreeEdges x n tr.e := fun f hf k hk ha hb t t1 t2 e => hbl f hf ⟨k, hk, ha, hb, t, t1, t2, e⟩
  have hres : Resolved exact exactTests x tr.e data := resolved_exact (m := m) hx hes hgr hfree fun k ed yd hk hd => by
    obtain ⟨hk', rfl⟩ := List.getElem?_eq_some_iff.1 hk
    exact hed k hk' yd hd
  exact ⟨tr, data, c, h1, hdat, hc, C50_intersection_numbers exact_encloses exactTests_sound (fun k => rfl) hm hx hes hgr hfree hdat hres hc⟩

/-- **C50 (symplectic basis).** In the situation of `C50_intersection_numbers`, for a tree of as many edges as `abel_jacobi_init_poly` asks for and `g` the genus of the curve: the reduction terminates, and the loops
returned form a symplectic basis for the intersection numbers of the paths (with duals `±1`), unless a coefficient does not fit a machine integer and the program aborts. -/
theorem C50_symplectic_basis (xg : XGcd) (E : Encloses X exact R) {T : Tests A} (hT : SoundTests T R) {x : Nat → A} {x' : Nat → ℂ} (hR : ∀ k, R (x k) (x' k))
    {n m g : Nat} (hm : 2 ≤ m) (hx : Set.InjOn x' (Set.Iio n)) (hg : IsGenus m n g) {es : List (Edge W)} (hes : ∀ ed ∈ es, ed.a < n ∧ ed.b < n)
    (hlen : EdgeCount m n es.length) (hgr : GrowsAsTree (es.map fun f => (f.a, f.b))) (hfree : FreeEdges x' n es) {data : List (YData A)} (hdata : treeYdataInit X T x n m es = .ok data)
    (hres : Resolved X T x' es data) {c : IMat} (hc : intersectionTree (shiftOracle X T data m) es m = .ok c) :
    ∃ (Y : Nat → ℝ → ℂ) (ca cb : Nat → ℂ), Branches m n x' es Y ca cb ∧ HoldsNumbers m es ca cb c ∧
      ∃ P : Mat (es.length * (m - 1)), Unimodular P ∧ 2 * g ≤ es.length * (m - 1) ∧
      (∀ a b, 2 * g ≤ a.val → (P * c.toMat (es.length * (m - 1)) * P.transpose) a b = 0) ∧ ∃ N, ∀ fuel, N ≤ fuel →
        ((∀ a j : Fin (es.length * (m - 1)), a.val < 2 * g → FitsSlong (P a j)) →
          ∃ al be, symplecticBasis xg fuel (shiftOracle X T data m) es m g = .ok (al, be) ∧
            IsSymplecticBasis es.length (m - 1) g (fun s t => c (s.1 * (m - 1) + s.2) (t.1 * (m - 1) + t.2)) P al be ∧
            UnitDual (fun s t => c (s.1 * (m - 1) + s.2) (t.1 * (m - 1) + t.2)) al be) ∧
        (¬ (∀ a j : Fin (es.length * (m - 1)), a.val < 2 * g → FitsSlong (P a j)) →
          symplecticBasis xg fuel (shiftOracle X T data m) es m g = .abort "coefficient too large in basis") := by
  obtain ⟨Y, ca, cb, q1, q2, -⟩ := C50_intersection_numbers E hT hR hm hx hes hgr hfree hdata hres hc
  have hne : ∀ ed ∈ es, ed.a < n ∧ ed.b < n ∧ ed.a ≠ ed.b := by
    intro ed hed
    obtain ⟨k, hk, rfl⟩ := List.getElem_of_mem hed
    have := (hgr k (by simpa using hk)).1
    exact ⟨(hes _ hed).1, (hes _ hed).2, by simpa using this⟩
  obtain ⟨u, hu⟩ := exactData_exists E T hR (by omega) (fun ed hed => ⟨(hne ed hed).1, (hne ed hed).2.1, fun h => (hne ed hed).2.2 (hx (hne ed hed).1 (hne ed hed).2.1 h)⟩) hdata
  have hp := plainTree_balls E hT hm hx hes hgr hfree (treeYdataInit_get hdata).1 hu hres hc
  refine ⟨Y, ca, cb, q1, q2, basis_of_rank xg hm hc (fun a b => hp.anti a b a.isLt b.isLt) fun F _ => ?_⟩
  exact rank_of_plainTree hm hlen hg (fun _ => ⟨_, _, _, _, _, hp⟩) F

/-- **C50 (curves of degree two and three in `y`).** For `m = 2` and `m = 3` the basis is always returned, after one pass for each pair: positively oriented for the intersection numbers of the paths, with
coefficients `±1`. -/
theorem C50_small_basis (xg : XGcd) (E : Encloses X exact R) {T : Tests A} (hT : SoundTests T R) {x : Nat → A} {x' : Nat → ℂ} (hR : ∀ k, R (x k) (x' k))
    {m n g : Nat} (hm : m = 2 ∨ m = 3) (hx : Set.InjOn x' (Set.Iio n)) (hg : IsGenus m n g) {es : List (Edge W)} (hes : ∀ ed ∈ es, ed.a < n ∧ ed.b < n)
    (hlen : EdgeCount m n es.length) (hgr : GrowsAsTree (es.map fun f => (f.a, f.b))) (hfree : FreeEdges x' n es) {data : List (YData A)} (hdata : treeYdataInit X T x n m es = .ok data)
    (hres : Resolved X T x' es data) {c : IMat} (hc : intersectionTree (shiftOracle X T data m) es m = .ok c) :
    ∃ (Y : Nat → ℝ → ℂ) (ca cb : Nat → ℂ), Branches m n x' es Y ca cb ∧ HoldsNumbers m es ca cb c ∧
      ∃ (P : Mat (es.length * (m - 1))) (al be : List (List Gamma)), (∀ fuel, 1 ≤ fuel → symplecticBasis xg fuel (shiftOracle X T data m) es m g = .ok (al, be)) ∧
          IsSymplecticBasis es.length (m - 1) g (fun s t => c (s.1 * (m - 1) + s.2) (t.1 * (m - 1) + t.2)) P al be ∧
          PositiveDual (fun s t => c (s.1 * (m - 1) + s.2) (t.1 * (m - 1) + t.2)) al be ∧ SignCoeffs (al ++ be) := by
  have hm2 : 2 ≤ m := by omega
  obtain ⟨Y, ca, cb, q1, q2, -⟩ := C50_intersection_numbers E hT hR hm2 hx hes hgr hfree hdata hres hc
  have hne : ∀ ed ∈ es, ed.a < n ∧ ed.b < n ∧ x' ed.a ≠ x' ed.b := by
    intro ed hed
    obtain ⟨k, hk, rfl⟩ := List.getElem_of_mem hed
    have := (hgr k (by simpa using hk)).1
    exact ⟨(hes _ hed).1, (hes _ hed).2, fun h => by simpa using this (by simpa using hx (hes _ hed).1 (hes _ hed).2 h)⟩
  obtain ⟨u, hu⟩ := exactData_exists E T hR (by omega) hne hdata
  have hp := plainTree_balls E hT hm2 hx hes hgr hfree (treeYdataInit_get hdata).1 hu hres hc
  obtain ⟨P, -, -, al, be, k1, k2, k3, k4⟩ := basis_of_pu xg hm2 hc (fun a b => hp.anti a b a.isLt b.isLt) (rank_of_plainTree hm2 hlen hg (fun _ => ⟨_, _, _, _, _, hp⟩) ℚ)
    (pu_small_of_plainTree hm fun _ => ⟨_, _, _, _, _, hp⟩)
  exact ⟨Y, ca, cb, q1, q2, P, al, be, k1, k2, k3, k4⟩

/-- **C50 (hyperelliptic curves).** For `m = 2` the basis is always returned, after one pass for each pair: positively oriented for the intersection numbers of the paths, with
coefficients `±1`. -/
theorem C50_hyperelliptic_basis (xg : XGcd) (E : Encloses X exact R) {T : Tests A} (hT : SoundTests T R) {x : Nat → A} {x' : Nat → ℂ} (hR : ∀ k, R (x k) (x' k))
    {n g : Nat} (hx : Set.InjOn x' (Set.Iio n)) (hg : IsGenus 2 n g) {es : List (Edge W)} (hes : ∀ ed ∈ es, ed.a < n ∧ ed.b < n)
    (hlen : EdgeCount 2 n es.length) (hgr : GrowsAsTree (es.map fun f => (f.a, f.b))) (hfree : FreeEdges x' n es) {data : List (YData A)} (hdata : treeYdataInit X T x n 2 es = .ok data)
    (hres : Resolved X T x' es data) {c : IMat} (hc : intersectionTree (shiftOracle X T data 2) es 2 = .ok c) :
    ∃ (Y : Nat → ℝ → ℂ) (ca cb : Nat → ℂ), Branches 2 n x' es Y ca cb ∧ HoldsNumbers 2 es ca cb c ∧
      ∃ (P : Mat (es.length * (2 - 1))) (al be : List (List Gamma)), (∀ fuel, 1 ≤ fuel → symplecticBasis xg fuel (shiftOracle X T data 2) es 2 g = .ok (al, be)) ∧
          IsSymplecticBasis es.length (2 - 1) g (fun s t => c (s.1 * (2 - 1) + s.2) (t.1 * (2 - 1) + t.2)) P al be ∧
          PositiveDual (fun s t => c (s.1 * (2 - 1) + s.2) (t.1 * (2 - 1) + t.2)) al be ∧ SignCoeffs (al ++ be) :=
  C50_small_basis xg E hT hR (Or.inl rfl) hx hg hes hlen hgr hfree hdata hres hc

/-- the sign of the crossing number: the imaginary axis, run upwards, crosses the real axis, run to the right, from the right to the left -/
theorem crossing_axes : crossing ⟨-1, 1⟩ ⟨-Complex.I, Complex.I⟩ = 1 := by
  have hpi := Real.pi_pos
  have t1 : Turns (-1 : ℂ) 1 Real.pi := by
    unfold Turns
    rw [Complex.exp_pi_mul_I]
    simp
  have t2 : Turns Complex.I 1 (Real.pi / 2) := by
    unfold Turns
    push_cast
    rw [Complex.exp_pi_div_two_mul_I]
    simp
  have t3 : Turns (-Complex.I) 1 (-(Real.pi / 2)) := by
    unfold Turns
    push_cast
    rw [← neg_div, Complex.exp_neg_pi_div_two_mul_I]
    simp
  have t4 : Turns (-Complex.I) (-1) (Real.pi / 2) := by
    unfold Turns
    push_cast
    rw [Complex.exp_pi_div_two_mul_I]
    simp
  have hI := Complex.I_ne_zero
  have b1 : Between 1 (-1) Complex.I := (between_iff one_ne_zero (by norm_num) hI t2 t1 hpi (by linarith)).2 ⟨0, by push_cast; linarith, by push_cast; linarith⟩
  have b2 : ¬ Between 1 (-1) (-Complex.I) := by
    rw [between_iff one_ne_zero (by norm_num) (neg_ne_zero.2 hI) t3 t1 hpi (by linarith)]
    rintro ⟨j, h1, h2⟩
    have k1 : (1 : ℝ) < 4 * j := by by_contra h; push Not at h; nlinarith
    have k2 : (4 : ℝ) * j < 3 := by by_contra h; push Not at h; nlinarith
    have k1' : (1 : ℤ) < 4 * j := by exact_mod_cast k1
    have k2' : 4 * j < (3 : ℤ) := by exact_mod_cast k2
    omega
  have z1 : ¬ Turns (-Complex.I) 1 0 := by
    rw [turns_zero_iff one_ne_zero (neg_ne_zero.2 hI) t3]
    rintro ⟨j, h⟩
    have k1 : (4 : ℝ) * j = 1 := by
      have : Real.pi * (4 * (j : ℝ) - 1) = 0 := by linarith
      rcases mul_eq_zero.1 this with h | h
      · exact absurd h hpi.ne'
      · linarith
    have k1' : 4 * j = (1 : ℤ) := by exact_mod_cast k1
    omega
  have z2 : ¬ Turns (-Complex.I) (-1) 0 := by
    rw [turns_zero_iff (by norm_num) (neg_ne_zero.2 hI) t4]
    rintro ⟨j, h⟩
    have k1 : (4 : ℝ) * j = -1 := by
      have : Real.pi * (4 * (j : ℝ) + 1) = 0 := by linarith
      rcases mul_eq_zero.1 this with h | h
      · exact absurd h hpi.ne'
      · linarith
    have k1' : 4 * j = (-1 : ℤ) := by exact_mod_cast k1
    omega
  unfold crossing leftSide
  simp only
  rw [if_pos b1, if_neg b2, if_neg (by tauto)]
  norm_num

/-- an instance of `C50_from_points`: `y^3 = x (x - 1) (x - 2) (x - 3)` -/
example : ∃ (tr : Tree ℝ) (c : IMat) (Y : Nat → ℝ → ℂ) (ca cb : Nat → ℂ), tr.e.length = 3 ∧ Branches 3 4 (fun k => (k : ℂ)) tr.e Y ca cb ∧ HoldsNumbers 3 tr.e ca cb c := by
  have hx : Set.InjOn (fun k : Nat => (k : ℂ)) (Set.Iio 4) := fun a _ b _ h => Nat.cast_injective (R := ℂ) h
  obtain ⟨tr, data, c, h1, -, -, Y, ca, cb, q1, q2, -⟩ := C50_from_points sortByR_sorts (lam := Real.pi / 2) (by positivity) .de (n := 4) (m := 3) (N := 3) (by norm_num) (by norm_num) (by norm_num) hx
  obtain ⟨tr', -, -, h1', hl, -⟩ := C14_from_points (m := 3) (n := 4) (N := 3) sortByR_sorts (lam := Real.pi / 2) (by positivity) .de (by norm_num) (by norm_num) (by norm_num) hx
  obtain rfl := Res.ok.inj (h1.symm.trans h1')
  exact ⟨tr, c, Y, ca, cb, hl, q1, q2⟩

end Hcp
