import Verif.Props.DeEdge
import Verif.Props.Crossing
import Verif.Props.Periods
import Verif.Props.HyperPeriods
import Verif.Props.Curve
import Verif.Props.DeError

/-!
# C52: periods of superelliptic curves
-/

namespace Hcp

open Spec

variable {A W : Type} {X : Arith A} {R : A → ℂ → Prop}

/-- the number of differentials is the genus -/
theorem isGenus_shape {m n : Int} {c : Sec} (hn : 2 ≤ n) (h : secInit m n = .ok c) : IsGenus m n c.shape.g := by
  have h1 := (C01_differentials_sum_to_genus hn h).1
  obtain ⟨hm, -⟩ := secInit_fields h hn
  have h2 : 0 ≤ c.g := by
    unfold IsGenus at h1
    have h3 : ((Int.gcd m n : Nat) : Int) ≤ m := Int.le_of_dvd (by omega) (Int.gcd_dvd_left _ _)
    nlinarith
  have : ((c.shape.g : Nat) : Int) = c.g := by
    unfold Sec.shape
    simp only
    omega
  rw [this]
  exact h1

theorem segIntM_smul (a b : ℂ) (i j : Nat) (z : ℂ) (Y : ℝ → ℂ) : segIntM a b i j (fun t => z * Y t) = (z ^ j)⁻¹ * segIntM a b i j Y := by
  unfold segIntM
  rw [← intervalIntegral.integral_const_mul]
  apply intervalIntegral.integral_congr
  intro t _
  simp only
  rw [mul_pow, div_eq_mul_inv, mul_inv, div_eq_mul_inv _ (Y t ^ j)]
  ring

theorem cycleIntM_eq (m : Nat) (a b : ℂ) (i j : Nat) (Y : ℝ → ℂ) (s : Nat) :
    cycleIntM m a b i j Y s = (zeta m ^ (s * j))⁻¹ * ((1 - (zeta m ^ j)⁻¹) * segIntM a b i j Y) := by
  unfold cycleIntM
  rw [segIntM_smul, segIntM_smul, ← pow_mul, ← pow_mul, show (s + 1) * j = s * j + j by ring, pow_add, mul_inv]
  ring

/-- For `m = 2` these are the cycles of `C47`. -/
theorem cycleIntM_two (a b : ℂ) (i : Nat) (Y : ℝ → ℂ) (s : Nat) : cycleIntM 2 a b i 1 Y s = cycleInt a b i Y s := by
  have hz2 : zeta 2 = -1 := by
    unfold zeta
    rw [← Complex.exp_pi_mul_I]
    congr 1
    push_cast
    ring
  simp only [cycleIntM, cycleInt, segIntM, segInt, pow_one, hz2]

/-- integral of `x^i dx / y^j` over a loop written as a combination of elementary cycles, `Y k` being the determination of `y` on edge number `k` -/
noncomputable def loopPeriodM (m : Nat) (x : Nat → ℂ) (es : List (Edge W)) (Y : Nat → ℝ → ℂ) (i j : Nat) (l : List Gamma) : ℂ :=
  (l.map fun t => (t.coeff : ℂ) * match es[t.index]? with
    | some ed => cycleIntM m (x ed.a) (x ed.b) i j (Y t.index) t.shift
    | none => 0).sum

/-- the radius `e j` of each scheme covers the error of its sums on every edge: for all points `u` of the coordinates contained in the stored balls of edge `k`, the trapezoidal sum of the scheme
number `j` is within `e j` of the integral, for the `g` differentials -/
def RadiusCovers (R : A → ℂ → Prop) (c : Shape) (m n : Nat) (x : Nat → ℂ) (es : List (Edge W)) (data : List (YData A)) (par : Nat → DePar A) (h lam e : Nat → ℝ) : Prop :=
  ∀ (k j : Nat) (ed : Edge W) (yd : YData A) (u : Nat → ℂ), es[k]? = some ed → data[k]? = some yd → j < es.length → (∀ i, R (yd.u i) (u i)) → EdgeData m n x ed.a ed.b yd.n1 u →
    ∀ r i l, r < c.g → diffOf c.ni c.j1 r = (i, l) → ‖trapSum m yd.n1 (n - 2) u (lam j) i l (h j) (par j).n - edgeIntegral m yd.n1 (n - 2) u i l‖ ≤ e j

/-- `e` is at least the bound of `C53_error_bound` for the sum with `N` points, step `h` and scaling `l`, for some half width `r` of a strip which the points `u` do not meet -/
def EnoughRadius (m d : Nat) (u : Nat → ℂ) (l h : ℝ) (N i j : Nat) (e : ℝ) : Prop :=
  ∃ r ρ S M : ℝ, 0 < r ∧ r < ρ ∧ ρ ≤ Real.pi / 2 ∧ Real.pi * Real.sin r ≤ 2 * l ∧ FreeStrip l ρ d u ∧
    (∀ x y : ℝ, |y| = r → edgeSize m d i j u (deZ l (x + y * Complex.I)) ≤ S) ∧ (∀ x : ℝ, -1 < x → x < 1 → edgeSize m d i j u x ≤ M) ∧
    (1 / 2 ≤ 2 * (1 - j / m) * l ∨ 1 ≤ 2 * (1 - j / m) * l * Real.sinh ((N - 1 : ℕ) * h)) ∧
    2 * (S * (2 / Real.cos r * (Real.cos r * Real.sqrt (Real.pi / 2 / (l * Real.sin r) - 1) * Real.cos (l * Real.sin r) ^ (-(2 * (1 - j / m : ℝ))) +
        Real.sinh (Real.cos r * Real.sqrt (Real.pi / 2 / (l * Real.sin r) - 1)) ^ (-(2 * (1 - j / m : ℝ))) / (2 * (1 - j / m))))) / (Real.exp (2 * Real.pi * r / h) - 1) +
      M * 2 ^ (2 * (1 - j / m : ℝ)) / (1 - j / m) * Real.exp (-(2 * (1 - j / m) * l * Real.sinh ((N - 1 : ℕ) * h))) ≤ e

/-- **C52 (radius).** The hypothesis `RadiusCovers` holds for radii at least equal to the explicit bound, with constants for the points of the edge on which the scheme is used and for each of the
differentials. -/
theorem C52_radius {m n : Nat} (hn : 2 ≤ n) {c : Sec} (h : secInit m n = .ok c) {x' : Nat → ℂ} {es : List (Edge W)} (hfree : FreeEdges x' n es) {data : List (YData A)}
    {par : Nat → DePar A} {h' lam' e : Nat → ℝ} (hlam : ∀ j < es.length, 1 ≤ lam' j ∧ lam' j ≤ Real.pi / 2 ∧ 0 < h' j ∧ 0 < (par j).n)
    (hb : ∀ (k j : Nat) (ed : Edge W) (yd : YData A) (u : Nat → ℂ), es[k]? = some ed → data[k]? = some yd → j < es.length → (∀ i, R (yd.u i) (u i)) → EdgeData m n x' ed.a ed.b yd.n1 u →
      ∀ r i l, r < c.shape.g → diffOf c.shape.ni c.shape.j1 r = (i, l) → EnoughRadius m (n - 2) u (lam' j) (h' j) (par j).n i l (e j)) :
    RadiusCovers R c.shape m n x' es data par h' lam' e := by
  intro k j ed yd u hk hd hj hu hE r i l hr hil
  have hn2 : (2 : Int) ≤ n := by omega
  have hc := shape_good hn2 h
  have hm : c.shape.m = m := by
    obtain ⟨_, e1, _⟩ := secInit_fields h hn2
    unfold Sec.shape
    simp [e1]
  have hl := diffOf_exp hc hr
  rw [hil, hm] at hl
  obtain ⟨g1, g2, g3, g4⟩ := hlam j hj
  obtain ⟨w, ρ, S, M, f1, f2, f3, f4, f5, f6, f7, f8, f9⟩ := hb k j ed yd u hk hd hj hu hE r i l hr hil
  have hm2 : 2 ≤ m := hm ▸ hc.m
  have hfr := edgeData_free hE (hfree ed (List.mem_of_getElem? hk))
  refine (C53_error_bound (by omega) hl.2 hE.n1_le g1 g2 f1 f2 f3 f4 f5 (fun k hk => ⟨?_, ?_⟩) g3 f6 f7 rfl rfl rfl rfl g4 f8).trans f9
  · simpa using hfr k hk 1 (by norm_num) le_rfl
  · simpa using hfr k hk (-1) le_rfl (by norm_num)

/-- Such radii exist whenever no point is on the edge. -/
theorem enoughRadius_exists {m d i j N : Nat} {u : Nat → ℂ} (hfree : ∀ k < d, ∀ t : ℝ, -1 ≤ t → t ≤ 1 → u k ≠ t) {l h : ℝ} (hl1 : 1 ≤ l) (hl2 : l ≤ Real.pi / 2)
    (hc : 1 / 2 ≤ 2 * (1 - j / m) * l ∨ 1 ≤ 2 * (1 - j / m) * l * Real.sinh ((N - 1 : ℕ) * h)) : ∃ e, EnoughRadius m d u l h N i j e := by
  have hl : 0 < l := by linarith
  obtain ⟨o, ho⟩ := (C54_returns hl (fun _ => 0) ((List.range d).map u) 1 2 64).2 (by
    intro x x1 x2 hx
    obtain ⟨k, hk, e⟩ := List.mem_map.1 hx
    exact hfree k (List.mem_range.1 hk) x x1 x2 e)
  obtain ⟨a1, a2, -⟩ := deParams_ok ho
  obtain ⟨s1, -, ρ, s3, s4, s5⟩ := C54_strip hl hl2 a2
  have hpi := Real.pi_gt_d2
  have hne := freeStrip_of_list s5
  have hpm := ne_one_of_list a1
  have hr : 0 < min o.r (1 / 2) := lt_min s1 (by norm_num)
  have hrρ : min o.r (1 / 2) < ρ := lt_of_le_of_lt (min_le_left _ _) s3
  obtain ⟨S, -, hS⟩ := line_bound_exists (m := m) (i := i) (j := j) hl hl2 hr.le hrρ (by linarith) hne hpm
  obtain ⟨M, -, hM⟩ := path_bound_exists (m := m) (i := i) (j := j) hl (s1.trans s3) hne hpm
  refine ⟨_, min o.r (1 / 2), ρ, S, M, hr, hrρ, by linarith, ?_, hne, hS, hM, hc, le_rfl⟩
  have h1 : Real.sin (min o.r (1 / 2)) ≤ 1 / 2 := (Real.sin_le hr.le).trans (min_le_right _ _)
  have hpi2 := Real.pi_lt_d2
  nlinarith

theorem de_tree_rows (E : Encloses X exact R) {F : Fns A} (H : EnclosesFns F exactFns R) (T : Tests A) {m n : Nat} (hn : 2 ≤ n) {c : Sec} (h : secInit m n = .ok c) {x' : Nat → ℂ}
    {es : List (Edge W)} (hes : ∀ ed ∈ es, x' ed.a ≠ x' ed.b) (hfree : FreeEdges x' n es) {data : List (YData A)} {u : Nat → Nat → ℂ}
    (hu : ExactData R m n x' es data u) {flag : Nat} {big : Bool} {par : Nat → DePar A} {h' lam' e : Nat → ℝ} (hpar : ∀ k, R (par k).h (h' k) ∧ R (par k).lam (lam' k))
    (herr : ∀ k v z z', R v z → ‖z - z'‖ ≤ e k → R ((par k).err v) z') (hcov : RadiusCovers R c.shape m n x' es data par h' lam' e)
    {ks : List Nat} (hks : ks.Perm (List.range es.length))
    (hf : ∀ (k j : Nat) (yd : YData A), j < es.length → data[k]? = some yd → DeRootsOk X T F R (n + 3) yd.u yd.n1 (n - 2) m flag big (par j))
    {I I' : Nat → Nat → A} (hI : ∀ k r, R (I k r) 0) {de0 : DeInt A} (h0 : de0.n = 0) (hrun : integralsTreeDe X T F c.shape flag big data par ks de0 I = .ok I') :
    ∃ J : Nat → Nat → ℂ, (∀ k r, R (I' k r) (J k r)) ∧ ∀ (k : Nat) (ed : Edge W), es[k]? = some ed → ∀ r i j, r < c.shape.g → diffOf c.shape.ni c.shape.j1 r = (i, j) →
      J k r = (1 - (zeta m ^ j)⁻¹) * segIntM (x' ed.a) (x' ed.b) i j (storedY m n data u k) := by
  have hn2 : (2 : Int) ≤ n := by omega
  obtain ⟨_, e1, e2, _⟩ := secInit_fields h hn2
  have hcn : c.shape.n = n := by
    unfold Sec.shape
    simp [e2]
  have hcm : c.shape.m = m := by
    unfold Sec.shape
    simp [e1]
  obtain ⟨q1, q2⟩ := integralsTreeDe_rows (hks.nodup_iff.2 List.nodup_range) h0 hrun
  have key : ∀ k, ∃ z : Nat → ℂ, (∀ r, R (I' k r) (z r)) ∧ ∀ ed : Edge W, es[k]? = some ed → ∀ r i j, r < c.shape.g → diffOf c.shape.ni c.shape.j1 r = (i, j) →
      z r = (1 - (zeta m ^ j)⁻¹) * segIntM (x' ed.a) (x' ed.b) i j (storedY m n data u k) := by
    intro k
    by_cases hk : k ∈ ks
    · obtain ⟨yd, j, de, r, hd, hj, f1, f2, f3⟩ := q2 k hk
      have hj' : j < es.length := List.mem_range.1 (hks.mem_iff.1 hj)
      have hk' : k < es.length := List.mem_range.1 (hks.mem_iff.1 hk)
      have hke : es[k]? = some es[k] := List.getElem?_eq_getElem hk'
      obtain ⟨v1, v2, v3⟩ := hu k _ _ hke hd
      rw [hcn] at f2
      rw [hcm] at f1
      obtain ⟨row', r1, r2⟩ := de_edge_row E H T hn h (hes _ (List.getElem_mem hk')) (hfree _ (List.getElem_mem hk')) v1 v2 v3 (hpar j).1 (hpar j).2 (hf k j yd hj' hd) (herr j)
        (hcov k j _ yd (u k) hke hd hj' v2 v3) f1 f2 f3
      refine ⟨row', r1, fun ed hed => ?_⟩
      obtain rfl := Option.some.inj (hke.symm.trans hed)
      unfold storedY
      rw [hd]
      exact r2
    · refine ⟨fun _ => 0, fun r => by rw [q1 k hk]; exact hI k r, fun ed hed => ?_⟩
      exact absurd (hks.mem_iff.2 (List.mem_range.2 (List.getElem?_eq_some_iff.1 hed).1)) hk
  choose J hJ using key
  exact ⟨J, fun k => (hJ k).1, fun k => (hJ k).2⟩

/-- from the integrals along the edges to the periods -/
theorem periods_of_rows (E : Encloses X exact R) {m n : Nat} (hn : 2 ≤ n) {c : Sec} (h : secInit m n = .ok c) {x' : Nat → ℂ}
    {es : List (Edge W)} {Y : Nat → ℝ → ℂ} {I' : Nat → Nat → A} {J : Nat → Nat → ℂ} (hJ1 : ∀ k r, R (I' k r) (J k r))
    (hJ2 : ∀ (k : Nat) (ed : Edge W), es[k]? = some ed → ∀ r i j, r < c.shape.g → diffOf c.shape.ni c.shape.j1 r = (i, j) →
      J k r = (1 - (zeta m ^ j)⁻¹) * segIntM (x' ed.a) (x' ed.b) i j (Y k))
    (basis : List (List Gamma)) (hb : c.shape.g ≤ basis.length)
    (hT : ∀ l ∈ basis, ∀ t ∈ l, t.index < es.length ∧ t.shift < m ∧ -(2 ^ 62) < t.coeff ∧ t.coeff < 2 ^ 62) :
    ∃ om : Nat → Nat → A, periodMatrix X c.shape basis es.length I' = .ok om ∧
      ∀ (r i j k : Nat) (lp : List Gamma), r < c.shape.g → diffOf c.shape.ni c.shape.j1 r = (i, j) → k < c.shape.g → basis[k]? = some lp →
        R (om r k) (loopPeriodM m x' es Y i j lp) := by
  have hn2 : (2 : Int) ≤ n := by omega
  have hcm : c.shape.m = m := by
    obtain ⟨_, e1, _⟩ := secInit_fields h hn2
    unfold Sec.shape
    simp [e1]
  rw [← hcm] at hT
  obtain ⟨om, om', e1, e2, h3⟩ := C17_encloses E hn2 h basis hb hJ1 hT
  obtain ⟨om2, e3, h4⟩ := C17_period_matrix hn2 h basis hb J hT
  obtain rfl : om' = om2 := Res.ok.inj (e2.symm.trans e3)
  refine ⟨om, e1, fun r i j k lp hr hij hk hlp => ?_⟩
  have := h3 r k
  rw [h4 r i j k lp hr hij hk hlp] at this
  refine (congrArg (R (om r k)) ?_).mp this
  unfold loopPeriodM
  congr 1
  apply List.map_congr_left
  intro t ht
  have hlt := (hT lp (List.mem_of_getElem? hlp) t ht).1
  rw [List.getElem?_eq_getElem hlt]
  simp only
  rw [cycleIntM_eq, hJ2 t.index _ (List.getElem?_eq_getElem hlt) r i j hr hij, hcm]
  ring

theorem de_periods_of (E : Encloses X exact R) {F : Fns A} (H : EnclosesFns F exactFns R) (T : Tests A) {m n : Nat} (hn : 2 ≤ n) {c : Sec} (h : secInit m n = .ok c) {x' : Nat → ℂ}
    {es : List (Edge W)} (hes : ∀ ed ∈ es, x' ed.a ≠ x' ed.b) (hfree : FreeEdges x' n es) {data : List (YData A)} {u : Nat → Nat → ℂ}
    (hu : ExactData R m n x' es data u) {flag : Nat} {big : Bool} {par : Nat → DePar A} {h' lam' e : Nat → ℝ} (hpar : ∀ k, R (par k).h (h' k) ∧ R (par k).lam (lam' k))
    (herr : ∀ k v z z', R v z → ‖z - z'‖ ≤ e k → R ((par k).err v) z') (hcov : RadiusCovers R c.shape m n x' es data par h' lam' e)
    {ks : List Nat} (hks : ks.Perm (List.range es.length))
    (hf : ∀ (k j : Nat) (yd : YData A), j < es.length → data[k]? = some yd → DeRootsOk X T F R (n + 3) yd.u yd.n1 (n - 2) m flag big (par j))
    {I I' : Nat → Nat → A} (hI : ∀ k r, R (I k r) 0) {de0 : DeInt A} (h0 : de0.n = 0) (hrun : integralsTreeDe X T F c.shape flag big data par ks de0 I = .ok I')
    (basis : List (List Gamma)) (hb : c.shape.g ≤ basis.length)
    (hT : ∀ l ∈ basis, ∀ t ∈ l, t.index < es.length ∧ t.shift < m ∧ -(2 ^ 62) < t.coeff ∧ t.coeff < 2 ^ 62) :
    ∃ om : Nat → Nat → A, periodMatrix X c.shape basis es.length I' = .ok om ∧
      ∀ (r i j k : Nat) (lp : List Gamma), r < c.shape.g → diffOf c.shape.ni c.shape.j1 r = (i, j) → k < c.shape.g → basis[k]? = some lp →
        R (om r k) (loopPeriodM m x' es (storedY m n data u) i j lp) := by
  obtain ⟨J, hJ1, hJ2⟩ := de_tree_rows E H T hn h hes hfree hu hpar herr hcov hks hf hI h0 hrun
  exact periods_of_rows E (by omega) h hJ1 hJ2 basis hb hT

/-- **C52 (partial).** Curve `y^m = ∏ (x - x_k)`, `m ≥ 2`, with `n ≥ 2` distinct branch points given by balls and `g` differentials `x^i dx / y^j`.  `es` is a list of as many edges as `abel_jacobi_init_poly` asks for, growing as a
tree, without a third branch point on them.  Suppose the data of the edges are computed, the directions of the edges with a common point are resolved, the intersection matrix is computed, and the rows of the matrix of integrals
are computed by the double-exponential rule, in any order and with any reuse of the schemes.  Then there are continuous determinations `Y` of `y` on the edges for which the matrix `c` holds the intersection
numbers of the closed paths over the edges, and, with enough passes, `symplectic_basis` either aborts or returns loops `alpha` and `beta` which form a symplectic basis for `c` and, if their coefficients are
below `2^62`, the two period matrices are computed and entry `(r, k)` contains the integral of differential number `r` over `alpha_k`, respectively `beta_k`.
Missing: `RadiusCovers` is a hypothesis, because the radius of `de_params` does not always cover the error (`C53_fails`), and because a reused scheme keeps the radius of
another edge (`C27_bound_of_other_edge`). -/
theorem C52_periods_partial (xg : XGcd) (E : Encloses X exact R) {F : Fns A} (H : EnclosesFns F exactFns R) {T : Tests A} (hTs : SoundTests T R)
    {m n : Nat} (hn : 2 ≤ n) (hm : 2 ≤ m) {c : Sec} (h : secInit m n = .ok c) {x : Nat → A} {x' : Nat → ℂ} (hR : ∀ k, R (x k) (x' k)) (hx : Set.InjOn x' (Set.Iio n))
    {es : List (Edge W)} (hes : ∀ ed ∈ es, ed.a < n ∧ ed.b < n) (hlen : EdgeCount m n es.length) (hgr : GrowsAsTree (es.map fun f => (f.a, f.b))) (hfree : FreeEdges x' n es)
    {data : List (YData A)} (hdata : treeYdataInit X T x n m es = .ok data)
    {flag : Nat} {big : Bool} {par : Nat → DePar A} {h' lam' e : Nat → ℝ} (hpar : ∀ k, R (par k).h (h' k) ∧ R (par k).lam (lam' k))
    (herr : ∀ k v z z', R v z → ‖z - z'‖ ≤ e k → R ((par k).err v) z') (hcov : RadiusCovers R c.shape m n x' es data par h' lam' e)
    {ks : List Nat} (hks : ks.Perm (List.range es.length))
    (hf : ∀ (k j : Nat) (yd : YData A), j < es.length → data[k]? = some yd → DeRootsOk X T F R (n + 3) yd.u yd.n1 (n - 2) m flag big (par j))
    {I I' : Nat → Nat → A} (hI : ∀ k r, R (I k r) 0) {de0 : DeInt A} (h0 : de0.n = 0) (hrun : integralsTreeDe X T F c.shape flag big data par ks de0 I = .ok I')
    (hres : Resolved X T x' es data) {cc : IMat} (hcc : intersectionTree (shiftOracle X T data m) es m = .ok cc) :
    ∃ (Y : Nat → ℝ → ℂ) (ca cb : Nat → ℂ) (N : Nat), Branches m n x' es Y ca cb ∧ HoldsNumbers m es ca cb cc ∧ ∀ fuel, N ≤ fuel →
      symplecticBasis xg fuel (shiftOracle X T data m) es m c.shape.g = .abort "coefficient too large in basis" ∨
      ∃ (Q : Mat (es.length * (m - 1))) (al be : List (List Gamma)), symplecticBasis xg fuel (shiftOracle X T data m) es m c.shape.g = .ok (al, be) ∧
        IsSymplecticBasis es.length (m - 1) c.shape.g (fun s t => cc (s.1 * (m - 1) + s.2) (t.1 * (m - 1) + t.2)) Q al be ∧
        UnitDual (fun s t => cc (s.1 * (m - 1) + s.2) (t.1 * (m - 1) + t.2)) al be ∧
        ((∀ l ∈ al ++ be, ∀ t ∈ l, -(2 ^ 62) < t.coeff ∧ t.coeff < 2 ^ 62) →
          ∃ om0 om1 : Nat → Nat → A, periodMatrix X c.shape al es.length I' = .ok om0 ∧ periodMatrix X c.shape be es.length I' = .ok om1 ∧
          ∀ (r i j k : Nat) (a b : List Gamma), r < c.shape.g → diffOf c.shape.ni c.shape.j1 r = (i, j) → al[k]? = some a → be[k]? = some b →
            R (om0 r k) (loopPeriodM m x' es Y i j a) ∧ R (om1 r k) (loopPeriodM m x' es Y i j b)) := by
  have hne : ∀ ed ∈ es, ed.a < n ∧ ed.b < n ∧ x' ed.a ≠ x' ed.b := by
    intro ed hed
    obtain ⟨k, hk, rfl⟩ := List.getElem_of_mem hed
    have := (hgr k (by simpa using hk)).1
    exact ⟨(hes _ hed).1, (hes _ hed).2, fun h => by simpa using this (by simpa using hx (hes _ hed).1 (hes _ hed).2 h)⟩
  have hne2 : ∀ ed ∈ es, x' ed.a ≠ x' ed.b := fun ed hed => (hne ed hed).2.2
  obtain ⟨u, hu⟩ := exactData_exists E T hR (by omega) hne hdata
  have hdl := (treeYdataInit_get hdata).1
  have hp := plainTree_balls E hTs hm hx hes hgr hfree hdl hu hres hcc
  have hg : IsGenus m n c.shape.g := isGenus_shape (by omega) h
  obtain ⟨Q, -, -, -, N, hN⟩ := basis_of_rank xg hm hcc (fun a b => hp.anti a b a.isLt b.isLt) fun F _ => rank_of_plainTree hm hlen hg (fun _ => ⟨_, _, _, _, _, hp⟩) F
  refine ⟨_, _, _, N, branches_of (by omega) hne2 hfree hdl hu, holdsNumbers_of hm hp, fun fuel hfuel => ?_⟩
  obtain ⟨n1, n2⟩ := hN fuel hfuel
  by_cases hfit : ∀ a j : Fin (es.length * (m - 1)), a.val < 2 * c.shape.g → FitsSlong (Q a j)
  swap
  · exact Or.inl (n2 hfit)
  obtain ⟨al, be, k1, k2, k3⟩ := n1 hfit
  refine Or.inr ⟨Q, al, be, k1, k2, k3, fun hsmall => ?_⟩
  have hterm : ∀ l ∈ al ++ be, ∀ t ∈ l, t.index < es.length ∧ t.shift < m ∧ -(2 ^ 62) < t.coeff ∧ t.coeff < 2 ^ 62 := by
    intro l hl t ht
    obtain ⟨-, w1, w2⟩ := (k2.terms l hl).1 t ht
    exact ⟨w1, by omega, hsmall l hl t ht⟩
  obtain ⟨om0, a2, a3⟩ := de_periods_of E H T hn h hne2 hfree hu hpar herr hcov hks hf hI h0 hrun al k2.lengths.1.ge fun l hl => hterm l (List.mem_append_left _ hl)
  obtain ⟨om1, b2, b3⟩ := de_periods_of E H T hn h hne2 hfree hu hpar herr hcov hks hf hI h0 hrun be k2.lengths.2.ge fun l hl => hterm l (List.mem_append_right _ hl)
  refine ⟨om0, om1, a2, b2, fun r i j k a b hr hij ha hb => ⟨a3 r i j k a hr hij ?_ ha, b3 r i j k b hr hij ?_ hb⟩⟩
  · have := (List.getElem?_eq_some_iff.1 ha).1
    rw [k2.lengths.1] at this
    exact this
  · have := (List.getElem?_eq_some_iff.1 hb).1
    rw [k2.lengths.2] at this
    exact this

end Hcp
