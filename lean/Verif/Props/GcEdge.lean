import Verif.Props.GcParams
import Verif.Props.Gauss
import Verif.Props.Edge
import Verif.Props.YData
import Verif.Spec.Crossing
import Verif.Spec.Cycle

/-!
# C45: the integrals of an edge, with their error
-/

namespace Hcp

open MeasureTheory Set

variable {A B : Type} {X : Arith A} {R : A → ℂ → Prop} {P : ParOps A B} {D : DblOps} {RB : B → ℝ → Prop}

/-- the differentials of `y^2 = f(x)` are `x^i dx / y` -/
theorem diffOf_two {n : Int} {c : Sec} (hn : 2 ≤ n) (h : secInit 2 n = .ok c) {r : Nat} (hr : r < c.shape.g) :
    Spec.diffOf c.shape.ni c.shape.j1 r = (r, 1) := by
  have hc := shape_good hn h
  have he := diffOf_exp hc hr
  obtain ⟨k, nij, i, h1, h2, h3, h4⟩ := diffOf_spec c.shape.ni c.shape.j1 r (by rw [hc.sum]; exact hr)
  have hm : c.shape.m = 2 := by
    obtain ⟨_, e1, _⟩ := secInit_fields h hn
    unfold Sec.shape
    simp [e1]
  have hj := hc.j1
  rw [h4] at he ⊢
  simp only [hm] at he
  have hk : k = 0 := by omega
  subst hk
  simp only [List.take_zero, List.sum_nil, zero_add] at h3
  rw [h3]
  congr 1
  omega

theorem branchY_two (n n1 : Nat) (u : Nat → ℂ) (t : ℝ) : Spec.branchY 2 n n1 u t = u n * Spec.edgeY 2 n1 (n - 2) u t * (√(1 - t ^ 2) : ℝ) := by
  unfold Spec.branchY
  rw [Real.sqrt_eq_rpow]
  norm_num

theorem rOf_of_mem {t : ℝ} (h1 : -1 ≤ t) (h2 : t ≤ 1) : Spec.rOf (t : ℂ) = 1 := by
  unfold Spec.rOf
  rw [show (t : ℂ) - 1 = ((t - 1 : ℝ) : ℂ) by push_cast; ring, show (t : ℂ) + 1 = ((t + 1 : ℝ) : ℂ) by push_cast; ring, Complex.norm_real, Complex.norm_real, Real.norm_eq_abs,
    Real.norm_eq_abs, abs_of_nonpos (by linarith), abs_of_nonneg (by linarith)]
  ring

theorem edge_row (E : Encloses X exact R) {F : Fns A} (HF : EnclosesFns F exactFns R) (HP : Spec.ParSound P R RB) (T : Tests A)
    {n : Nat} (hn : 3 ≤ n) {c : Sec} (h : secInit 2 n = .ok c) {x' : Nat → ℂ}
    {a b : Nat} (hx : x' a ≠ x' b) {yd : YData A} (hyn : yd.n = n) {u' : Nat → ℂ} (hu' : ∀ i, R (yd.u i) (u' i)) (hE : Spec.EdgeData 2 n x' a b yd.n1 u')
    {flag : Nat} {fuel : Nat} {prec : Int} {p : GcPar} {e : ℝ}
    (hp : gcParams P D fuel ((List.range (n - 2)).map yd.u) c.shape.g prec = .ok p) (he : p.e = some e) (h1 : 1 < p.r) (h2 : p.r ≤ p.r0) (hpn : 1 ≤ p.n)
    {N : Nat} (hN : p.n ≤ N) (hf : RootsOk X T F R (n + 3) yd.u yd.n1 (n - 2) N flag) {err : A → A} (herr : ∀ v z z', R v z → ‖z - z'‖ ≤ e → R (err v) z') {r row : Nat → A}
    (hr : gcIntegrals X T F (n + 3) yd.u yd.n1 (n - 2) c.shape.g N flag = .ok r)
    (hrow : edgeFactors X c.shape yd.ba2 yd.ab yd.c (fun i => if i < c.shape.g then err (r i) else r i) = .ok row) :
    Spec.IsBranch n x' (x' a) (x' b) (Spec.branchY 2 n yd.n1 u') ∧
      ∃ row' : Nat → ℂ, (∀ i, R (row i) (row' i)) ∧ ∀ i < c.shape.g, row' i = 2 * Spec.segInt (x' a) (x' b) i (Spec.branchY 2 n yd.n1 u') := by
  have hn2 : (2 : Int) ≤ n := by omega
  have hc := shape_good hn2 h
  have hm : c.shape.m = 2 := by
    obtain ⟨_, e1, _⟩ := secInit_fields h hn2
    unfold Sec.shape
    simp [e1]
  have hg : 0 < c.shape.g := by
    obtain ⟨_, _, _, eδ, eg, _⟩ := secInit_fields h hn2
    have h2 : c.delta ≤ 2 := by
      rw [eδ]
      exact Int.le_of_dvd (by norm_num) (Int.gcd_dvd_left _ _)
    have h3 : n = 3 → c.delta = 1 := by
      rintro rfl
      rw [eδ]
      rfl
    have : 0 < c.g := by
      rw [eg]
      rcases Nat.lt_or_ge 3 n with h4 | h4
      · omega
      · have := h3 (by omega)
        omega
    unfold Sec.shape
    simp only
    omega
  have hu2 : List.Forall₂ R ((List.range (n - 2)).map yd.u) ((List.range (n - 2)).map u') := by
    rw [List.forall₂_map_left_iff, List.forall₂_map_right_iff, List.forall₂_same]
    exact fun k _ => hu' k
  have hY : ∀ t : ℂ, Spec.edgeY 2 yd.n1 ((List.range (n - 2)).map u').length (fun k => ((List.range (n - 2)).map u').getD k 0) t = Spec.edgeY 2 yd.n1 (n - 2) u' t := by
    intro t
    have hk : ∀ k < n - 2, ((List.range (n - 2)).map u').getD k 0 = u' k := by
      intro k hk
      simp [List.getD_eq_getElem?_getD, hk]
    unfold Spec.edgeY
    rw [List.length_map, List.length_range]
    congr 1
    · exact Finset.prod_congr rfl fun k hk' => by beta_reduce; rw [hk k (lt_of_lt_of_le (Finset.mem_range.1 hk') hE.n1_le)]
    · exact Finset.prod_congr rfl fun k hk' => by beta_reduce; rw [hk k (Finset.mem_Ico.1 hk').2]
  have hsep : ∀ k < n - 2, p.r < Spec.rOf (u' k) := fun k hk =>
    gcParams_sep HP hu2 hp h1 h2 (u' k) (List.mem_map.2 ⟨k, List.mem_range.2 hk, rfl⟩)
  obtain ⟨hcont, hne⟩ := edgeY_regular h1.le (m := 2) hE.n1_le hsep
  obtain ⟨rr, r', e2, hr1, hr2⟩ := gcIntegrals_sum E HF T (sz := n + 3) hg (by omega) hE.n1_le hu' N flag hf fun _ => ⟨by omega, fun t t1 t2 k hk e => by
    have h3 := hsep k hk
    rw [e, rOf_of_mem t1 t2] at h3
    linarith⟩
  obtain rfl : r = rr := Res.ok.inj (hr.symm.trans e2)
  -- the integrals on [-1, 1]
  let φ : ℝ → ℂ := fun t => (Spec.edgeY 2 yd.n1 (n - 2) u' t)⁻¹ * ((√(1 - t ^ 2)⁻¹ : ℝ) : ℂ)
  have hφ : IntervalIntegrable φ volume (-1) 1 := by
    have hw : IntervalIntegrable (fun x : ℝ => √(1 - x ^ 2)⁻¹) volume (-1) 1 := Polynomial.Chebyshev.intervalIntegrable_sqrt_one_sub_sq_inv
    have hw' : IntervalIntegrable (fun x : ℝ => ((√(1 - x ^ 2)⁻¹ : ℝ) : ℂ)) volume (-1) 1 := ⟨hw.1.ofReal, hw.2.ofReal⟩
    refine hw'.continuousOn_mul ?_
    rw [uIcc_of_le (by norm_num)]
    exact hcont.inv₀ hne
  let z : Nat → ℂ := fun i => if i < c.shape.g then ∫ t in (-1 : ℝ)..1, (t : ℂ) ^ i * φ t else r' i
  have hz : ∀ i, R (if i < c.shape.g then err (r i) else r i) (z i) := by
    intro i
    by_cases hi : i < c.shape.g
    · simp only [hi, if_true, z]
      refine herr _ _ _ (hr1 i) ?_
      have := C45_error_partial HP hu2 hp he h1 h2 hpn hN (i := i) hi.le (n1 := yd.n1) (by simpa using hE.n1_le)
      simp only [hY] at this
      rw [hr2 i hi]
      refine le_of_eq_of_le ?_ this
      congr 2
      apply intervalIntegral.integral_congr
      intro t _
      simp only [φ]
      ring
    · simp only [hi, if_false, z]
      exact hr1 i
  have hb2 : R yd.ba2 ((x' b - x' a) / 2) := by
    have := hu' (n - 2)
    rw [hE.ba2] at this
    unfold YData.ba2
    rwa [hyn]
  have hab2 : R yd.ab ((x' a + x' b) / (x' b - x' a)) := by
    have := hu' (n - 1)
    rw [hE.ab, add_comm] at this
    unfold YData.ab
    rwa [hyn]
  have hcc : R yd.c (u' n) := by
    unfold YData.c
    rw [hyn]
    exact hu' n
  obtain ⟨y, y', ey, ey', hyy⟩ := C19_encloses E hn2 h hb2 hab2 hcc hz
  obtain rfl : row = y := Res.ok.inj (hrow.symm.trans ey)
  obtain ⟨y2, ey2, hy2⟩ := C19_change_of_variables hn2 h (x' a) (x' b) (u' n) hx (fun _ => φ) (fun _ => hφ) z (by
    intro r i j hr hij
    rw [diffOf_two hn2 h hr] at hij
    obtain ⟨rfl, rfl⟩ := Prod.mk.inj hij
    simp only [z, hr, if_true])
  obtain rfl : y' = y2 := Res.ok.inj (ey'.symm.trans ey2)
  have hbr : Spec.branchY 2 n yd.n1 u' = fun t : ℝ => u' n * Spec.edgeY 2 yd.n1 (n - 2) u' t * (√(1 - t ^ 2) : ℝ) := funext fun t => branchY_two n yd.n1 u' t
  rw [hbr]
  refine ⟨⟨?_, fun t ht => ?_⟩, y', hyy, fun i hi => ?_⟩
  · refine (continuousOn_const.mul hcont).mul ?_
    exact (Complex.continuous_ofReal.comp (by fun_prop : Continuous fun t : ℝ => √(1 - t ^ 2))).continuousOn
  · rw [← hE.eqn, mul_pow, ← Complex.ofReal_pow, Real.sq_sqrt (by nlinarith [ht.1, ht.2])]
    push_cast
    rfl
  · unfold Spec.segInt
    rw [hy2 i i 1 hi (diffOf_two hn2 h hi), hm]
    have hz2 : Spec.zeta 2 = -1 := by
      unfold Spec.zeta
      rw [← Complex.exp_pi_mul_I]
      congr 1
      push_cast
      ring
    rw [hz2]
    rw [pow_one, pow_one, show (1 - (-1 : ℂ)⁻¹) = 2 by norm_num, div_mul_eq_mul_div, mul_div_assoc, ← intervalIntegral.integral_div]
    congr 1
    apply intervalIntegral.integral_congr
    intro t _
    simp only [φ]
    rw [Real.sqrt_inv]
    push_cast
    rw [div_eq_mul_inv, div_eq_mul_inv _ (u' n * _ * _), mul_inv, mul_inv]
    ring

/-- **C45 (edge, partial).** Curve `y^2 = ∏ (x - x_k)` with `n ≥ 3` branch points given by balls, any edge between distinct points `x_a`, `x_b`.  Suppose the data of the edge
are computed, the parameters are computed with an ellipse parameter in `(1, r0]`, and the row is computed with at least as many points as required, each value being
enlarged by the error; with the default option for roots the balls decide the turning numbers at the nodes (`RootsOk`).  Then there is a continuous determination `Y` of `y` along the segment from `x_a` to `x_b` such that cell `i` of the row contains the value of
`2 ∫ x^i dx / Y` over the segment. -/
theorem C45_edge_partial (E : Encloses X exact R) {F : Fns A} (HF : EnclosesFns F exactFns R) (HP : Spec.ParSound P R RB) (T : Tests A)
    {n : Nat} (hn : 3 ≤ n) {c : Sec} (h : secInit 2 n = .ok c) {x : Nat → A} {x' : Nat → ℂ} (hR : ∀ k, R (x k) (x' k))
    {a b : Nat} (ha : a < n) (hb : b < n) (hab : a ≠ b) (hx : x' a ≠ x' b) {yd : YData A} (hyd : ydataInitEdge X T x a b n 2 = .ok yd)
    {flag : Nat} {fuel : Nat} {prec : Int} {p : GcPar} {e : ℝ}
    (hp : gcParams P D fuel ((List.range (n - 2)).map yd.u) c.shape.g prec = .ok p) (he : p.e = some e) (h1 : 1 < p.r) (h2 : p.r ≤ p.r0) (hpn : 1 ≤ p.n)
    {N : Nat} (hN : p.n ≤ N) (hf : RootsOk X T F R (n + 3) yd.u yd.n1 (n - 2) N flag) {err : A → A} (herr : ∀ v z z', R v z → ‖z - z'‖ ≤ e → R (err v) z') {r row : Nat → A}
    (hr : gcIntegrals X T F (n + 3) yd.u yd.n1 (n - 2) c.shape.g N flag = .ok r)
    (hrow : edgeFactors X c.shape yd.ba2 yd.ab yd.c (fun i => if i < c.shape.g then err (r i) else r i) = .ok row) :
    ∃ Y : ℝ → ℂ, ContinuousOn Y (Icc (-1) 1) ∧ (∀ t ∈ Icc (-1 : ℝ) 1, Y t ^ 2 = ∏ k ∈ Finset.range n, (Spec.edgePt (x' a) (x' b) t - x' k)) ∧
      ∀ i < c.shape.g, R (row i) (2 * ∫ t in (-1 : ℝ)..1, Spec.edgePt (x' a) (x' b) t ^ i / Y t * ((x' b - x' a) / 2)) := by
  rcases C20_edge_data E T hR ha hb hab (m := 2) (by norm_num) hx with ⟨yd', e1, hym, hyn, u', hu', hE⟩ | ⟨e1, -⟩
  swap
  · rw [hyd] at e1; cases e1
  obtain rfl : yd = yd' := Res.ok.inj (hyd.symm.trans e1)
  obtain ⟨⟨k1, k2⟩, row', k3, k4⟩ := edge_row E HF HP T hn h hx hyn hu' hE hp he h1 h2 hpn hN hf herr hr hrow
  exact ⟨_, k1, k2, fun i hi => k4 i hi ▸ k3 i⟩

theorem treeYdataInit_get {W : Type} {T : Tests A} {x : Nat → A} {n m : Nat} : ∀ {es : List (Edge W)} {data : List (YData A)},
    treeYdataInit X T x n m es = .ok data → data.length = es.length ∧
      ∀ (k : Nat) (yd : YData A), data[k]? = some yd → ∃ ed : Edge W, es[k]? = some ed ∧ ydataInitEdge X T x ed.a ed.b n m = .ok yd
  | [], data, h => by
    simp only [treeYdataInit, Res.ok.injEq] at h
    subst h
    simp
  | ed :: es, data, h => by
    simp only [treeYdataInit, Res.bind_eq_ok] at h
    obtain ⟨y, h1, ys, h2, h⟩ := h
    obtain rfl := Res.ok.inj h
    obtain ⟨k1, k2⟩ := treeYdataInit_get h2
    refine ⟨by simp [k1], fun k yd hk => ?_⟩
    cases k with
    | zero =>
      simp only [List.getElem?_cons_zero, Option.some.injEq] at hk
      exact ⟨ed, rfl, hk ▸ h1⟩
    | succ k =>
      simp only [List.getElem?_cons_succ] at hk ⊢
      exact k2 k yd hk

theorem integralsTreeGc_other {T : Tests A} {F : Fns A} {c : Shape} {flag : Nat} {data : List (YData A)} {need : Nat → Nat} {err : Nat → A → A} :
    ∀ {ks : List Nat} {gc : GcInt A} {I I' : Nat → Nat → A}, integralsTreeGc X T F c flag data need err ks gc I = .ok I' →
      ∀ k, k ∉ ks → I' k = I k
  | [], gc, I, I', h, k, _ => by
    simp only [integralsTreeGc, Res.ok.injEq] at h
    rw [h]
  | l :: ks, gc, I, I', h, k, hk => by
    simp only [integralsTreeGc] at h
    cases hd : data[l]? with
    | none => rw [hd] at h; cases h
    | some ye =>
    rw [hd] at h
    simp only [Res.bind_eq_ok] at h
    obtain ⟨s, _, h⟩ := h
    rw [integralsTreeGc_other h k (fun h => hk (List.mem_cons_of_mem _ h))]
    rw [if_neg (fun h : k = l => hk (h ▸ List.mem_cons_self))]

/-- exact data contained in the balls stored for the edges -/
def ExactData {W : Type} (R : A → ℂ → Prop) (m n : Nat) (x : Nat → ℂ) (es : List (Edge W)) (data : List (YData A)) (u : Nat → Nat → ℂ) : Prop :=
  ∀ (k : Nat) (ed : Edge W) (yd : YData A), es[k]? = some ed → data[k]? = some yd → yd.n = n ∧ (∀ i, R (yd.u i) (u k i)) ∧ Spec.EdgeData m n x ed.a ed.b yd.n1 (u k)

theorem exactData_exists {W : Type} (E : Encloses X exact R) (T : Tests A) {x : Nat → A} {x' : Nat → ℂ} (hR : ∀ k, R (x k) (x' k)) {n m : Nat} (hm : 0 < m)
    {es : List (Edge W)} (hes : ∀ ed ∈ es, ed.a < n ∧ ed.b < n ∧ x' ed.a ≠ x' ed.b) {data : List (YData A)}
    (hdata : treeYdataInit X T x n m es = .ok data) : ∃ u, ExactData R m n x' es data u := by
  have key : ∀ k : Nat, ∃ u : Nat → ℂ, ∀ (ed : Edge W) (yd : YData A), es[k]? = some ed → data[k]? = some yd → yd.n = n ∧ (∀ i, R (yd.u i) (u i)) ∧ Spec.EdgeData m n x' ed.a ed.b yd.n1 u := by
    intro k
    rcases hd : data[k]? with _ | yd
    · exact ⟨fun _ => 0, fun _ _ _ h => by cases h⟩
    · obtain ⟨ed, h1, h2⟩ := (treeYdataInit_get hdata).2 k yd hd
      obtain ⟨ha, hb, hab⟩ := hes ed (List.mem_of_getElem? h1)
      rcases C20_edge_data E T hR ha hb (fun h => hab (by rw [h])) hm hab with ⟨yd', e1, -, hn, u', hu, hE⟩ | ⟨e1, -⟩
      swap
      · rw [h2] at e1; cases e1
      obtain rfl : yd = yd' := Res.ok.inj (h2.symm.trans e1)
      refine ⟨u', fun ed' yd' h3 h4 => ?_⟩
      obtain rfl := Option.some.inj (h1.symm.trans h3)
      obtain rfl := Option.some.inj h4
      exact ⟨hn, hu, hE⟩
  choose u hu using key
  exact ⟨u, hu⟩

/-- the determinations of `y` given by exact data contained in the balls -/
noncomputable def storedY (m n : Nat) (data : List (YData A)) (u : Nat → Nat → ℂ) (k : Nat) : ℝ → ℂ :=
  match data[k]? with
  | some yd => Spec.branchY m n yd.n1 (u k)
  | none => 0

/-- the rows of the matrix of integrals, with the determinations of `y` given by exact data -/
theorem tree_rows {W : Type} (E : Encloses X exact R) {F : Fns A} (HF : EnclosesFns F exactFns R) (HP : Spec.ParSound P R RB) (T : Tests A)
    {n : Nat} (hn : 3 ≤ n) {c : Sec} (h : secInit 2 n = .ok c) {x' : Nat → ℂ}
    {es : List (Edge W)} (hes : ∀ ed ∈ es, x' ed.a ≠ x' ed.b) {data : List (YData A)} (hlen : data.length = es.length) {u : Nat → Nat → ℂ} (hu : ExactData R 2 n x' es data u)
    {flag : Nat} {fuel : Nat} {prec : Int} {par : Nat → GcPar} {e : Nat → ℝ} {err : Nat → A → A}
    (hpar : ∀ (k : Nat) (yd : YData A), data[k]? = some yd → gcParams P D fuel ((List.range (n - 2)).map yd.u) c.shape.g prec = .ok (par k) ∧ (par k).e = some (e k) ∧
      1 < (par k).r ∧ (par k).r ≤ (par k).r0 ∧ 1 ≤ (par k).n)
    (herr : ∀ k v z z', R v z → ‖z - z'‖ ≤ e k → R (err k v) z')
    {ks : List Nat} (hnd : ks.Nodup) (hmono : ks.Pairwise fun k l => (par l).n.toNat ≤ (par k).n.toNat)
    (hf : ∀ (k j : Nat) (yd : YData A), k ∈ ks → j ∈ ks → data[k]? = some yd → RootsOk X T F R (n + 3) yd.u yd.n1 (n - 2) (par j).n.toNat flag)
    {I I' : Nat → Nat → A} (hI : ∀ k r, R (I k r) 0) {gc0 : GcInt A} (h0 : gc0.n = 0)
    (hrun : integralsTreeGc X T F c.shape flag data (fun k => (par k).n.toNat) err ks gc0 I = .ok I') :
    ∃ J : Nat → Nat → ℂ, (∀ k r, R (I' k r) (J k r)) ∧ ∀ k ∈ ks, ∃ ed : Edge W, es[k]? = some ed ∧ Spec.IsBranch n x' (x' ed.a) (x' ed.b) (storedY 2 n data u k) ∧
        ∀ i < c.shape.g, J k i = 2 * Spec.segInt (x' ed.a) (x' ed.b) i (storedY 2 n data u k) := by
  have hn2 : (2 : Int) ≤ n := by omega
  have hcn : c.shape.n = n := by
    obtain ⟨_, _, e2, _⟩ := secInit_fields h hn2
    unfold Sec.shape
    simp [e2]
  have hrows := C26_enough_points_partial X T F c.shape flag data _ err ks hnd hmono I I' gc0 h0 hrun
  have key : ∀ k, ∃ J : Nat → ℂ, (∀ r, R (I' k r) (J r)) ∧ (k ∈ ks → ∃ ed : Edge W, es[k]? = some ed ∧ Spec.IsBranch n x' (x' ed.a) (x' ed.b) (storedY 2 n data u k) ∧
        ∀ i < c.shape.g, J i = 2 * Spec.segInt (x' ed.a) (x' ed.b) i (storedY 2 n data u k)) := by
    intro k
    by_cases hk : k ∈ ks
    · obtain ⟨yd, N, r, hd, hN, ⟨j, hj, rfl⟩, hr, hrow⟩ := hrows k hk
      rw [hcn] at hr
      have hk' : k < es.length := by
        have := (List.getElem?_eq_some_iff.1 hd).1
        omega
      have hed : es[k]? = some es[k] := List.getElem?_eq_getElem hk'
      have hx := hes _ (List.mem_of_getElem? hed)
      obtain ⟨v1, v2, v3⟩ := hu k _ _ hed hd
      obtain ⟨p1, p2, p3, p4, p5⟩ := hpar k yd hd
      obtain ⟨k1, row', k3, k4⟩ := edge_row E HF HP T hn h hx v1 v2 v3 p1 p2 p3 p4 p5 (by omega) (hf k j yd hk hj hd) (herr k) hr hrow
      have hY : storedY 2 n data u k = Spec.branchY 2 n yd.n1 (u k) := by unfold storedY; rw [hd]
      rw [hY]
      exact ⟨row', k3, fun _ => ⟨_, hed, k1, k4⟩⟩
    · refine ⟨fun _ => 0, fun r => ?_, fun h => absurd h hk⟩
      rw [integralsTreeGc_other hrun k hk]
      exact hI k r
  choose J hJ1 hJ2 using key
  exact ⟨J, hJ1, hJ2⟩

/-- **C45 (tree, partial).** All the rows at once: data of the edges of a tree, parameters of each edge with ellipse parameter in `(1, r0]`, rows computed in an order in
which the required number of points does not increase, starting from a matrix of zeros.  Then the matrix encloses a matrix `J` whose row `k` consists of the true
integrals `2 ∫ x^i dx / Y_k` over the edge number `k`, for a continuous determination `Y_k` of `y` on it. -/
theorem C45_tree_partial {W : Type} (E : Encloses X exact R) {F : Fns A} (HF : EnclosesFns F exactFns R) (HP : Spec.ParSound P R RB) (T : Tests A)
    {n : Nat} (hn : 3 ≤ n) {c : Sec} (h : secInit 2 n = .ok c) {x : Nat → A} {x' : Nat → ℂ} (hR : ∀ k, R (x k) (x' k))
    {es : List (Edge W)} (hes : ∀ ed ∈ es, ed.a < n ∧ ed.b < n ∧ x' ed.a ≠ x' ed.b) {data : List (YData A)} (hdata : treeYdataInit X T x n 2 es = .ok data)
    {flag : Nat} {fuel : Nat} {prec : Int} {par : Nat → GcPar} {e : Nat → ℝ} {err : Nat → A → A}
    (hpar : ∀ (k : Nat) (yd : YData A), data[k]? = some yd → gcParams P D fuel ((List.range (n - 2)).map yd.u) c.shape.g prec = .ok (par k) ∧ (par k).e = some (e k) ∧
      1 < (par k).r ∧ (par k).r ≤ (par k).r0 ∧ 1 ≤ (par k).n)
    (herr : ∀ k v z z', R v z → ‖z - z'‖ ≤ e k → R (err k v) z')
    {ks : List Nat} (hnd : ks.Nodup) (hmono : ks.Pairwise fun k l => (par l).n.toNat ≤ (par k).n.toNat)
    (hf : ∀ (k j : Nat) (yd : YData A), k ∈ ks → j ∈ ks → data[k]? = some yd → RootsOk X T F R (n + 3) yd.u yd.n1 (n - 2) (par j).n.toNat flag)
    {I I' : Nat → Nat → A} (hI : ∀ k r, R (I k r) 0) {gc0 : GcInt A} (h0 : gc0.n = 0)
    (hrun : integralsTreeGc X T F c.shape flag data (fun k => (par k).n.toNat) err ks gc0 I = .ok I') :
    ∃ J : Nat → Nat → ℂ, (∀ k r, R (I' k r) (J k r)) ∧ ∀ k ∈ ks, ∃ ed : Edge W, es[k]? = some ed ∧
      ∃ Y : ℝ → ℂ, ContinuousOn Y (Icc (-1) 1) ∧ (∀ t ∈ Icc (-1 : ℝ) 1, Y t ^ 2 = ∏ k ∈ Finset.range n, (Spec.edgePt (x' ed.a) (x' ed.b) t - x' k)) ∧
        ∀ i < c.shape.g, J k i = 2 * ∫ t in (-1 : ℝ)..1, Spec.edgePt (x' ed.a) (x' ed.b) t ^ i / Y t * ((x' ed.b - x' ed.a) / 2) := by
  obtain ⟨u, hu⟩ := exactData_exists E T hR (by norm_num) hes hdata
  obtain ⟨J, hJ1, hJ2⟩ := tree_rows E HF HP T hn h (fun ed hed => (hes ed hed).2.2) (treeYdataInit_get hdata).1 hu hpar herr hnd hmono hf hI h0 hrun
  refine ⟨J, hJ1, fun k hk => ?_⟩
  obtain ⟨ed, h1, ⟨h2, h3⟩, h4⟩ := hJ2 k hk
  exact ⟨ed, h1, _, h2, h3, h4⟩

end Hcp
