import Verif.Props.GcEdge
import Verif.Props.Periods
import Verif.Spec.Cycle

/-!
# C47: the period matrix of a hyperelliptic curve contains the periods
-/

namespace Hcp

variable {A B : Type} {X : Arith A} {R : A → ℂ → Prop} {P : ParOps A B} {D : DblOps} {RB : B → ℝ → Prop}

theorem cycleInt_eq (a b : ℂ) (i : Nat) (Y : ℝ → ℂ) (s : Nat) : Spec.cycleInt a b i Y s = (-1) ^ s * (2 * Spec.segInt a b i Y) := by
  have key : ∀ s : Nat, Spec.segInt a b i (fun t => (-1) ^ s * Y t) = (-1) ^ s * Spec.segInt a b i Y := by
    intro s
    unfold Spec.segInt
    rw [← intervalIntegral.integral_const_mul]
    apply intervalIntegral.integral_congr
    intro t _
    simp only
    have : ((-1 : ℂ) ^ s)⁻¹ = (-1) ^ s := by
      rw [← inv_pow]
      norm_num
    rw [div_eq_mul_inv, mul_inv, this, div_eq_mul_inv]
    ring
  unfold Spec.cycleInt
  rw [key, key, pow_succ]
  ring

theorem periods_of {W : Type} (E : Encloses X exact R) {F : Fns A} (HF : EnclosesFns F exactFns R) (HP : Spec.ParSound P R RB) (T : Tests A)
    {n : Nat} (hn : 3 ≤ n) {c : Sec} (h : secInit 2 n = .ok c) {x' : Nat → ℂ}
    {es : List (Edge W)} (hes : ∀ ed ∈ es, x' ed.a ≠ x' ed.b) {data : List (YData A)} (hlen : data.length = es.length) {u : Nat → Nat → ℂ} (hu : ExactData R 2 n x' es data u)
    {flag : Nat} {fuel : Nat} {prec : Int} {par : Nat → GcPar} {e : Nat → ℝ} {err : Nat → A → A}
    (hpar : ∀ (k : Nat) (yd : YData A), data[k]? = some yd → gcParams P D fuel ((List.range (n - 2)).map yd.u) c.shape.g prec = .ok (par k) ∧ (par k).e = some (e k) ∧
      1 < (par k).r ∧ (par k).r ≤ (par k).r0 ∧ 1 ≤ (par k).n)
    (herr : ∀ k v z z', R v z → ‖z - z'‖ ≤ e k → R (err k v) z')
    {ks : List Nat} (hks : ks.Perm (List.range es.length)) (hmono : ks.Pairwise fun k l => (par l).n.toNat ≤ (par k).n.toNat)
    (hf : ∀ (k j : Nat) (yd : YData A), j < es.length → data[k]? = some yd → RootsOk X T F R (n + 3) yd.u yd.n1 (n - 2) (par j).n.toNat flag)
    {I I' : Nat → Nat → A} (hI : ∀ k r, R (I k r) 0) {gc0 : GcInt A} (h0 : gc0.n = 0)
    (hrun : integralsTreeGc X T F c.shape flag data (fun k => (par k).n.toNat) err ks gc0 I = .ok I')
    (basis : List (List Gamma)) (hb : c.shape.g ≤ basis.length)
    (hT : ∀ l ∈ basis, ∀ t ∈ l, t.index < es.length ∧ t.shift < 2 ∧ -(2 ^ 62) < t.coeff ∧ t.coeff < 2 ^ 62) :
    (∀ (k : Nat) (ed : Edge W), es[k]? = some ed → Spec.IsBranch n x' (x' ed.a) (x' ed.b) (storedY 2 n data u k)) ∧
      ∃ om : Nat → Nat → A, periodMatrix X c.shape basis es.length I' = .ok om ∧
      ∀ (i k : Nat) (lp : List Gamma), i < c.shape.g → k < c.shape.g → basis[k]? = some lp →
        R (om i k) (lp.map fun t => (t.coeff : ℂ) * match es[t.index]? with
          | some ed => Spec.cycleInt (x' ed.a) (x' ed.b) i (storedY 2 n data u t.index) t.shift
          | none => 0).sum := by
  have hn2 : (2 : Int) ≤ n := by omega
  have hm : c.shape.m = 2 := by
    obtain ⟨_, e1, _⟩ := secInit_fields h hn2
    unfold Sec.shape
    simp [e1]
  obtain ⟨J, hJ1, hJ2⟩ := tree_rows E HF HP T hn h hes hlen hu hpar herr (hks.nodup_iff.2 List.nodup_range) hmono (fun k j yd _ hj => hf k j yd (List.mem_range.1 (hks.mem_iff.1 hj))) hI h0 hrun
  have hY : ∀ (k : Nat) (ed : Edge W), es[k]? = some ed → Spec.IsBranch n x' (x' ed.a) (x' ed.b) (storedY 2 n data u k) ∧
      ∀ i < c.shape.g, J k i = 2 * Spec.segInt (x' ed.a) (x' ed.b) i (storedY 2 n data u k) := by
    intro k ed h'
    have hk : k < es.length := (List.getElem?_eq_some_iff.1 h').1
    obtain ⟨ed', h1, h2, h4⟩ := hJ2 k (hks.mem_iff.2 (List.mem_range.2 hk))
    obtain rfl := Option.some.inj (h1.symm.trans h')
    exact ⟨h2, h4⟩
  have hT' : ∀ l ∈ basis, ∀ t ∈ l, t.index < es.length ∧ t.shift < c.shape.m ∧ -(2 ^ 62) < t.coeff ∧ t.coeff < 2 ^ 62 := by
    rw [hm]
    exact hT
  obtain ⟨om, om', e1, e2, h3⟩ := C17_encloses E hn2 h basis hb hJ1 hT'
  obtain ⟨om2, e3, h4⟩ := C17_period_matrix hn2 h basis hb J hT'
  obtain rfl : om' = om2 := Res.ok.inj (e2.symm.trans e3)
  refine ⟨fun k ed hk => (hY k ed hk).1, om, e1, fun i k lp hi hk hlp => ?_⟩
  have := h3 i k
  rw [h4 i i 1 k lp hi (diffOf_two hn2 h hi) hk hlp] at this
  refine (congrArg (R (om i k)) ?_).mp this
  congr 1
  apply List.map_congr_left
  intro t ht
  have hlt := (hT lp (List.mem_of_getElem? hlp) t ht).1
  rw [List.getElem?_eq_getElem hlt]
  simp only
  rw [cycleInt_eq, (hY t.index _ (List.getElem?_eq_getElem hlt)).2 i hi, hm, mul_one]
  have hz2 : Spec.zeta 2 = -1 := by
    unfold Spec.zeta
    rw [← Complex.exp_pi_mul_I]
    congr 1
    push_cast
    ring
  rw [hz2, ← inv_pow, show (-1 : ℂ)⁻¹ = -1 by norm_num, mul_assoc]

/-- **C47 (partial).** Curve `y^2 = ∏ (x - x_k)` with `n ≥ 3` distinct branch points given by balls.  Let the rows of the matrix of integrals be computed by the Gauss-Chebyshev rule
for all the edges `es` (hypotheses as in `C45_tree_partial`; for the default option the turning numbers at the nodes are decided by the balls, `RootsOk`), and let `basis` be at least `g` loops, written as combinations of elementary cycles (edge, sheet) of the tree with
coefficients below `2^62`.  Then on every edge there is a continuous determination of `y` such that entry `(i, k)` of the matrix computed contains the integral of `x^i dx / y` over loop `k`. -/
theorem C47_periods_partial {W : Type} (E : Encloses X exact R) {F : Fns A} (HF : EnclosesFns F exactFns R) (HP : Spec.ParSound P R RB) (T : Tests A)
    {n : Nat} (hn : 3 ≤ n) {c : Sec} (h : secInit 2 n = .ok c) {x : Nat → A} {x' : Nat → ℂ} (hR : ∀ k, R (x k) (x' k))
    {es : List (Edge W)} (hes : ∀ ed ∈ es, ed.a < n ∧ ed.b < n ∧ x' ed.a ≠ x' ed.b) {data : List (YData A)} (hdata : treeYdataInit X T x n 2 es = .ok data)
    {flag : Nat} {fuel : Nat} {prec : Int} {par : Nat → GcPar} {e : Nat → ℝ} {err : Nat → A → A}
    (hpar : ∀ (k : Nat) (yd : YData A), data[k]? = some yd → gcParams P D fuel ((List.range (n - 2)).map yd.u) c.shape.g prec = .ok (par k) ∧ (par k).e = some (e k) ∧
      1 < (par k).r ∧ (par k).r ≤ (par k).r0 ∧ 1 ≤ (par k).n)
    (herr : ∀ k v z z', R v z → ‖z - z'‖ ≤ e k → R (err k v) z')
    {ks : List Nat} (hks : ks.Perm (List.range es.length)) (hmono : ks.Pairwise fun k l => (par l).n.toNat ≤ (par k).n.toNat)
    (hf : ∀ (k j : Nat) (yd : YData A), j < es.length → data[k]? = some yd → RootsOk X T F R (n + 3) yd.u yd.n1 (n - 2) (par j).n.toNat flag)
    {I I' : Nat → Nat → A} (hI : ∀ k r, R (I k r) 0) {gc0 : GcInt A} (h0 : gc0.n = 0)
    (hrun : integralsTreeGc X T F c.shape flag data (fun k => (par k).n.toNat) err ks gc0 I = .ok I')
    (basis : List (List Gamma)) (hb : c.shape.g ≤ basis.length)
    (hT : ∀ l ∈ basis, ∀ t ∈ l, t.index < es.length ∧ t.shift < 2 ∧ -(2 ^ 62) < t.coeff ∧ t.coeff < 2 ^ 62) :
    ∃ (Y : Nat → ℝ → ℂ) (om : Nat → Nat → A), (∀ (k : Nat) (ed : Edge W), es[k]? = some ed → Spec.IsBranch n x' (x' ed.a) (x' ed.b) (Y k)) ∧
      periodMatrix X c.shape basis es.length I' = .ok om ∧
      ∀ (i k : Nat) (lp : List Gamma), i < c.shape.g → k < c.shape.g → basis[k]? = some lp →
        R (om i k) (lp.map fun t => (t.coeff : ℂ) * match es[t.index]? with
          | some ed => Spec.cycleInt (x' ed.a) (x' ed.b) i (Y t.index) t.shift
          | none => 0).sum := by
  obtain ⟨u, hu⟩ := exactData_exists E T hR (by norm_num) hes hdata
  obtain ⟨k1, om, k2, k3⟩ := periods_of E HF HP T hn h (fun ed hed => (hes ed hed).2.2) (treeYdataInit_get hdata).1 hu hpar herr hks hmono hf hI h0 hrun basis hb hT
  exact ⟨_, om, k1, k2, k3⟩

end Hcp
