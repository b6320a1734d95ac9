import Verif.Props.DoubleExp
import Verif.Props.GcEdge
import Verif.Proofs.Branch
import Verif.Spec.DeError
import Verif.Spec.CycleM

/-!
# C52: the integrals of the edges by the double-exponential rule
-/

namespace Hcp

open MeasureTheory Set Spec

variable {A W : Type} {X : Arith A} {R : A → ℂ → Prop}

/-- `(1 - t^2)^(-a)` is integrable for `a < 1` -/
theorem one_sub_sq_rpow_integrable {a : ℝ} (ha : a < 1) : IntervalIntegrable (fun t : ℝ => (1 - t ^ 2) ^ (-a)) volume (-1) 1 := by
  have h0 : IntervalIntegrable (fun t : ℝ => t ^ (-a)) volume 0 1 := intervalIntegral.intervalIntegrable_rpow' (by linarith)
  have h1 : IntervalIntegrable (fun t : ℝ => (1 - t) ^ (-a)) volume 0 1 := by
    have := (h0.comp_sub_left 1).symm
    simpa using this
  have h2 : IntervalIntegrable (fun t : ℝ => (1 - t ^ 2) ^ (-a)) volume 0 1 := by
    have hc : ContinuousOn (fun t : ℝ => (1 + t) ^ (-a)) (uIcc 0 1) := by
      rw [uIcc_of_le (by norm_num)]
      exact ContinuousOn.rpow_const (by fun_prop) fun t ht => Or.inl (by linarith [ht.1])
    refine (h1.continuousOn_mul hc).congr ?_
    rw [uIoc_of_le (by norm_num)]
    intro t ht
    simp only
    rw [← Real.mul_rpow (by linarith [ht.1]) (by linarith [ht.2])]
    congr 1
    ring
  have h3 : IntervalIntegrable (fun t : ℝ => (1 - t ^ 2) ^ (-a)) volume (-1) 0 := by
    have := (h2.comp_sub_left 0).symm
    simpa using this
  exact h3.trans h2

/-- What is asked from the roots at the nodes: products of roots of the factors (`AJ_ROOT_DEF`), or one root of the product (`AJ_ROOT_PROD`, or the default at low precision), or the turning
numbers are decided by the balls. -/
def DeRootsOk (X : Arith A) (T : Tests A) (F : Fns A) (R : A → ℂ → Prop) (sz : Nat) (u : Nat → A) (d1 d m flag : Nat) (big : Bool) (p : DePar A) : Prop :=
  flag.testBit 5 = true ∨ (flag.testBit 7 = true ∨ flag.testBit 6 = false ∧ big = false) ∨
    (1 ≤ d ∧ SoundTests T R ∧ RealPoint T R ∧ ∀ de, deIntInit X F p.h p.lam p.n p.err m = .ok de → ∀ l < p.n,
      TurnOk X T sz u d1 d (de.x l) ∧ TurnOk X T sz u d1 d (X.neg (de.x l)))

theorem dePhi_abs_lt (l t : ℝ) : -1 < dePhi l t ∧ dePhi l t < 1 := by
  have h := one_sub_dePhi_sq l t
  have h2 : 0 < (Real.cosh (l * Real.sinh t) ^ 2)⁻¹ := inv_pos.2 (pow_pos (Real.cosh_pos _) 2)
  exact abs_lt.1 ((sq_lt_one_iff_abs_lt_one _).1 (by linarith))

/-- the sums computed for an edge without a third point on it -/
theorem de_sums (E : Encloses X exact R) {F : Fns A} (H : EnclosesFns F exactFns R) (T : Tests A) {m n : Int} {c : Sec} (hn : 2 ≤ n) (hc : secInit m n = .ok c)
    {sz d1 d : Nat} (hd : d ≤ sz) (h1 : d1 ≤ d) {u : Nat → A} {u' : Nat → ℂ} (hu : ∀ k, R (u k) (u' k)) (hfree : ∀ k < d, ∀ t : ℝ, -1 ≤ t → t ≤ 1 → u' k ≠ t)
    {p : DePar A} (hp : 0 < p.n) {h' lam' : ℝ} (hh : R p.h h') (hl : R p.lam lam') {flag : Nat} {big : Bool} (hok : DeRootsOk X T F R sz u d1 d c.shape.m flag big p) :
    ∃ de r, deIntInit X F p.h p.lam p.n p.err c.shape.m = .ok de ∧ deIntegralsPrecomp X T sz u d1 d c.shape de flag big = .ok r ∧
      (∀ k, ∃ z, R (r k) z) ∧ ∀ k i j, k < c.shape.g → diffOf c.shape.ni c.shape.j1 k = (i, j) → R (r k) (trapSum c.shape.m d1 d u' lam' i j h' p.n) := by
  have hne : ∀ k < d, ∀ l : Int, |l| < p.n → u' k ≠ dePhi lam' (l * h') := fun k hk l _ =>
    hfree k hk _ (dePhi_abs_lt _ _).1.le (dePhi_abs_lt _ _).2.le
  rcases hok with h5 | h7 | ⟨hd0, hT, hI, hok⟩
  · exact de_sum_all E H T hn hc hp hh hl p.err flag big fun de _ l _ t _ t' ht hex => sel_of_flags E T hd h1 hu flag big (Or.inl h5) ht hex
  · exact de_sum_all E H T hn hc hp hh hl p.err flag big fun de _ l _ t _ t' ht hex => sel_of_flags E T hd h1 hu flag big (Or.inr ⟨h7, hne⟩) ht hex
  · have hm : 0 < c.shape.m := by have := (shape_good hn hc).m; omega
    refine de_sum_all E H T hn hc hp hh hl p.err flag big fun de hde l hl t ht t' hR hex => sel_of_turn E hT hI hm hd hd0 h1 hu flag big hne ?_ hR hex
    rcases ht with rfl | rfl
    · exact (hok de hde l hl).1
    · exact (hok de hde l hl).2

/-- the exact form of the edge data: no point on the segment -/
theorem edgeData_free {m n a b n1 : Nat} {x u : Nat → ℂ} (h : EdgeData m n x a b n1 u)
    (hseg : ∀ k < n, k ≠ a → k ≠ b → ∀ t : ℝ, -1 ≤ t → t ≤ 1 → x k ≠ edgePt (x a) (x b) t) : ∀ i < n - 2, ∀ t : ℝ, -1 ≤ t → t ≤ 1 → u i ≠ t := by
  obtain ⟨τ, hτ, hp⟩ := h.pts
  intro i hi t h1 h2 heq
  have hk := hτ.mapsTo (show i ∈ Iio (n - 2) from hi)
  simp only [mem_ofPred_eq] at hk
  exact hseg (τ i) hk.1 hk.2.1 hk.2.2 t h1 h2 (by rw [← hp i hi, heq])

/-- from the integrals on `[-1, 1]` to the integrals along the edge -/
theorem row_of_integrals (E : Encloses X exact R) {m n : Nat} (hn : 2 ≤ n) {c : Sec} (h : secInit m n = .ok c)
    {x' : Nat → ℂ} {a b : Nat} (hx : x' a ≠ x' b) {yd : YData A} (hyn : yd.n = n) {u' : Nat → ℂ} (hfree : ∀ i < n - 2, ∀ t : ℝ, -1 ≤ t → t ≤ 1 → u' i ≠ t)
    (hu : ∀ i, R (yd.u i) (u' i)) (hE : EdgeData m n x' a b yd.n1 u') {v row : Nat → A} {z : Nat → ℂ} (hz : ∀ i, R (v i) (z i))
    (hz2 : ∀ r i j, r < c.shape.g → diffOf c.shape.ni c.shape.j1 r = (i, j) → z r = edgeIntegral m yd.n1 (n - 2) u' i j)
    (hrow : edgeFactors X c.shape yd.ba2 yd.ab yd.c v = .ok row) :
    ∃ row' : Nat → ℂ, (∀ i, R (row i) (row' i)) ∧ ∀ r i j, r < c.shape.g → diffOf c.shape.ni c.shape.j1 r = (i, j) →
      row' r = (1 - (zeta m ^ j)⁻¹) * segIntM (x' a) (x' b) i j (branchY m n yd.n1 u') := by
  have hn2 : (2 : Int) ≤ n := by omega
  have hc := shape_good hn2 h
  have hm : c.shape.m = m := by
    obtain ⟨_, e1, _⟩ := secInit_fields h hn2
    unfold Sec.shape
    simp [e1]
  have hm2 : 2 ≤ m := hm ▸ hc.m
  -- the integrals on [-1, 1]
  let ψ : Nat → ℝ → ℂ := fun j t => ((edgeY m yd.n1 (n - 2) u' t * ((1 - t ^ 2 : ℝ) : ℂ) ^ ((m : ℂ)⁻¹)) ^ j)⁻¹
  let φ : Nat → ℝ → ℂ := fun j t => if j < m then ψ j t else 0
  have hcont := edgeY_cont (m := m) hE.n1_le hfree
  have hne : ∀ t ∈ Icc (-1 : ℝ) 1, edgeY m yd.n1 (n - 2) u' t ≠ 0 := fun t ht => edgeY_ne (by omega) hE.n1_le hfree ht.1 ht.2
  have hw : ∀ t ∈ Icc (-1 : ℝ) 1, ((1 - t ^ 2 : ℝ) : ℂ) ^ ((m : ℂ)⁻¹) = (((1 - t ^ 2) ^ ((m : ℝ)⁻¹) : ℝ) : ℂ) := by
    intro t ht
    rw [Complex.ofReal_cpow (by nlinarith [ht.1, ht.2])]
    push_cast
    rfl
  have hψ : ∀ j < m, IntervalIntegrable (ψ j) volume (-1) 1 := by
    intro j hj
    have h1 : IntervalIntegrable (fun t : ℝ => (1 - t ^ 2) ^ (-((j : ℝ) / m))) volume (-1) 1 :=
      one_sub_sq_rpow_integrable ((div_lt_one (by exact_mod_cast (by omega : 0 < m))).2 (by exact_mod_cast hj))
    have h2 : IntervalIntegrable (fun t : ℝ => (((1 - t ^ 2) ^ (-((j : ℝ) / m)) : ℝ) : ℂ)) volume (-1) 1 := ⟨h1.1.ofReal, h1.2.ofReal⟩
    have h3 : ContinuousOn (fun t : ℝ => (edgeY m yd.n1 (n - 2) u' t ^ j)⁻¹) (uIcc (-1) 1) := by
      rw [uIcc_of_le (by norm_num)]
      exact (hcont.pow j).inv₀ fun t ht => pow_ne_zero _ (hne t ht)
    refine (h2.continuousOn_mul h3).congr ?_
    rw [uIoc_of_le (by norm_num)]
    intro t ht
    have h0 : (0 : ℝ) ≤ 1 - t ^ 2 := by nlinarith [ht.1, ht.2]
    simp only [ψ]
    have h5 : ((1 - t ^ 2) ^ ((m : ℝ)⁻¹)) ^ j = (1 - t ^ 2) ^ ((j : ℝ) / m) := by
      rw [← Real.rpow_mul_natCast h0]
      congr 1
      ring
    rw [hw t ⟨ht.1.le, ht.2⟩, mul_pow, mul_inv, ← Complex.ofReal_pow, h5, Real.rpow_neg h0, Complex.ofReal_inv]
  have hφ : ∀ j, IntervalIntegrable (φ j) volume (-1) 1 := by
    intro j
    by_cases hj : j < m
    · simp only [φ, hj, if_true]
      exact hψ j hj
    · simp only [φ, hj, if_false]
      exact intervalIntegrable_const
  have hint : ∀ i j, j < m → edgeIntegral m yd.n1 (n - 2) u' i j = ∫ t in (-1 : ℝ)..1, (t : ℂ) ^ i * φ j t := by
    intro i j hj
    unfold edgeIntegral
    apply intervalIntegral.integral_congr
    intro t _
    simp only [φ, hj, if_true, ψ, div_eq_mul_inv]
  have hb2 : R yd.ba2 ((x' b - x' a) / 2) := by
    have := hu (n - 2)
    rw [hE.ba2] at this
    unfold YData.ba2
    rwa [hyn]
  have hab2 : R yd.ab ((x' a + x' b) / (x' b - x' a)) := by
    have := hu (n - 1)
    rw [hE.ab, add_comm] at this
    unfold YData.ab
    rwa [hyn]
  have hcc : R yd.c (u' n) := by
    unfold YData.c
    rw [hyn]
    exact hu n
  obtain ⟨y, y', ey, ey', hyy⟩ := C19_encloses E hn2 h hb2 hab2 hcc hz
  obtain rfl : row = y := Res.ok.inj (hrow.symm.trans ey)
  obtain ⟨y2, ey2, hy2⟩ := C19_change_of_variables hn2 h (x' a) (x' b) (u' n) hx φ hφ z (by
    intro k i j hk hij
    have hj := diffOf_exp hc hk
    rw [hij, hm] at hj
    rw [hz2 k i j hk hij]
    exact hint i j hj.2)
  obtain rfl : y' = y2 := Res.ok.inj (ey'.symm.trans ey2)
  refine ⟨y', hyy, fun k i j hk hij => ?_⟩
  have hj := diffOf_exp hc hk
  rw [hij, hm] at hj
  have hj2 : j < m := hj.2
  unfold segIntM
  rw [hy2 k i j hk hij, hm, div_mul_eq_mul_div, mul_div_assoc, ← intervalIntegral.integral_div]
  congr 1
  apply intervalIntegral.integral_congr
  intro t ht
  rw [uIcc_of_le (by norm_num)] at ht
  simp only [φ, hj2, if_true, ψ]
  unfold branchY
  rw [hw t ht, div_eq_mul_inv _ ((_ : ℂ) ^ j), div_eq_mul_inv _ ((u' n * _ * _) ^ j), mul_pow, mul_pow, mul_pow, mul_inv, mul_inv, mul_inv]
  ring

/-- the row of an edge -/
theorem de_edge_row (E : Encloses X exact R) {F : Fns A} (H : EnclosesFns F exactFns R) (T : Tests A) {m n : Nat} (hn : 2 ≤ n) {c : Sec} (h : secInit m n = .ok c)
    {x' : Nat → ℂ} {a b : Nat} (hx : x' a ≠ x' b) (hseg : ∀ k < n, k ≠ a → k ≠ b → ∀ t : ℝ, -1 ≤ t → t ≤ 1 → x' k ≠ edgePt (x' a) (x' b) t)
    {yd : YData A} (hyn : yd.n = n) {u' : Nat → ℂ} (hu : ∀ i, R (yd.u i) (u' i)) (hE : EdgeData m n x' a b yd.n1 u')
    {p : DePar A} {h' lam' e : ℝ} (hh : R p.h h') (hl : R p.lam lam') {flag : Nat} {big : Bool} (hok : DeRootsOk X T F R (n + 3) yd.u yd.n1 (n - 2) m flag big p)
    (herr : ∀ v z z', R v z → ‖z - z'‖ ≤ e → R (p.err v) z')
    (hcov : ∀ r i j, r < c.shape.g → diffOf c.shape.ni c.shape.j1 r = (i, j) → ‖trapSum m yd.n1 (n - 2) u' lam' i j h' p.n - edgeIntegral m yd.n1 (n - 2) u' i j‖ ≤ e)
    {de : DeInt A} {r row : Nat → A} (hde : deIntInit X F p.h p.lam p.n p.err m = .ok de) (hr : deIntegralsPrecomp X T (n + 3) yd.u yd.n1 (n - 2) c.shape de flag big = .ok r)
    (hrow : edgeFactors X c.shape yd.ba2 yd.ab yd.c (fun i => if i < c.shape.g then de.err (r i) else r i) = .ok row) :
    ∃ row' : Nat → ℂ, (∀ i, R (row i) (row' i)) ∧ ∀ r i j, r < c.shape.g → diffOf c.shape.ni c.shape.j1 r = (i, j) →
      row' r = (1 - (zeta m ^ j)⁻¹) * segIntM (x' a) (x' b) i j (branchY m n yd.n1 u') := by
  have hn2 : (2 : Int) ≤ n := by omega
  have hc := shape_good hn2 h
  have hm : c.shape.m = m := by
    obtain ⟨_, e1, _⟩ := secInit_fields h hn2
    unfold Sec.shape
    simp [e1]
  have hm2 : 2 ≤ m := hm ▸ hc.m
  have hfree := edgeData_free hE hseg
  have hp : 0 < p.n := by
    rcases Nat.eq_zero_or_pos p.n with h0 | h0
    · unfold deIntegralsPrecomp deSumWith at hr
      rw [if_pos ((deIntInit_n hde).trans h0)] at hr
      cases hr
    · exact h0
  obtain ⟨de2, r2, k1, k2, k3, k4⟩ := de_sums E H T hn2 h (sz := n + 3) (d := n - 2) (by omega) hE.n1_le hu hfree hp hh hl (by rw [hm]; exact hok)
  rw [hm] at k1 k4
  obtain rfl := Res.ok.inj (hde.symm.trans k1)
  obtain rfl := Res.ok.inj (hr.symm.trans k2)
  choose r' hr' using k3
  let z : Nat → ℂ := fun k => if k < c.shape.g then edgeIntegral m yd.n1 (n - 2) u' (diffOf c.shape.ni c.shape.j1 k).1 (diffOf c.shape.ni c.shape.j1 k).2 else r' k
  have hz : ∀ i, R (if i < c.shape.g then de.err (r i) else r i) (z i) := by
    intro k
    by_cases hk : k < c.shape.g
    · simp only [hk, if_true, z]
      rw [deIntInit_err hde]
      exact herr _ _ _ (k4 k _ _ hk rfl) (hcov k _ _ hk rfl)
    · simp only [hk, if_false, z]
      exact hr' k
  exact row_of_integrals E (by omega) h hx hyn hfree hu hE hz (fun r i j hr hij => by simp only [z, hr, if_true, hij]) hrow

/-- one scheme, computed from the parameters of one of the edges, for each row -/
theorem integralsTreeDe_rows {T : Tests A} {F : Fns A} {c : Shape} {flag : Nat} {big : Bool} {data : List (YData A)} {par : Nat → DePar A} {ks : List Nat} (hnd : ks.Nodup)
    {de0 : DeInt A} (h0 : de0.n = 0) {I I' : Nat → Nat → A} (h : integralsTreeDe X T F c flag big data par ks de0 I = .ok I') :
    (∀ k ∉ ks, I' k = I k) ∧ ∀ k ∈ ks, ∃ (ye : YData A) (j : Nat) (de : DeInt A) (r : Nat → A), data[k]? = some ye ∧ j ∈ ks ∧
      deIntInit X F (par j).h (par j).lam (par j).n (par j).err c.m = .ok de ∧ deIntegralsPrecomp X T (c.n + 3) ye.u ye.n1 (c.n - 2) c de flag big = .ok r ∧
      edgeFactors X c ye.ba2 ye.ab ye.c (fun i => if i < c.g then de.err (r i) else r i) = .ok (I' k) := by
  have gen : ∀ (ls : List Nat), (∀ l ∈ ls, l ∈ ks) → ls.Nodup → ∀ (I I' : Nat → Nat → A) (de : DeInt A),
      (de.n = 0 ∨ ∃ j ∈ ks, deIntInit X F (par j).h (par j).lam (par j).n (par j).err c.m = .ok de) → integralsTreeDe X T F c flag big data par ls de I = .ok I' →
      (∀ k ∉ ls, I' k = I k) ∧ ∀ k ∈ ls, ∃ (ye : YData A) (j : Nat) (de : DeInt A) (r : Nat → A), data[k]? = some ye ∧ j ∈ ks ∧
        deIntInit X F (par j).h (par j).lam (par j).n (par j).err c.m = .ok de ∧ deIntegralsPrecomp X T (c.n + 3) ye.u ye.n1 (c.n - 2) c de flag big = .ok r ∧
        edgeFactors X c ye.ba2 ye.ab ye.c (fun i => if i < c.g then de.err (r i) else r i) = .ok (I' k) := by
    intro ls
    induction ls with
    | nil =>
      intro _ _ I I' de _ h
      have : I = I' := by simpa [integralsTreeDe] using h
      exact ⟨fun k _ => by rw [this], fun k hk => by cases hk⟩
    | cons k ls ih =>
      intro hsub hnd I I' de hde h
      rw [integralsTreeDe] at h
      cases hk : data[k]? with
      | none => rw [hk] at h; cases h
      | some ye =>
      rw [hk] at h
      simp only [integralsEdgeDe, Res.bind_eq_ok] at h
      obtain ⟨s, ⟨de1, e1, r, e2, r1, e3, e4⟩, h⟩ := h
      obtain rfl := Res.ok.inj e4
      have hs : ∃ j ∈ ks, deIntInit X F (par j).h (par j).lam (par j).n (par j).err c.m = .ok de1 := by
        unfold deScheme at e1
        split at e1
        · exact ⟨k, hsub k List.mem_cons_self, e1⟩
        · rename_i hf
          obtain rfl := Res.ok.inj e1
          rcases hde with h0 | hde
          · exact absurd (by simp [h0, deReplace]) hf
          · exact hde
      obtain ⟨hk1, hk2⟩ := List.nodup_cons.1 hnd
      obtain ⟨q1, q2⟩ := ih (fun l hl => hsub l (List.mem_cons_of_mem _ hl)) hk2 _ _ _ (Or.inr hs) h
      refine ⟨fun l hl => ?_, fun l hl => ?_⟩
      · rw [q1 l fun h => hl (List.mem_cons_of_mem _ h), if_neg (fun h : l = k => hl (h ▸ List.mem_cons_self))]
      · rcases List.mem_cons.1 hl with rfl | hl
        · obtain ⟨j, hj, hdj⟩ := hs
          refine ⟨ye, j, de1, r, hk, hj, hdj, e2, ?_⟩
          rw [q1 l hk1, if_pos rfl]
          exact e3
        · exact q2 l hl
  exact gen ks (fun _ h => h) hnd I I' de0 (Or.inl h0) h

end Hcp
