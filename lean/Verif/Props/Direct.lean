import Verif.Model.Direct
import Verif.Props.ComputeRealFails

/-!
# C71: the direct call of the double-exponential rule
-/

namespace Hcp

open Set Spec

variable {A : Type} {X : Arith A} {R : A → ℂ → Prop}

/-- **C71 (partial).** On balls, without a point on `[-1, 1]`: `de_integrals` stays in its arrays and each cell contains a number which is at distance at most `K 2^(-prec (m-j)/(m-1))` from the integral of
`x^i dx / y^j`; the constant `K` does not depend on the precision.
Missing: the integral itself is not in the cell (`C71_fails`). -/
theorem C71_direct_partial (E : Encloses X exact R) {F : Fns A} (H : EnclosesFns F exactFns R) (T : Tests A) {lam : ℝ} (hl : 0 < lam) (hl2 : lam ≤ Real.pi / 2) (m2 : ℝ → ℝ) {m n : Nat} {c : Sec} (hm : 2 ≤ m) (hn : 2 ≤ n)
    (hc : secInit m n = .ok c) {sz d1 d : Nat} (hd : d ≤ sz) (h1 : d1 ≤ d) {u : Nat → A} {u' : Nat → ℂ} (hu : ∀ k, R (u k) (u' k)) (hfree : ∀ k < d, ∀ t : ℝ, -1 ≤ t → t ≤ 1 → u' k ≠ t)
    {par : (Nat → A) → Nat → Nat → Nat → Nat → Nat → Res (DePar A)}
    (hpar : ∀ i j prec, ∃ p o, par u d i j m prec = .ok p ∧ deParams lam m2 ((List.range d).map u') j m prec = .ok o ∧ p.n = o.n ∧ R p.h o.h ∧ R p.lam o.l) :
    ∃ K : Nat → ℝ, ∀ prec flag : Nat, 1 ≤ prec → (∀ p, par u d (n - 1) c.shape.j1 m prec = .ok p → DeRootsOk X T F R sz u d1 d m flag (decide (1000 < prec) && decide (5 < d)) p) →
      ∃ r, deIntegrals X T F par sz u d1 d c.shape flag prec = .ok r ∧ ∀ k i j, k < c.shape.g → diffOf c.shape.ni c.shape.j1 k = (i, j) →
        ∃ S, R (r k) S ∧ ‖S - edgeIntegral m d1 d u' i j‖ ≤ K k * 2 ^ (-((m - j) / (m - 1) * prec : ℝ)) := by
  have hn2 : (2 : Int) ≤ n := by omega
  obtain ⟨_, e1, e2, _⟩ := secInit_fields hc hn2
  have hcm : c.shape.m = m := by unfold Sec.shape; simp [e1]
  have hcn : c.shape.n = n := by unfold Sec.shape; simp [e2]
  have hK : ∀ k, ∃ K : ℝ, k < c.shape.g → ∀ (prec : Nat) (o : DeOut), 1 ≤ prec → deParams lam m2 ((List.range d).map u') c.shape.j1 m prec = .ok o →
      ‖trapSum m d1 d u' o.l (diffOf c.shape.ni c.shape.j1 k).1 (diffOf c.shape.ni c.shape.j1 k).2 o.h o.n - edgeIntegral m d1 d u' (diffOf c.shape.ni c.shape.j1 k).1 (diffOf c.shape.ni c.shape.j1 k).2‖
        ≤ K * 2 ^ (-((m - ((diffOf c.shape.ni c.shape.j1 k).2 : ℕ)) / (m - 1) * prec : ℝ)) := by
    intro k
    by_cases hk : k < c.shape.g
    · have hj : 1 ≤ (diffOf c.shape.ni c.shape.j1 k).2 ∧ (diffOf c.shape.ni c.shape.j1 k).2 < m := by
        have := diffOf_exp (shape_good hn2 hc) hk
        rw [hcm] at this
        exact this
      obtain ⟨K, h⟩ := C55_precision hl hl2 m2 (i := (diffOf c.shape.ni c.shape.j1 k).1) (j1 := c.shape.j1) hj.1 hj.2 h1 u'
      exact ⟨K, fun _ => h⟩
    · exact ⟨0, fun h => absurd h hk⟩
  choose K hK using hK
  refine ⟨K, fun prec flag hp hok => ?_⟩
  obtain ⟨p, o, q1, q2, q3, q4, q5⟩ := hpar (n - 1) c.shape.j1 prec
  have ho : 0 < p.n := by rw [q3]; exact deParams_pos hl hl2 hm hp q2
  have hok := hok p q1
  rw [← hcm] at hok
  obtain ⟨de, r, w1, w2, -, w3⟩ := de_sums E H T hn2 hc hd h1 hu hfree ho q4 q5 hok
  refine ⟨r, ?_, fun k i j hk hij => ⟨_, w3 k i j hk hij, ?_⟩⟩
  · unfold deIntegrals
    rw [hcm, hcn, q1, Res.ok_bind, ← hcm, w1, Res.ok_bind, w2]
  · have := hK k hk prec o hp q2
    rw [hij] at this
    rw [hcm, q3]
    exact this

/-- `de_params` on sets, as called by `de_integrals` -/
noncomputable def setParD (lam : ℝ) (m2 : ℝ → ℝ) (u : Nat → Set ℂ) (d _i j m prec : Nat) : Res (DePar (Set ℂ)) := setDePar lam m2 ((List.range d).map u) j m prec

theorem deParams_m2 {lam : ℝ} {m2 m2' : ℝ → ℝ} {u : List ℂ} {j m prec : Nat} {o : DeOut} (h : deParams lam m2 u j m prec = .ok o) :
    ∃ o', deParams lam m2' u j m prec = .ok o' ∧ o'.n = o.n ∧ o'.h = o.h ∧ o'.l = o.l := by
  unfold deParams at h ⊢
  split at h
  · cases h
  · rename_i hn
    rw [if_neg hn]
    split at h <;> try cases h
    exact ⟨_, rfl, rfl, rfl, rfl⟩

theorem deError_zero {lam : ℝ} (hl : 0 < lam) {u : List ℂ} {j m prec : Nat} (hj : j < m) {o : DeOut} (h : deParams lam (fun _ => 0) u j m prec = .ok o) : 0 ≤ o.e := by
  obtain ⟨-, -, -, -, -, h6⟩ := deParams_ok h
  have hm1 : 0 ≤ deConstantM1 u m := by
    unfold deConstantM1
    refine inv_nonneg.2 (Real.rpow_nonneg (List.prod_nonneg ?_) _)
    intro a ha
    obtain ⟨x, -, rfl⟩ := List.mem_map.1 ha
    split
    · exact abs_nonneg _
    · exact norm_nonneg _
  have hjm : (0 : ℝ) ≤ m - j := by have : (j : ℝ) < m := by exact_mod_cast hj
                                   linarith
  rw [h6]
  unfold deError deErrorT deErrorQ
  rw [zero_mul, zero_div, add_zero]
  positivity

/-- the cell of a direct call with `AJ_ROOT_DEF` or few points is one number, the trapezoidal sum -/
theorem direct_cell {lam : ℝ} (hl : 0 < lam) (hl2 : lam ≤ Real.pi / 2) {m2 : ℝ → ℝ} {m n : Nat} {c : Sec} (hm : 2 ≤ m) (hn : 2 ≤ n) (hc : secInit m n = .ok c) {d1 d : Nat} (h1 : d1 ≤ d) {u : Nat → ℂ}
    (hfree : ∀ k < d, ∀ t : ℝ, -1 ≤ t → t ≤ 1 → u k ≠ t) {prec flag : Nat} (hp : 1 ≤ prec) (hf : flag.testBit 5 = true ∨ flag.testBit 7 = true ∨ flag.testBit 6 = false ∧ d ≤ 5) {o : DeOut}
    (ho : deParams lam m2 ((List.range d).map u) c.shape.j1 m prec = .ok o) :
    ∃ r, deIntegrals setArith sndTests setFns (setParD lam m2) d (fun k => {u k}) d1 d c.shape flag prec = .ok r ∧
      ∀ k i j, k < c.shape.g → diffOf c.shape.ni c.shape.j1 k = (i, j) → r k = {trapSum m d1 d u o.l i j o.h o.n} := by
  have hn2 : (2 : Int) ≤ n := by omega
  obtain ⟨_, e1, e2, _⟩ := secInit_fields hc hn2
  have hcm : c.shape.m = m := by unfold Sec.shape; simp [e1]
  have hcn : c.shape.n = n := by unfold Sec.shape; simp [e2]
  have hpts : ((List.range d).map fun k => ({u k} : Set ℂ)).map pick = (List.range d).map u := by
    rw [List.map_map]
    exact List.map_congr_left fun k _ => pick_singleton _
  have hpar : setParD lam m2 (fun k => {u k}) d (n - 1) c.shape.j1 m prec = .ok ⟨o.n, {(o.h : ℂ)}, {(o.l : ℂ)}, growBall o.e⟩ := by
    unfold setParD setDePar
    rw [hpts, Int.toNat_natCast, ho]
    rfl
  have hok : DeRootsOk setArith sndTests setFns (fun s z => s = {z}) d (fun k => {u k}) d1 d c.shape.m flag (decide (1000 < prec) && decide (5 < d)) ⟨o.n, {(o.h : ℂ)}, {(o.l : ℂ)}, growBall o.e⟩ := by
    rcases hf with h | h | ⟨h, h'⟩
    · exact Or.inl h
    · exact Or.inr (Or.inl (Or.inl h))
    · exact Or.inr (Or.inl (Or.inr ⟨h, by simp [show ¬ 5 < d by omega]⟩))
  obtain ⟨de, r, w1, w2, -, w3⟩ := de_sums setArith_pt setFns_pt sndTests hn2 hc le_rfl h1 (u := fun k => {u k}) (u' := u) (fun _ => rfl) hfree (p := ⟨o.n, {(o.h : ℂ)}, {(o.l : ℂ)}, growBall o.e⟩)
    (deParams_pos hl hl2 hm hp ho) (h' := o.h) (lam' := o.l) rfl rfl hok
  refine ⟨r, ?_, fun k i j hk hij => ?_⟩
  · unfold deIntegrals
    rw [hcm, hcn, hpar, Res.ok_bind]
    dsimp only
    rw [← hcm, w1, Res.ok_bind, w2]
  · have := w3 k i j hk hij
    rw [hcm] at this
    exact this

/-- **C71, negative result.** For every curve having a differential `dx / y^j` with `j` larger than the smallest exponent `j1`, and all real points outside `[-1, 1]`: from some precision on, whatever the bound `m2`, `de_integrals` called on exact
numbers returns in this cell a single number, which is the integral for no determination of `y`: the error bound computed by `de_params` is not added to the result. -/
theorem C71_fails {lam : ℝ} (hl : 0 < lam) (hl2 : lam ≤ Real.pi / 2) (m2 : ℝ → ℝ) {m n : Nat} {c : Sec} (hm : 2 ≤ m) (hn : 2 ≤ n) (hc : secInit m n = .ok c) {d1 d : Nat} (h1 : d1 ≤ d) {u : Nat → ℝ}
    (hr : ∀ k < d1, 1 < u k) (hl' : ∀ k, d1 ≤ k → k < d → u k < -1) {k j : Nat} (hk : k < c.shape.g) (hkj : diffOf c.shape.ni c.shape.j1 k = (0, j)) (hj : c.shape.j1 < j) :
    ∃ P0 : Nat, ∀ prec : Nat, P0 ≤ prec → ∀ flag : Nat, flag.testBit 5 = true ∨ flag.testBit 7 = true ∨ flag.testBit 6 = false ∧ d ≤ 5 →
      ∃ r S, deIntegrals setArith sndTests setFns (setParD lam m2) d (fun k => {(u k : ℂ)}) d1 d c.shape flag prec = .ok r ∧ r k = {S} ∧
        ∀ z : ℂ, z ^ m = 1 → z * edgeIntegral m d1 d (fun k => u k) 0 j ∉ r k := by
  have hn2 : (2 : Int) ≤ n := by omega
  have hg := shape_good hn2 hc
  have hcm : c.shape.m = m := by obtain ⟨_, e1, _⟩ := secInit_fields hc hn2; unfold Sec.shape; simp [e1]
  obtain ⟨-, hjm⟩ := diffOf_exp hg hk
  rw [hkj, hcm] at hjm
  have hj1 := hg.j1
  obtain ⟨P1, hP1⟩ := C53_fails hl hl2 (fun _ => 0) hj1 hj hjm h1 hr hl'
  refine ⟨P1 + 1, fun prec hp flag hf => ?_⟩
  obtain ⟨o, ho, herr⟩ := hP1 prec (by omega)
  obtain ⟨o', ho', q1, q2, q3⟩ := deParams_m2 (m2' := m2) ho
  have hfree : ∀ k < d, ∀ t : ℝ, -1 ≤ t → t ≤ 1 → (u k : ℂ) ≠ t := by
    intro k hk t t1 t2 h
    have h : u k = t := by exact_mod_cast h
    rcases lt_or_ge k d1 with h' | h'
    · linarith [hr k h']
    · linarith [hl' k h' hk]
  obtain ⟨r, w1, w2⟩ := direct_cell hl hl2 hm hn hc h1 hfree (by omega) hf ho'
  refine ⟨r, _, w1, w2 k 0 j hk hkj, fun z hz hmem => ?_⟩
  rw [w2 k 0 j hk hkj, q1, q2, q3, mem_singleton_iff] at hmem
  obtain ⟨-, b2, b3, -, b5, -⟩ := deParams_ok ho
  obtain ⟨s1, s2, -⟩ := C54_strip hl hl2 b2
  have hpi := Real.pi_gt_d2
  obtain ⟨K, -, hK⟩ := deCount_bounds (m := m) hm hl hl2 s1 (by linarith)
  have hh : 0 ≤ o.h := by rw [b3]; exact (hK prec (by omega)).1.le
  have := error_rotate (by omega) (by rw [b5]; exact hl) hh hr hl' herr hz
  rw [hmem, sub_self, norm_zero] at this
  linarith [deError_zero hl (by omega) ho]

/-- **C71, negative result at all precisions from 1000 on**: `y^5 = x^2 - 1`, the differential `dx / y^4` -/
theorem C71_fails_1000 (m2 : ℝ → ℝ) : ∃ c : Sec, secInit 5 2 = .ok c ∧ diffOf c.shape.ni c.shape.j1 1 = (0, 4) ∧ ∀ prec : Nat, 1000 ≤ prec → ∀ flag : Nat, flag.testBit 6 = false →
      ∃ r S, deIntegrals setArith sndTests setFns (setParD (Real.pi / 2) m2) 0 (fun _ => {0}) 0 0 c.shape flag prec = .ok r ∧ r 1 = {S} ∧
        ∀ z : ℂ, z ^ 5 = 1 → z * edgeIntegral 5 0 0 (fun _ => 0) 0 4 ∉ r 1 := by
  have hc : secInit 5 2 = .ok ⟨5, 2, 1, 2, 3, 2, [1, 1]⟩ := by decide +kernel
  refine ⟨_, hc, rfl, fun prec hp flag hf => ?_⟩
  have hl : 0 < Real.pi / 2 := by positivity
  obtain ⟨o, ho, herr⟩ := radius52 (m2 := fun _ => 0) (by norm_num) hp
  obtain ⟨o', ho', q1, q2, q3⟩ := deParams_m2 (m2' := m2) ho
  obtain ⟨r, w1, w2⟩ := direct_cell (m := 5) (n := 2) (d1 := 0) (d := 0) (u := fun _ => 0) hl le_rfl (by norm_num) le_rfl hc le_rfl (by simp) (prec := prec) (flag := flag) (by omega) (Or.inr (Or.inr ⟨hf, by norm_num⟩)) ho'
  refine ⟨r, _, w1, w2 1 0 4 (by decide) rfl, fun z hz hmem => ?_⟩
  rw [w2 1 0 4 (by decide) rfl, q1, q2, q3, mem_singleton_iff] at hmem
  obtain ⟨o2, ho2, -, h2⟩ := radiusSmall_of hl le_rfl (by omega) ho herr
  obtain rfl := Res.ok.inj (ho.symm.trans ho2)
  have := h2 (fun _ => 0) z hz
  rw [hmem, sub_self, norm_zero] at this
  linarith [deError_zero hl (by norm_num) ho]

/-- Instance of `C71_direct_partial`: sets of numbers, the curve `y^3 = x^4 + ...` with points at `2` and `-2` in the coordinate of the edge. -/
example : ∃ (c : Sec) (K : Nat → ℝ), secInit 3 4 = .ok c ∧ c.shape.g = 3 ∧ ∀ prec : Nat, 1 ≤ prec →
    ∃ r, deIntegrals setArith sndTests setFns (setParD (Real.pi / 2) (fun _ => 1)) 2 (fun k => if k = 0 then {2} else {-2}) 1 2 c.shape 32 prec = .ok r ∧
      ∀ k i j, k < c.shape.g → diffOf c.shape.ni c.shape.j1 k = (i, j) →
        ∃ S ∈ r k, ‖S - edgeIntegral 3 1 2 (fun k => if k = 0 then 2 else -2) i j‖ ≤ K k * 2 ^ (-(((3 : ℕ) - j) / ((3 : ℕ) - 1) * prec : ℝ)) := by
  have hc : secInit 3 4 = .ok ⟨3, 4, 1, 3, 1, 2, [1, 2]⟩ := by decide +kernel
  have hl : 0 < Real.pi / 2 := by positivity
  have hfree : ∀ k < 2, ∀ t : ℝ, -1 ≤ t → t ≤ 1 → (fun k : Nat => if k = 0 then (2 : ℂ) else -2) k ≠ t := by
    intro k _ t t1 t2
    dsimp only
    split
    · intro h
      have : (2 : ℝ) = t := by exact_mod_cast h
      linarith
    · intro h
      have : (-2 : ℝ) = t := by exact_mod_cast h
      linarith
  obtain ⟨K, hK⟩ := C71_direct_partial (R := fun (s : Set ℂ) z => s = {z}) setArith_pt setFns_pt sndTests hl le_rfl (fun _ => 1) (m := 3) (n := 4) (by norm_num) (by norm_num) hc (sz := 2) (d1 := 1) (d := 2) le_rfl (by norm_num)
    (u := fun k => if k = 0 then {2} else {-2}) (u' := fun k => if k = 0 then 2 else -2) (by intro k; split <;> rfl) hfree
    (par := setParD (Real.pi / 2) (fun _ => 1)) (by
      intro i j prec
      have hpts : ((List.range 2).map fun k => if k = 0 then ({2} : Set ℂ) else {-2}).map pick = (List.range 2).map fun k => if k = 0 then (2 : ℂ) else -2 := by
        simp [List.range_succ, pick_singleton]
      obtain ⟨o, ho⟩ : ∃ o, deParams (Real.pi / 2) (fun _ => 1) ((List.range 2).map fun k => if k = 0 then (2 : ℂ) else -2) j 3 prec = .ok o := by
        rw [C54_returns hl]
        intro x x1 x2 hx
        obtain ⟨k, hk, e⟩ := List.mem_map.1 hx
        exact hfree k (List.mem_range.1 hk) x x1 x2 e
      refine ⟨⟨o.n, {(o.h : ℂ)}, {(o.l : ℂ)}, growBall o.e⟩, o, ?_, ho, rfl, rfl, rfl⟩
      unfold setParD setDePar
      rw [hpts, Int.toNat_natCast, ho]
      rfl)
  refine ⟨_, K, hc, rfl, fun prec hp => ?_⟩
  obtain ⟨r, h1, h2⟩ := hK prec 32 hp fun p _ => Or.inl (by decide)
  refine ⟨r, h1, fun k i j hk hij => ?_⟩
  obtain ⟨S, e, h⟩ := h2 k i j hk hij
  exact ⟨S, by rw [e]; rfl, h⟩

/-- Instance of `C71_fails`: `y^3 = x^4 + ...`, points at `2` and `-2`, the differential `dx / y^2`. -/
example : ∃ (c : Sec) (P0 : Nat), secInit 3 4 = .ok c ∧ ∀ prec : Nat, P0 ≤ prec →
    ∃ r S, deIntegrals setArith sndTests setFns (setParD (Real.pi / 2) fun _ => 1) 2 (fun k => {(((if k = 0 then 2 else -2 : ℝ) : ℝ) : ℂ)}) 1 2 c.shape 0 prec = .ok r ∧ r 1 = {S} ∧
      ∀ z : ℂ, z ^ 3 = 1 → z * edgeIntegral 3 1 2 (fun k => (((if k = 0 then 2 else -2 : ℝ) : ℝ) : ℂ)) 0 2 ∉ r 1 := by
  have hc : secInit 3 4 = .ok ⟨3, 4, 1, 3, 1, 2, [1, 2]⟩ := by decide +kernel
  have hl : 0 < Real.pi / 2 := by positivity
  obtain ⟨P0, h⟩ := C71_fails hl le_rfl (fun _ => 1) (m := 3) (n := 4) (by norm_num) (by norm_num) hc (d1 := 1) (d := 2) (by norm_num) (u := fun k => if k = 0 then 2 else -2)
    (by intro k hk; rw [if_pos (by omega)]; norm_num) (by intro k h1 h2; rw [if_neg (by omega)]; norm_num) (k := 1) (j := 2) (by decide) (by decide) (by decide)
  exact ⟨_, P0, hc, fun prec hp => h prec hp 0 (Or.inr (Or.inr ⟨by decide, by norm_num⟩))⟩

end Hcp
