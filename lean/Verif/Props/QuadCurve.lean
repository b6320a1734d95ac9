import Verif.Props.SuperPeriods
import Verif.Props.HyperBasis
import Verif.Props.DeEdge

/-!
# C57: periods of the curves `y^m = (x - x_0) (x - x_1)`
-/

namespace Hcp
open Spec

variable {A W : Type} {R : A → ℂ → Prop}

/-- the intersection matrix of the lifts of one edge is principally unimodular -/
theorem pu_of_edge {m : Nat} {c : IMat} (h : ∀ α < m - 1, ∀ β < m - 1, c α β = selfNumber α β) :
    PrincipallyUnimodular (c.toMat (1 * (m - 1))) := by
  have hf : Forest (m - 1) (fun k => k) (fun k => k + 1) (fun _ => 1) (fun _ => 1) (fun _ => Complex.I) c := by
    refine ⟨fun k l _ _ => by omega, fun k l _ _ => by omega, by simp, by simp, by simp, ?_, ?_, ?_, ?_, ?_⟩
    · intro k hk
      rw [h k hk k hk]
      unfold selfNumber
      rw [if_neg (by omega), if_neg (by omega)]
    · intro k l hk hl
      rw [h k hk l hl, h l hl k hk]
      exact selfNumber_antisymm k l
    · intro k l hkl _ e
      omega
    · intro k l hkl hl e
      refine ⟨0, ⟨Real.pi, Real.pi_pos, by linarith [Real.pi_pos], ?_, ?_⟩, ?_⟩
      · unfold Turns
        rw [Complex.exp_pi_mul_I]
        simp
      · unfold Continues
        have : Complex.exp (Real.pi * Complex.I / (2 : Nat)) = Complex.I := by
          conv_rhs => rw [← Complex.exp_pi_div_two_mul_I]
          congr 1
          push_cast
          ring
        rw [this]
        simp
      · rw [h k (by omega) l hl, e]
        have h1 : localNumber 2 0 0 0 = -1 := by decide
        rw [h1]
        unfold selfNumber
        rw [if_pos (by push_cast; ring)]
        rfl
    · intro k l hkl hl _ e
      rw [h k (by omega) l hl]
      unfold selfNumber
      rw [if_neg (by omega), if_neg (by omega)]
  have e : 1 * (m - 1) = m - 1 := Nat.one_mul _
  rw [e]
  exact hf.pu

/-- the row computed by `integral_d2` -/
theorem d2_row {X : Arith A} (E : Encloses X exact R) {F : Fns A} (H : EnclosesFns F exactFns R) {m : Nat} (hm : 2 < m) {c : Sec} (h : secInit m 2 = .ok c)
    {x' : Nat → ℂ} {a b : Nat} (hx : x' a ≠ x' b) {yd : YData A} (hyn : yd.n = 2) {u' : Nat → ℂ} (hu : ∀ i, R (yd.u i) (u' i)) (hE : EdgeData m 2 x' a b yd.n1 u') :
    ∃ (row : Nat → A) (row' : Nat → ℂ), integralD2 X F c.shape yd = .ok row ∧ (∀ i, R (row i) (row' i)) ∧
      ∀ r i j, r < c.shape.g → diffOf c.shape.ni c.shape.j1 r = (i, j) → row' r = (1 - (zeta m ^ j)⁻¹) * segIntM (x' a) (x' b) i j (branchY m 2 yd.n1 u') := by
  have hm' : (2 : Int) < m := by exact_mod_cast hm
  obtain ⟨v, e, hv0, hv⟩ := C28_closed_form E H hm' h
  choose z0 hz0 using hv0
  let z : Nat → ℂ := fun p => if p < c.shape.g then edgeIntegral m yd.n1 0 u' (diffOf c.shape.ni c.shape.j1 p).1 (diffOf c.shape.ni c.shape.j1 p).2 else z0 p
  have hcm : c.shape.m = m := by
    obtain ⟨_, e1, _⟩ := secInit_fields h (by norm_num)
    unfold Sec.shape
    simp [e1]
  have hz : ∀ p, R (v p) (z p) := by
    intro p
    by_cases hp : p < c.shape.g
    · obtain ⟨q1, -⟩ := C28_exponents hm' h hp
      have := hv p _ hp q1
      simp only [z, hp, if_true, q1]
      rw [hcm] at this
      convert! this using 1
      unfold edgeIntegral
      apply intervalIntegral.integral_congr
      intro t _
      have hn1 : yd.n1 = 0 := by have := hE.n1_le; omega
      simp only [hn1, edgeY, Finset.range_zero, Finset.prod_empty, Finset.Ico_self, pow_zero, one_mul]
      rw [← Complex.cpow_nat_mul, one_div, ← Complex.cpow_neg, hcm]
      congr 1
      rw [div_eq_mul_inv, neg_mul]
    · simp only [z, hp, if_false]
      exact hz0 p
  have hb2 : R yd.ba2 (u' 0) := by unfold YData.ba2; rw [hyn]; exact hu _
  have hab : R yd.ab (u' 1) := by unfold YData.ab; rw [hyn]; exact hu _
  have hc : R yd.c (u' 2) := by unfold YData.c; rw [hyn]; exact hu _
  obtain ⟨row, -, hrow, -, -⟩ := C19_encloses E (by norm_num) h hb2 hab hc hz
  obtain ⟨row', r1, r2⟩ := row_of_integrals E le_rfl h hx hyn (fun i hi => absurd hi (by omega)) hu hE hz (fun r i j hr hij => by simp only [z, hr, if_true, hij]) hrow
  refine ⟨row, row', ?_, r1, r2⟩
  unfold integralD2
  rw [e]
  exact hrow

/-- everything after the data of the edge succeeds -/
theorem quad_of_data (xg : XGcd) {Xs X : Arith A} (Es : Encloses Xs exact R) (E : Encloses X exact R) {F : Fns A} (H : EnclosesFns F exactFns R)
    {Ts : Tests A} (hTs : SoundTests Ts R) {m : Nat} (hm : 2 < m) {c : Sec} (h : secInit m 2 = .ok c) {x' : Nat → ℂ} (hx : x' 0 ≠ x' 1) {ed : Edge W} (ha : ed.a < 2) (hb : ed.b < 2)
    (hxab : x' ed.a ≠ x' ed.b) (hgr : GrowsAsTree ([ed].map fun f => (f.a, f.b))) {yd : YData A} (hyn : yd.n = 2) {u' : Nat → ℂ} (hu : ∀ i, R (yd.u i) (u' i)) (hE : EdgeData m 2 x' ed.a ed.b yd.n1 u')
    (zero : A) (h0 : R zero 0) :
    ∃ (cc : IMat) (row : Nat → A) (Y : ℝ → ℂ) (ca cb : ℂ) (Q : Mat ([ed].length * (m - 1))) (al be : List (List Gamma)) (om0 om1 : Nat → Nat → A),
      intersectionTree (shiftOracle Xs Ts [yd] m) [ed] m = .ok cc ∧ integralD2 X F c.shape yd = .ok row ∧
      Branches m 2 x' [ed] (fun _ => Y) (fun _ => ca) (fun _ => cb) ∧ HoldsNumbers m [ed] (fun _ => ca) (fun _ => cb) cc ∧
      (∀ fuel, 1 ≤ fuel → symplecticBasis xg fuel (shiftOracle Xs Ts [yd] m) [ed] m c.shape.g = .ok (al, be)) ∧
      IsSymplecticBasis [ed].length (m - 1) c.shape.g (fun s t => cc (s.1 * (m - 1) + s.2) (t.1 * (m - 1) + t.2)) Q al be ∧
      PositiveDual (fun s t => cc (s.1 * (m - 1) + s.2) (t.1 * (m - 1) + t.2)) al be ∧ SignCoeffs (al ++ be) ∧
      periodMatrix X c.shape al [ed].length (fun k => if k = 0 then row else fun _ => zero) = .ok om0 ∧
      periodMatrix X c.shape be [ed].length (fun k => if k = 0 then row else fun _ => zero) = .ok om1 ∧
      ∀ (r i j k : Nat) (a b : List Gamma), r < c.shape.g → diffOf c.shape.ni c.shape.j1 r = (i, j) → al[k]? = some a → be[k]? = some b →
        R (om0 r k) (loopPeriodM m x' [ed] (fun _ => Y) i j a) ∧ R (om1 r k) (loopPeriodM m x' [ed] (fun _ => Y) i j b) := by
  have hab : ed.a ≠ ed.b := fun e => hxab (by rw [e])
  have hED : ExactData R m 2 x' [ed] [yd] (fun _ => u') := by
    intro k e y hk hy
    have hk0 : k = 0 := by
      have := (List.getElem?_eq_some_iff.1 hk).1
      simpa using this
    subst hk0
    obtain rfl : ed = e := by simpa using hk
    obtain rfl : yd = y := by simpa using hy
    exact ⟨hyn, hu, hE⟩
  have hfree : FreeEdges x' 2 [ed] := by
    intro f hf k hk h1 h2
    obtain rfl := List.mem_singleton.1 hf
    omega
  have hone : ∀ (k l : Nat) (el : Edge W), k < l → [ed][l]? = some el → False := by
    intro k l el hkl hl
    have := (List.getElem?_eq_some_iff.1 hl).1
    simp only [List.length_singleton] at this
    omega
  have hres : Resolved Xs Ts x' [ed] [yd] :=
    ⟨fun k l _ el _ _ hkl _ hl => (hone k l el hkl hl).elim, fun k l _ el _ _ hkl _ hl => (hone k l el hkl hl).elim⟩
  have hinj : Set.InjOn x' (Set.Iio 2) := by
    intro p hp q hq e
    simp only [Set.mem_Iio] at hp hq
    rcases (by omega : p = q ∨ p = 0 ∧ q = 1 ∨ p = 1 ∧ q = 0) with e1 | ⟨rfl, rfl⟩ | ⟨rfl, rfl⟩
    · exact e1
    · exact absurd e hx
    · exact absurd e.symm hx
  obtain ⟨cc, hcc, htab⟩ := C13_intersection_table (shiftOracle Xs Ts [yd] m) [ed] (by omega : 2 ≤ m) (sab := fun _ _ => 0) (sbd := fun _ _ => 0) ⟨fun k l _ el hkl _ hl => (hone k l el hkl hl).elim, fun k l _ el hkl _ hl => (hone k l el hkl hl).elim⟩
  have hp := plainTree_balls Es hTs (by omega : 2 ≤ m) hinj (es := [ed]) (by intro e he; rw [List.mem_singleton.1 he]; exact ⟨ha, hb⟩) hgr hfree rfl hED hres hcc
  have hg : IsGenus m 2 c.shape.g := isGenus_shape (by norm_num) h
  have hne2 : ∀ e ∈ [ed], x' e.a ≠ x' e.b := by simpa using hxab
  obtain ⟨Q, -, -, al, be, k1, k2, k3, k4⟩ := basis_of_pu xg (by omega : 2 ≤ m) hcc (fun a b => hp.anti a b a.isLt b.isLt)
    (rank_of_plainTree (by omega) (Or.inl rfl) hg (fun _ => ⟨_, _, _, _, _, hp⟩) ℚ) (pu_of_edge fun α hα β hβ => by
      have := hp.self 0 (by simp) α hα β hβ
      simpa using this)
  obtain ⟨row, row', q1, q2, q3⟩ := d2_row E H hm h hxab hyn hu hE
  have hterm : ∀ l ∈ al ++ be, ∀ t ∈ l, t.index < [ed].length ∧ t.shift < m ∧ -(2 ^ 62) < t.coeff ∧ t.coeff < 2 ^ 62 := by
    intro l hl t ht
    obtain ⟨-, w1, w2⟩ := (k2.terms l hl).1 t ht
    have w3 := k4 l hl t ht
    exact ⟨w1, by omega, by omega, by omega⟩
  have hJ1 : ∀ k r, R ((fun k => if k = 0 then row else fun _ => zero) k r) ((fun k => if k = 0 then row' else fun _ => 0) k r) := by
    intro k r
    dsimp only
    split
    · exact q2 r
    · exact h0
  have hJ2 : ∀ (k : Nat) (e : Edge W), [ed][k]? = some e → ∀ r i j, r < c.shape.g → diffOf c.shape.ni c.shape.j1 r = (i, j) →
      (fun k => if k = 0 then row' else fun _ => 0) k r = (1 - (zeta m ^ j)⁻¹) * segIntM (x' e.a) (x' e.b) i j ((fun _ => branchY m 2 yd.n1 u') k) := by
    intro k e hk r i j hr hij
    have hk0 : k = 0 := by
      have := (List.getElem?_eq_some_iff.1 hk).1
      simpa using this
    subst hk0
    obtain rfl : ed = e := by simpa using hk
    exact q3 r i j hr hij
  obtain ⟨om0, a2, a3⟩ := periods_of_rows E le_rfl h hJ1 hJ2 al k2.lengths.1.ge fun l hl => hterm l (List.mem_append_left _ hl)
  obtain ⟨om1, b2, b3⟩ := periods_of_rows E le_rfl h hJ1 hJ2 be k2.lengths.2.ge fun l hl => hterm l (List.mem_append_right _ hl)
  have hbr := branches_of (by omega : 0 < m) hne2 hfree rfl hED
  refine ⟨cc, row, branchY m 2 yd.n1 u', u' 3, u' 4, Q, al, be, om0, om1, hcc, q1, ?_, holdsNumbers_of (by omega) hp, k1, k2, k3, k4, a2, b2,
    fun r i j k a b hr hij ha hb => ⟨a3 r i j k a hr hij ?_ ha, b3 r i j k b hr hij ?_ hb⟩⟩
  · intro k e hk
    have hk0 : k = 0 := by
      have := (List.getElem?_eq_some_iff.1 hk).1
      simpa using this
    subst hk0
    exact hbr 0 e hk
  · have := (List.getElem?_eq_some_iff.1 ha).1
    rw [k2.lengths.1] at this
    exact this
  · have := (List.getElem?_eq_some_iff.1 hb).1
    rw [k2.lengths.2] at this
    exact this

/-- **C57.** Curve `y^m = (x - x_0) (x - x_1)`, `m > 2`, distinct branch points given by balls.  Whatever the estimates used to choose the tree, the tree is one edge between the two points; the computation of its data either aborts, because the ball
of the constant contains zero, or succeeds, and then everything succeeds: the intersection matrix, the row of integrals, `symplectic_basis`, and both period matrices; there is a continuous determination `Y` of `y` on the edge
for which the matrix holds the intersection numbers of the closed paths, the loops form a symplectic basis with `alpha_i . beta_i = +1`, and entry `(r, k)` of the period matrices contains the integral of differential number `r` over `alpha_k`,
respectively `beta_k`.  Data, shifts and integrals are computed in three arithmetics (precisions). -/
theorem C57_quadratic_periods (xg : XGcd) {Xd Xs X : Arith A} (Ed : Encloses Xd exact R) (Es : Encloses Xs exact R) (E : Encloses X exact R) {F : Fns A} (H : EnclosesFns F exactFns R)
    (Td : Tests A) {Ts : Tests A} (hTs : SoundTests Ts R) {m : Nat} (hm : 2 < m) {c : Sec} (h : secInit m 2 = .ok c)
    {x : Nat → A} {x' : Nat → ℂ} (hR : ∀ k, R (x k) (x' k)) (hx : x' 0 ≠ x' 1)
    (o : WOps W) (sort : List (Edge W) → List (Edge W)) (hsort : ∀ l, (sort l).Perm l) (wt : Nat → Nat → W) (zero : A) (h0 : R zero 0) :
    ∃ (tr : Tree W) (ed : Edge W), spanningTree o sort wt (treeInit o 1) 2 = .ok tr ∧ tr.e = [ed] ∧ (ed.a = 0 ∧ ed.b = 1 ∨ ed.a = 1 ∧ ed.b = 0) ∧
      (treeYdataInit Xd Td x 2 m tr.e = .abort "Cab contains 0" ∨
      ∃ (yd : YData A) (cc : IMat) (row : Nat → A) (Y : ℝ → ℂ) (ca cb : ℂ) (Q : Mat (tr.e.length * (m - 1))) (al be : List (List Gamma)) (om0 om1 : Nat → Nat → A),
        treeYdataInit Xd Td x 2 m tr.e = .ok [yd] ∧ intersectionTree (shiftOracle Xs Ts [yd] m) tr.e m = .ok cc ∧ integralD2 X F c.shape yd = .ok row ∧
        Branches m 2 x' tr.e (fun _ => Y) (fun _ => ca) (fun _ => cb) ∧ HoldsNumbers m tr.e (fun _ => ca) (fun _ => cb) cc ∧
        (∀ fuel, 1 ≤ fuel → symplecticBasis xg fuel (shiftOracle Xs Ts [yd] m) tr.e m c.shape.g = .ok (al, be)) ∧
        IsSymplecticBasis tr.e.length (m - 1) c.shape.g (fun s t => cc (s.1 * (m - 1) + s.2) (t.1 * (m - 1) + t.2)) Q al be ∧
        PositiveDual (fun s t => cc (s.1 * (m - 1) + s.2) (t.1 * (m - 1) + t.2)) al be ∧ SignCoeffs (al ++ be) ∧
        periodMatrix X c.shape al tr.e.length (fun k => if k = 0 then row else fun _ => zero) = .ok om0 ∧
        periodMatrix X c.shape be tr.e.length (fun k => if k = 0 then row else fun _ => zero) = .ok om1 ∧
        ∀ (r i j k : Nat) (a b : List Gamma), r < c.shape.g → diffOf c.shape.ni c.shape.j1 r = (i, j) → al[k]? = some a → be[k]? = some b →
          R (om0 r k) (loopPeriodM m x' tr.e (fun _ => Y) i j a) ∧ R (om1 r k) (loopPeriodM m x' tr.e (fun _ => Y) i j b)) := by
  obtain ⟨tr, t1, -, t3, t4, t5⟩ := C09_grows_as_tree o sort hsort wt (treeInit o 1) 2 (Or.inl (by simp [treeInit]))
  have t3' : tr.e.length = 1 := t3
  obtain ⟨ed, he⟩ := List.length_eq_one_iff.1 t3'
  obtain ⟨ha, hb, -⟩ := t5 ed (by rw [he]; exact List.mem_singleton_self _)
  have hab : ed.a ≠ ed.b := by
    have := (t4 0 (by simp [Tree.pairs, he])).1
    simpa [Tree.pairs, he] using this
  have hxab : x' ed.a ≠ x' ed.b := by
    rcases (by omega : ed.a = 0 ∧ ed.b = 1 ∨ ed.a = 1 ∧ ed.b = 0) with ⟨e1, e2⟩ | ⟨e1, e2⟩
    · rw [e1, e2]; exact hx
    · rw [e1, e2]; exact hx.symm
  refine ⟨tr, ed, t1, he, by omega, ?_⟩
  have hgr := t4
  unfold Tree.pairs at hgr
  clear t1 t3 t4 t5
  generalize tr.e = es at *
  subst he
  rcases C20_edge_data Ed Td hR ha hb hab (by omega : 0 < m) hxab with ⟨yd, e1, -, hyn, u', hu, hE⟩ | ⟨e1, -⟩
  swap
  · left
    simp only [treeYdataInit, e1]
    rfl
  right
  have hdata : treeYdataInit Xd Td x 2 m [ed] = .ok [yd] := by
    simp only [treeYdataInit, e1, Res.ok_bind]
  obtain ⟨cc, row, Y, ca, cb, Q, al, be, om0, om1, rest⟩ := quad_of_data xg Es E H hTs hm h hx ha hb hxab hgr hyn hu hE zero h0
  exact ⟨yd, cc, row, Y, ca, cb, Q, al, be, om0, om1, hdata, rest⟩

/-- the hypotheses of `C57_quadratic_periods` hold for `y^5 = x^2 - 1` of genus 2 with exact numbers, and the abort does not happen there -/
example : ∃ c : Sec, secInit 5 2 = .ok c ∧ c.shape.g = 2 ∧
    Encloses exact exact (fun x y : ℂ => x = y) ∧ EnclosesFns exactFns exactFns (fun x y : ℂ => x = y) ∧ SoundTests exactTests (fun x y : ℂ => x = y) ∧
    (fun k : Nat => if k = 0 then (-1 : ℂ) else 1) 0 ≠ (fun k : Nat => if k = 0 then (-1 : ℂ) else 1) 1 ∧
    ∃ yd, ydataInitEdge exact exactTests (fun k : Nat => if k = 0 then (-1 : ℂ) else 1) 0 1 2 5 = .ok yd := by
  refine ⟨_, rfl, by decide, exact_encloses, exactFns_encloses, exactTests_sound, by norm_num, ?_⟩
  obtain ⟨yd, e, -⟩ := C20_exact (x := fun k : Nat => if k = 0 then (-1 : ℂ) else 1) (a := 0) (b := 1) (n := 2) (m := 5) (by norm_num) (by norm_num) (by norm_num) (by norm_num) (by norm_num)
  exact ⟨yd, e⟩

end Hcp
