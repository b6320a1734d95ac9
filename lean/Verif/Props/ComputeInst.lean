import Verif.Props.Compute
import Verif.Props.SuperInst
import Verif.Props.ExtraPrecInst

/-!
# Instances of the hypotheses of C56

The curve `y^2 = (x + 1) (x - 1) (x - i √3)` computed in the arithmetic of sets, with each of the two rules, and `y^5 = x^2 - 1` with exact numbers.
-/

namespace Hcp

open Set Spec

open Classical in
/-- sets of matrices -/
noncomputable def setMat : MatOps where
  M n m := Set (Matrix (Fin n) (Fin m) ℝ)
  C n m := Set (Matrix (Fin n) (Fin m) ℂ)
  K := Set ℂ
  Lu n := Set (Matrix (Fin n) (Fin n) ℝ)
  real a := (fun M => M.map Complex.re) '' a
  imag a := (fun M => M.map Complex.im) '' a
  join := image2 cmat
  rmul := image2 (· * ·)
  radd := image2 (· + ·)
  rsub := image2 (· - ·)
  lu a := if ∀ M ∈ a, M.det ≠ 0 then some a else none
  luSolve := image2 fun L b => L⁻¹ * b
  solve a b := if ∀ M ∈ a, M.det ≠ 0 then some (image2 (fun M N => M⁻¹ * N) a b) else none
  detHasZero a := decide (∃ M ∈ a, M.det = 0)
  mulI a := (fun M => Complex.I • M) '' a
  cmul := image2 (· * ·)
  charpoly a k := (fun M => M.charpoly.coeff k) '' a
  kdiv := image2 (· / ·)
  smul a c := image2 (fun z M => z • M) c a
  saddmul x a c := image2 (· + ·) x (image2 (fun z M => z • M) c a)

/-- membership, for the matrices -/
def InC {n m : Nat} (a : setMat.C n m) (M : Matrix (Fin n) (Fin m) ℂ) : Prop := Set.Mem a M

theorem setMat_encl : MatEncl setMat (fun a M => Set.Mem a M) InC (fun a z => Set.Mem a z) where
  real h := mem_image_of_mem _ h
  imag h := mem_image_of_mem _ h
  join h1 h2 := mem_image2_of_mem h1 h2
  rmul h1 h2 := mem_image2_of_mem h1 h2
  radd h1 h2 := mem_image2_of_mem h1 h2
  rsub h1 h2 := mem_image2_of_mem h1 h2
  lu := by
    intro n a a' l h1 h2
    simp only [setMat] at h2
    split at h2
    · rename_i h
      obtain rfl := Option.some.inj h2
      exact ⟨h _ h1, fun h => mem_image2_of_mem h1 h⟩
    · cases h2
  solve := by
    intro n m a b x a' b' h1 h2 h3
    simp only [setMat] at h3
    split at h3
    · rename_i h
      obtain rfl := Option.some.inj h3
      exact ⟨h _ h1, mem_image2_of_mem h1 h2⟩
    · cases h3
  det := by
    intro n a a' h1 h2 h3
    simp only [setMat, decide_eq_false_iff_not] at h2
    exact h2 ⟨a', h1, h3⟩
  mulI h := mem_image_of_mem _ h
  cmul h1 h2 := mem_image2_of_mem h1 h2
  charpoly _ h := mem_image_of_mem _ h
  kdiv h1 h2 := mem_image2_of_mem h1 h2
  smul h1 h2 := mem_image2_of_mem h2 h1
  saddmul h1 h2 h3 := mem_image2_of_mem h1 (mem_image2_of_mem h3 h2)

/-- sets of numbers, for the branch points `x`; `p` is what `de_params` returns. -/
noncomputable def setEnv (x : Nat → ℂ) (p : DePar (Set ℂ)) : AjEnv (Set ℂ) RSet Unit Unit setMat where
  ar _ := setArith
  fns _ := setFns
  tests _ := sndTests
  roots _ k := {x k}
  approx _ := ()
  cops := ⟨fun _ _ => (), fun _ _ => (), fun _ => (), fun _ => (), fun _ => (), fun _ => (), fun _ => (), fun _ => (), fun _ => (), fun _ _ => (), fun _ _ => ()⟩
  wops := ⟨fun _ _ => false, fun _ => false, (), ()⟩
  sortEdges l := l.tail ++ l.take 1
  mag := setMag
  xgcd := XGcd.std
  order es := List.range es.length
  par := setPar
  dbl := dblInst
  dePar _ _ _ _ _ := .ok p
  addErr e v := e.elim univ fun e => growBall e v
  trim v := v
  mat {g} om := {M : Matrix (Fin g) (Fin g) ℂ | ∀ i j : Fin g, M i j ∈ om i j}
  trimTau t := t

theorem setEnv_sound (x : Nat → ℂ) (p : DePar (Set ℂ)) : (setEnv x p).Sound (fun s z => z ∈ s) (fun b x => x ∈ b.1) InC where
  ar _ _ := setArith_encloses
  fns _ _ := setFns_encloses
  tests _ _ := sndTests_sound
  par := setPar_sound
  mag := setMag_sound
  addErr e v z z' h h' := ⟨z, h, h'⟩
  trim _ _ h := h
  mat _ _ h := h
  trimTau _ _ h := h
  sortEdges l := by
    cases l with
    | nil => exact List.Perm.refl _
    | cons a l => exact List.perm_append_comm
  order es := List.Perm.refl _

theorem triEnv_tree (p : DePar (Set ℂ)) (type : IntType) :
    ∃ tr : Tree Unit, spanningTreeOf (setEnv tri p).cops (setEnv tri p).wops (setEnv tri p).sortEdges (fun k => (setEnv tri p).approx ((setEnv tri p).roots 64 k)) (treeInit (setEnv tri p).wops 2) 3 type = .ok tr ∧
      tr.e = triEdges ∧ tr.n = 2 := by
  cases type <;> exact ⟨_, rfl, rfl, rfl⟩

theorem tri_length : ∀ e ∈ triEdges, ‖tri e.b - tri e.a‖ = 2 := by
  intro e he
  simp only [triEdges, List.mem_cons, List.not_mem_nil, or_false] at he
  rcases he with rfl | rfl
  · norm_num [tri]
  · have h : tri 2 - tri 1 = ((-1 : ℝ) : ℂ) + ((√3 : ℝ) : ℂ) * Complex.I := by
      simp [tri]
      ring
    have h2 : ‖tri 2 - tri 1‖ ^ 2 = 4 := by
      rw [h, Complex.norm_add_mul_I, Real.sq_sqrt (by positivity), Real.sq_sqrt (by norm_num)]
      norm_num
    nlinarith [norm_nonneg (tri 2 - tri 1)]

/-- the run for the triangle, from its parts -/
theorem triEnv_run (p : DePar (Set ℂ)) {c : Sec} (h : secInit 2 3 = .ok c) {f : Nat} (f1 : f &&& ajNoInt = 0) (f2 : f &&& ajNoAb = 0) (f3 : f &&& ajNoTau ≠ 0) {data : List (YData (Set ℂ))}
    (hdata : treeYdataInit setArith sndTests (fun k => {tri k}) 3 2 triEdges = .ok data) {al be : List (List Gamma)}
    (hb : symplecticBasis XGcd.std 2 (shiftOracle setArith sndTests data 2) triEdges 2 c.shape.g = .ok (al, be)) {I : Nat → Nat → Set ℂ}
    (hI : ajIntegrals (setEnv tri p) 2 c.shape f 64 (intType f c.m c.n) triEdges data = .ok I) {om0 om1 : Nat → Nat → Set ℂ}
    (h0 : periodMatrix setArith c.shape al 2 I = .ok om0) (h1 : periodMatrix setArith c.shape be 2 I = .ok om1) :
    ∃ out, ajRun (setEnv tri p) 2 c f 63 (treeInit (setEnv tri p).wops 2) = .ok out ∧ out.type = intType f c.m c.n ∧ out.tree.e = triEdges ∧ out.data = data ∧ out.intprec = 64 ∧ out.integrals = some I ∧
      out.omega = some (trimIf (setEnv tri p) f om0, trimIf (setEnv tri p) f om1) := by
  obtain ⟨_, e1, e2, _⟩ := secInit_fields h (by norm_num)
  have hcn : c.shape.n = 3 := by unfold Sec.shape; simp [e2]
  have hcm : c.shape.m = 2 := by unfold Sec.shape; simp [e1]
  obtain ⟨tr, t1, t2, t3⟩ := triEnv_tree p (intType f c.m c.n)
  have k1 : chk 64 = .ok 64 := chk_ok (by decide)
  have k2 : chk 74 = .ok 74 := chk_ok (by decide)
  have hst : ajTree (setEnv tri p) c f 63 (treeInit (setEnv tri p).wops 2) = .ok (tr, 64, data) := by
    have d' : treeYdataInit ((setEnv tri p).ar 74) ((setEnv tri p).tests 74) ((setEnv tri p).roots 74) 3 2 tr.e = .ok data := by
      rw [t2]
      exact hdata
    have x0 : extraprecTree ((setEnv tri p).ar 64) (setEnv tri p).mag tr.e ((setEnv tri p).roots 64) c.shape = .ok 1 := by
      rw [t2]
      exact setMag_extra (k := 0) (x := tri) (by simp [triEdges]) tri_length (by obtain rfl : c = ⟨2, 3, 1, 1, 1, 1, [1]⟩ := Res.ok.inj (h.symm.trans (by decide)); rfl)
    have x1 : (63 : Int) + 1 = 64 := rfl
    have x2 : (64 : Int) + 10 = 74 := rfl
    unfold ajTree
    simp only [hcn, hcm, t1, x0, Res.ok_bind, x1, k1, x2, k2, arbPrec_of (by norm_num : (2 : Int) ≤ 74), d']
  refine ⟨⟨intType f c.m c.n, tr, 64, data, al, be, some I, some (trimIf (setEnv tri p) f om0, trimIf (setEnv tri p) f om1), none⟩, ?_, rfl, t2, rfl, rfl, rfl, rfl⟩
  unfold ajRun
  rw [hst, Res.ok_bind]
  dsimp only
  rw [hcm, t2, t3]
  have hb' : symplecticBasis (setEnv tri p).xgcd 2 (shiftOracle ((setEnv tri p).ar 64) ((setEnv tri p).tests 64) data 2) triEdges 2 c.shape.g = .ok (al, be) := hb
  have h0' : periodMatrix ((setEnv tri p).ar 64) c.shape al 2 I = .ok om0 := h0
  have h1' : periodMatrix ((setEnv tri p).ar 64) c.shape be 2 I = .ok om1 := h1
  rw [hb', Res.ok_bind]
  dsimp only
  rw [if_neg (not_not.2 f1), arbPrec_of (by norm_num), Res.ok_bind, hI, Res.ok_bind, if_neg (not_not.2 f2), h0', Res.ok_bind, h1', Res.ok_bind, if_pos f3]

theorem tri_treeEdges {c : Sec} (h : secInit 2 3 = .ok c) : treeEdges c = 2 := by
  obtain ⟨_, e1, e2, e3, _⟩ := secInit_fields h (by norm_num)
  unfold treeEdges
  rw [e1, e2, e3, if_neg (by decide)]
  norm_num

/-- `C56_compute_partial` for a run with the Gauss-Chebyshev rule: all hypotheses hold. -/
theorem tri_gc : ∃ (p : DePar (Set ℂ)) (c : Sec) (out : AjOut (Set ℂ) Unit setMat c.shape.g), secInit 2 3 = .ok c ∧ c.shape.g = 1 ∧
    ajRun (setEnv tri p) 2 c (2 ^ 5 + 2) 63 (treeInit (setEnv tri p).wops 2) = .ok out ∧ out.type = .gc ∧ out.omega ≠ none ∧ out.tree.e = triEdges ∧
    ∃ Y ca cb cc Q, AjRight (setEnv tri p) (fun s z => z ∈ s) InC 2 3 tri c out Y ca cb cc Q := by
  let f := 2 ^ 5 + 2
  obtain ⟨c, data, par, e, I', cc, h1, hg, h2, h3, h4, h5, h7, h8, h9, h10⟩ := curve_inst (f := f) (by decide)
  obtain ⟨Y, ca, cb, Q, al, be, om0, om1, k1, k2, k3, k4, k5, -, k6, k7, k8⟩ := C51_periods_partial XGcd.std setArith_encloses setFns_encloses setPar_sound sndTests_sound (n := 3) (le_refl 3) h1
    (x := fun k => {tri k}) (x' := tri) (fun k => mem_singleton _) tri_inj h2 h3 triEdges_grow h4 (flag := f) h5 (err := fun k => growBall (e k)) (fun k v z z' h h' => ⟨z, h, h'⟩) (ks := [0, 1]) (List.Perm.refl _) h7 (fun _ _ _ _ _ => Or.inl (by decide))
    (I := fun _ _ => {0}) (fun _ _ => mem_singleton _) rfl h8 h9 h10
  let p : DePar (Set ℂ) := ⟨0, {0}, {0}, id⟩
  obtain ⟨_, e1, e2, _⟩ := secInit_fields h1 (by norm_num)
  have hcn : c.shape.n = 3 := by unfold Sec.shape; simp [e2]
  have hty : intType f c.m c.n = .gc := by rw [e1, e2]; decide
  have hI : ajIntegrals (setEnv tri p) 2 c.shape f 64 (intType f c.m c.n) triEdges data = .ok I' := by
    rw [hty]
    unfold ajIntegrals
    exact treeGc_of_run h8 fun k hk yd hd => by
      obtain ⟨q1, q2, -, -, q3⟩ := h5 k yd hd
      rw [hcn]
      exact ⟨q1, by omega, by rw [q2]; rfl⟩
  obtain ⟨out, o1, o2, o3, o4, o5, o6, o7⟩ := triEnv_run p h1 (f := f) (by decide) (by decide) (by decide) h4 (k3 2 (by norm_num)) hI k6 k7
  refine ⟨p, c, out, h1, hg, o1, o2.trans hty, by rw [o7]; simp, o3, ?_⟩
  refine C56_compute_partial setMat_encl (setEnv_sound tri p) (by norm_num) h1 hg.ge (by rw [tri_treeEdges h1]; rfl) o1 tri_inj (fun k => mem_singleton _) (fun _ => by rw [o3, o4]; exact h9)
    (fun h => ?_) (fun _ _ => ?_) (fun h => ?_)
  · rw [o2, hty] at h
    rcases h with h | ⟨-, h⟩
    · cases h
    · exact absurd (by decide) h
  · rw [o3, o4, o5]
    refine ⟨fun k yd q hd hq => ?_, ?_, fun k j yd yj q _ _ _ => Or.inl (by decide)⟩
    · rw [hcn] at hq
      obtain ⟨q1, q2, q3⟩ := h5 k yd hd
      obtain rfl := Res.ok.inj (q1.symm.trans hq)
      exact ⟨by rw [q2]; simp, q3⟩
    · have : (setEnv tri p).order triEdges = [0, 1] := rfl
      rw [this]
      refine h7.imp ?_
      intro k l hkl yk yl q q' dk dl hq hq'
      rw [hcn] at hq hq'
      obtain rfl := Res.ok.inj ((h5 k yk dk).1.symm.trans hq)
      obtain rfl := Res.ok.inj ((h5 l yl dl).1.symm.trans hq')
      exact hkl
  · rw [o2, hty] at h
    cases h

/-- `C56_compute_partial` for a run with the double-exponential rule: all hypotheses hold. -/
example : ∃ (p : DePar (Set ℂ)) (c : Sec) (out : AjOut (Set ℂ) Unit setMat c.shape.g), secInit 2 3 = .ok c ∧ c.shape.g = 1 ∧ p.n = 10 ∧
    ajRun (setEnv tri p) 2 c (2 ^ 5 + 3) 63 (treeInit (setEnv tri p).wops 2) = .ok out ∧ out.type = .de ∧ out.omega ≠ none ∧
    ∃ Y ca cb cc Q, AjRight (setEnv tri p) (fun s z => z ∈ s) InC 2 3 tri c out Y ca cb cc Q := by
  let f := 2 ^ 5 + 3
  obtain ⟨c, data, p, h, lam, e, I', cc, h1, hg, h2, h3, h4, h5, h5', hpn, h6, h7, h8, h9, h10⟩ := super_inst (m := 2) (Or.inl rfl) (f := f) (by decide)
  have h1' : secInit 2 3 = .ok c := h1
  obtain ⟨Y, ca, cb, -, -, Q, al, be, k1, k2, -, k4⟩ := C50_hyperelliptic_basis XGcd.std setArith_encloses sndTests_sound (x := fun k => {tri k}) (fun k => mem_singleton _) tri_inj
    (isGenus_shape (by norm_num) h1') h2 h3 triEdges_grow triEdges_free h4 h9 h10
  obtain ⟨_, e1, e2, _⟩ := secInit_fields h1' (by norm_num)
  have hcn : c.shape.n = 3 := by unfold Sec.shape; simp [e2]
  have hcm : c.shape.m = 2 := by unfold Sec.shape; simp [e1]
  have hty : intType f c.m c.n = .de := by rw [e1, e2]; decide
  have hbig : (decide ((1000 : Int) < 64) && decide (5 < c.shape.n - 2)) = false := by simp
  have hI : ajIntegrals (setEnv tri p) 2 c.shape f 64 (intType f c.m c.n) triEdges data = .ok I' := by
    rw [hty]
    unfold ajIntegrals
    refine treeDe_of_run (par := fun _ => p) ?_ fun k hk yd hd => rfl
    rw [hbig]
    exact h8
  have hgood : DeGood (setEnv tri p) (fun s z => z ∈ s) c.shape f 64 tri triEdges data := by
    refine ⟨fun j yj q hd hq => ?_, fun k j yd yj q _ _ _ => Or.inl (by decide)⟩
    obtain rfl := Res.ok.inj hq
    refine ⟨h, lam, e, h5, h5', h6, fun k ed yd u' hk hd' hu' hE r i l hr hil => ?_⟩
    rw [hcm, hcn] at hE ⊢
    exact h7 k 0 ed yd u' hk hd' (by decide) hu' hE r i l hr hil
  -- the period matrices
  obtain ⟨om0, om1, h0, h0'⟩ : ∃ om0 om1, periodMatrix setArith c.shape al 2 I' = .ok om0 ∧ periodMatrix setArith c.shape be 2 I' = .ok om1 := by
    have hne : ∀ ed ∈ triEdges, tri ed.a ≠ tri ed.b := by
      intro ed hed
      have : ed.a ≠ ed.b := by
        simp only [triEdges, List.mem_cons, List.not_mem_nil, or_false] at hed
        rcases hed with rfl | rfl <;> norm_num
      exact fun h => this (tri_inj (h2 ed hed).1 (h2 ed hed).2 h)
    obtain ⟨u, hu⟩ := exactData_exists setArith_encloses sndTests (R := fun s z => z ∈ s) (x := fun k => {tri k}) (x' := tri) (fun k => mem_singleton _) (by norm_num : 0 < 2)
      (fun ed hed => ⟨(h2 ed hed).1, (h2 ed hed).2, hne ed hed⟩) h4
    obtain ⟨J, hJ1, hJ2⟩ := de_rows_of_run (setEnv_sound tri p) (by norm_num) h1 hne triEdges_free hu (by norm_num) hgood (de0 := ⟨0, {0}, fun _ => {0}, fun _ => {0}, fun _ => {0}, id⟩) rfl (by rw [hty] at hI; exact hI)
    have hterm : ∀ l ∈ al ++ be, ∀ t ∈ l, t.index < triEdges.length ∧ t.shift < 2 ∧ -(2 ^ 62) < t.coeff ∧ t.coeff < 2 ^ 62 := by
      intro l hl t ht
      obtain ⟨-, w1, w2⟩ := (k2.terms l hl).1 t ht
      have w3 := k4 l hl t ht
      exact ⟨w1, by omega, by omega, by omega⟩
    obtain ⟨om0, a2, -⟩ := periods_of_rows setArith_encloses (by norm_num) h1 hJ1 hJ2 al k2.lengths.1.ge fun l hl => hterm l (List.mem_append_left _ hl)
    obtain ⟨om1, b2, -⟩ := periods_of_rows setArith_encloses (by norm_num) h1 hJ1 hJ2 be k2.lengths.2.ge fun l hl => hterm l (List.mem_append_right _ hl)
    exact ⟨om0, om1, a2, b2⟩
  obtain ⟨out, o1, o2, o3, o4, o5, o6, o7⟩ := triEnv_run p h1 (f := f) (by decide) (by decide) (by decide) h4 (k1 2 (by norm_num)) hI h0 h0'
  refine ⟨p, c, out, h1, hg, hpn, o1, o2.trans hty, by rw [o7]; simp, ?_⟩
  refine C56_compute_partial setMat_encl (setEnv_sound tri p) (by norm_num) h1 hg.ge (by rw [tri_treeEdges h1]; rfl) o1 tri_inj (fun k => mem_singleton _) (fun _ => by rw [o3, o4]; exact h9)
    (fun _ => by rw [o3]; exact triEdges_free) (fun h => ?_) (fun _ _ => ?_)
  · rw [o2, hty] at h
    cases h
  · rw [o3, o4, o5]
    exact hgood

/-- the points `-1, 1` -/
noncomputable def pm (k : Nat) : ℂ := if k = 0 then -1 else 1

theorem pm_inj {a b : Nat} (ha : a < 2) (hb : b < 2) (h : pm a = pm b) : a = b := by
  interval_cases a <;> interval_cases b <;> first | rfl | (exfalso; norm_num [pm] at h)

/-- the hypotheses of `C56_quadratic` hold for `y^5 = x^2 - 1` of genus 2; the first abort does not happen there, the second neither when `tau` is not wanted. -/
example (p : DePar (Set ℂ)) : ∃ c : Sec, secInit 5 2 = .ok c ∧ c.shape.g = 2 ∧ ∀ flag : Nat, flag &&& ajUseDe = 0 →
    (ajRun (setEnv pm p) 1 c flag 64 (treeInit (setEnv pm p).wops 1) = .abort "matrix is not invertible" ∧ flag &&& ajNoTau = 0) ∨
    ∃ out, ajRun (setEnv pm p) 1 c flag 64 (treeInit (setEnv pm p).wops 1) = .ok out ∧ ∃ Y ca cb cc Q,
      AjRight (setEnv pm p) (fun s z => z ∈ s) InC 5 2 pm c out Y ca cb cc Q := by
  refine ⟨_, rfl, by decide +kernel, fun flag hf => ?_⟩
  have fit : (2 : Int) ≤ 64 + 1 ∧ FitsSlong (64 + 1) ∧ FitsSlong (64 + 1 + 10) := by decide
  have hlen : ∀ ed : Edge Unit, ed.a < 2 → ed.b < 2 → ed.a ≠ ed.b → ‖pm ed.b - pm ed.a‖ = 2 := by
    intro ed ha hb hab
    rcases (by omega : ed.a = 0 ∧ ed.b = 1 ∨ ed.a = 1 ∧ ed.b = 0) with ⟨e1, e2⟩ | ⟨e1, e2⟩ <;> rw [e1, e2] <;> norm_num [pm]
  rcases C56_quadratic setMat_encl (setEnv_sound pm p) (m := 5) (by norm_num) (c := _) rfl (tr0 := treeInit (setEnv pm p).wops 1) (by rfl) (fuel := 1) le_rfl hf (prec := 64)
    (fun ed h1 h2 h3 => ⟨1, setMag_extra (x := pm) (k := 1) (by simp) (fun e he => by obtain rfl := List.mem_singleton.1 he; exact hlen _ h1 h2 h3) (by rfl), fit⟩) (x' := fun _ => pm) (fun _ => by norm_num [pm]) (fun _ k _ => mem_singleton _) with ⟨-, q, a, b, ha, hb, hab, h1, -⟩ | ⟨h, -, -, h', -⟩ | h
  · exfalso
    rcases C20_edge_data setArith_pt sndTests (x := fun k => {pm k}) (x' := pm) (fun _ => rfl) ha hb hab (m := 5) (by norm_num) (fun h => hab (pm_inj ha hb h)) with ⟨yd, hyd, -⟩ | ⟨_, s, z, hz, h, h0⟩
    · have : ydataInitEdge setArith sndTests (fun k => {pm k}) a b 2 5 = .abort "Cab contains 0" := h1
      rw [hyd] at this
      cases this
    · subst hz
      simp only [sndTests, mem_singleton_iff, decide_eq_true_eq] at h
      exact absurd h.symm h0
  · exact Or.inl ⟨h, h'⟩
  · exact Or.inr h

end Hcp
