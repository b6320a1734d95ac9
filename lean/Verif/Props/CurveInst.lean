import Verif.Props.HyperCurve
import Verif.Props.HyperInst

/-!
# An instance of the hypotheses of C50 and C51

The curve `y^2 = (x + 1) (x - 1) (x - i √3)`, the tree of two sides of the triangle, computed in the arithmetic of sets.
-/

namespace Hcp

open Set Spec

open Classical in
/-- predicates on sets of complex numbers -/
noncomputable def sndTests : Tests (Set ℂ) where
  reNeg s := decide (∀ z ∈ s, z.re < 0)
  reNonpos s := decide (∀ z ∈ s, z.re ≤ 0)
  reNonneg s := decide (∀ z ∈ s, 0 ≤ z.re)
  imNonpos s := decide (∀ z ∈ s, z.im ≤ 0)
  imHasZero s := decide ((∃ z ∈ s, z.im ≤ 0) ∧ ∃ z ∈ s, 0 ≤ z.im)
  imSgn s := if ∀ z ∈ s, 0 < z.im then 1 else -1
  hasZero s := decide (0 ∈ s)
  finite _ := true
  arg s := (fun z => ((Complex.arg z : ℝ) : ℂ)) '' s
  uniqueInt s := if h : ∃ k : Int, ((k : ℂ) ∈ s ∧ ∀ l : Int, (l : ℂ) ∈ s → l = k) then some h.choose else none

theorem sndTests_sound : SoundTests sndTests (fun s z => z ∈ s) where
  reNeg h1 h2 := by simp only [sndTests, decide_eq_true_eq] at h2; exact h2 _ h1
  reNonpos h1 h2 := by simp only [sndTests, decide_eq_true_eq] at h2; exact h2 _ h1
  reNonneg h1 h2 := by simp only [sndTests, decide_eq_true_eq] at h2; exact h2 _ h1
  imNonpos h1 h2 := by simp only [sndTests, decide_eq_true_eq] at h2; exact h2 _ h1
  imSgn := by
    intro s z h1 h2
    simp only [sndTests, decide_eq_false_iff_not, not_and_or] at h2
    rcases h2 with h2 | h2
    · push Not at h2
      have := h2 z h1
      refine ⟨?_, this.ne'⟩
      simp only [sndTests]
      rw [if_pos h2, sign_pos this]
      rfl
    · push Not at h2
      have := h2 z h1
      refine ⟨?_, this.ne⟩
      simp only [sndTests]
      rw [if_neg (fun h => absurd (h z h1) (not_lt.2 this.le)), sign_neg this]
      rfl
  hasZero := by
    rintro s z h1 h2 rfl
    simp only [sndTests, decide_eq_false_iff_not] at h2
    exact h2 h1
  arg h := mem_image_of_mem _ h
  uniqueInt := by
    intro s k j h1 h2
    simp only [sndTests] at h2
    split at h2
    · rename_i hex
      obtain rfl := Option.some.inj h2
      exact (hex.choose_spec.2 j h1).symm
    · cases h2

/-! The tests on one-point sets. -/

theorem snd_reNonpos (z : ℂ) : sndTests.reNonpos {z} = exactTests.reNonpos z := by simp [sndTests, exactTests]
theorem snd_reNonneg (z : ℂ) : sndTests.reNonneg {z} = exactTests.reNonneg z := by simp [sndTests, exactTests]
theorem snd_arg (z : ℂ) : sndTests.arg {z} = {exactTests.arg z} := by simp [sndTests, exactTests]
theorem snd_uniqueInt (z : ℂ) : sndTests.uniqueInt {z} = exactTests.uniqueInt z := by
  by_cases h : ∃ k : Int, z = k
  · obtain ⟨k, rfl⟩ := h
    rw [uniqueInt_exact]
    have hex : ∃ l : Int, ((l : ℂ) ∈ ({(k : ℂ)} : Set ℂ) ∧ ∀ l' : Int, (l' : ℂ) ∈ ({(k : ℂ)} : Set ℂ) → l' = l) :=
      ⟨k, rfl, fun l hl => by exact_mod_cast (mem_singleton_iff.1 hl)⟩
    simp only [sndTests, dif_pos hex, Option.some.injEq]
    exact_mod_cast mem_singleton_iff.1 hex.choose_spec.1
  · have h1 : exactTests.uniqueInt z = none := by simp only [exactTests, dif_neg h]
    have hex : ¬ ∃ l : Int, ((l : ℂ) ∈ ({z} : Set ℂ) ∧ ∀ l' : Int, (l' : ℂ) ∈ ({z} : Set ℂ) → l' = l) :=
      fun ⟨l, hl, _⟩ => h ⟨l, (mem_singleton_iff.1 hl).symm⟩
    rw [h1]
    simp only [sndTests, dif_neg hex]

theorem snd_angle (a b : ℂ) : arbAngle setArith sndTests {a} {b} = (arbAngle exact exactTests a b >>= fun r => .ok {r}) := by
  have e1 : setArith.div {a} {b} = {exact.div a b} := setArith_pt.div rfl rfl
  have e2 : ∀ z, setArith.neg {z} = {exact.neg z} := fun z => setArith_pt.neg rfl
  have e3 : ∀ z, setArith.sub {z} setArith.pi = {exact.sub z exact.pi} := fun z => setArith_pt.sub rfl rfl
  have e4 : ∀ z, setArith.add {z} setArith.pi = {exact.add z exact.pi} := fun z => setArith_pt.add rfl rfl
  have e5 : ∀ z, setArith.div {z} setArith.pi = {exact.div z exact.pi} := fun z => setArith_pt.div rfl rfl
  have e6 : ∀ z, setArith.mul2exp {z} (-1) = {exact.mul2exp z (-1)} := fun z => setArith_pt.mul2exp _ rfl
  have f1 : sndTests.finite {exact.div a b} = true := rfl
  have f2 : exactTests.finite (exact.div a b) = true := rfl
  unfold arbAngle
  simp only [e1, f1, f2, Bool.true_eq_false, if_false, snd_reNonpos, e2, snd_arg, snd_reNonneg, e3, e4, Res.ok_bind]
  split_ifs <;> simp only [e5, e6]

/-- the data of an edge, as one-point sets -/
noncomputable def ptData (y : YData ℂ) : YData (Set ℂ) := { m := y.m, n := y.n, n1 := y.n1, u := fun i => {y.u i} }

theorem snd_shiftBD (yk yl : YData ℂ) (m : Nat) : shiftBD setArith sndTests (ptData yk) (ptData yl) m = shiftBD exact exactTests yk yl m := by
  have q1 : (ptData yk).ba2 = {yk.ba2} := rfl
  have q2 : (ptData yl).ba2 = {yl.ba2} := rfl
  have q3 : (ptData yk).yb = {yk.yb} := rfl
  have q4 : (ptData yl).ya = {yl.ya} := rfl
  have e1 : ∀ r p : ℂ, setArith.add (setArith.add {r} (setArith.mul {p} (setArith.ofInt m))) (setArith.mul2exp setArith.one (-1)) =
      {exact.add (exact.add r (exact.mul p (exact.ofInt m))) (exact.mul2exp exact.one (-1))} := fun r p =>
    setArith_pt.add (setArith_pt.add rfl (setArith_pt.mul rfl rfl)) (setArith_pt.mul2exp _ rfl)
  unfold shiftBD
  rw [q1, q2, q3, q4, snd_angle, snd_angle]
  obtain ⟨φ, h1, -⟩ := arbAngle_exact yk.ba2 yl.ba2
  obtain ⟨ψ, h2, -⟩ := arbAngle_exact yl.ya yk.yb
  rw [h1, h2]
  simp only [Res.ok_bind, e1]
  unfold arbGetSi
  rw [snd_uniqueInt]

/-! ## The triangle -/

/-- branch points `-1, 1, i √3` -/
noncomputable def tri (k : Nat) : ℂ := if k = 0 then -1 else if k = 1 then 1 else Complex.I * (√3 : ℝ)

theorem sq3 : ((√3 : ℝ) : ℂ) ^ 2 = 3 := by
  rw [← Complex.ofReal_pow, Real.sq_sqrt (by norm_num)]
  norm_num

theorem tri_inj : Set.InjOn tri (Set.Iio 3) := by
  have h01 : (-1 : ℂ) ≠ 1 := by norm_num
  have key : ∀ c : ℂ, c ^ 2 = 1 → c ≠ Complex.I * (√3 : ℝ) := by
    rintro _ h rfl
    rw [mul_pow, Complex.I_sq, sq3] at h
    norm_num at h
  have h02 := key (-1) (by norm_num)
  have h12 := key 1 (by norm_num)
  intro a ha b hb h
  have ha' : a < 3 := ha
  have hb' : b < 3 := hb
  interval_cases a <;> interval_cases b <;> simp [tri, h01, h02, h12, h01.symm, h02.symm, h12.symm] at h ⊢

/-- the two edges of the tree -/
def triEdges : List (Edge Unit) := [{ a := 0, b := 1, r := () }, { a := 1, b := 2, r := () }]

theorem triEdges_grow : GrowsAsTree (triEdges.map fun f => (f.a, f.b)) := by
  intro k h
  have hk : k < 2 := by simpa [triEdges] using h
  interval_cases k <;> simp [triEdges, Touches]

theorem funcR_tri : funcRGc exactPar (Complex.I * (√3 : ℝ)) = .ok (2 : ℝ) := by
  have key : ∀ c : ℝ, c ^ 2 = 1 → ‖Complex.I * (√3 : ℝ) + (c : ℂ)‖ = 2 := by
    intro c hc
    have h1 : ‖Complex.I * (√3 : ℝ) + (c : ℂ)‖ ^ 2 = 2 ^ 2 := by
      rw [← Complex.normSq_eq_norm_sq, Complex.normSq_apply]
      simp
      nlinarith [Real.sq_sqrt (show (0 : ℝ) ≤ 3 by norm_num)]
    exact (pow_left_inj₀ (norm_nonneg _) (by norm_num) (by norm_num)).1 h1
  have k1 := key 1 (by norm_num)
  have k2 := key (-1) (by norm_num)
  have e : exactPar.mul2exp (exactPar.add (exactPar.abs (exactPar.addSi (Complex.I * (√3 : ℝ)) (-1))) (exactPar.abs (exactPar.addSi (Complex.I * (√3 : ℝ)) 1))) (-1) = (2 : ℝ) := by
    simp only [exactPar]
    push_cast at k1 k2 ⊢
    rw [k1, k2]
    norm_num
  unfold funcRGc
  rw [e, if_pos]
  simp only [exactPar, decide_eq_true_eq]
  norm_num

theorem gcParams_tri : gcParams exactPar dblInst 2 [Complex.I * (√3 : ℝ)] (1 : Nat) 64 = gcParams exactPar dblInst 2 [2] (1 : Nat) 64 := by
  have hr : funcRGc exactPar 2 = .ok (2 : ℝ) := by
    have e : exactPar.mul2exp (exactPar.add (exactPar.abs (exactPar.addSi 2 (-1))) (exactPar.abs (exactPar.addSi 2 1))) (-1) = (2 : ℝ) := by
      simp only [exactPar]
      norm_num
    unfold funcRGc
    rw [e, if_pos]
    simp only [exactPar, decide_eq_true_eq]
    norm_num
  unfold gcParams
  have : vecR exactPar [Complex.I * (√3 : ℝ)] none = vecR exactPar [2] none := by
    simp only [vecR, hr, funcR_tri]
  rw [this]

/-- the third point seen from each of the two sides -/
theorem tri_u {m a b n1 : Nat} {u : Nat → ℂ} (h : (a = 0 ∧ b = 1) ∨ (a = 1 ∧ b = 2)) (hE : EdgeData m 3 tri a b n1 u) : u 0 = Complex.I * (√3 : ℝ) := by
  obtain ⟨τ, hτ, hx⟩ := hE.pts
  have h0 := hx 0 (by norm_num)
  obtain ⟨k1, k2, k3⟩ := hτ.mapsTo (show (0 : Nat) ∈ Set.Iio (3 - 2) by simp)
  have hs := sq3
  have hI := Complex.I_sq
  rcases h with ⟨rfl, rfl⟩ | ⟨rfl, rfl⟩
  · have : τ 0 = 2 := by omega
    rw [this] at h0
    simp only [edgePt, tri] at h0
    norm_num at h0
    exact h0
  · have : τ 0 = 0 := by omega
    rw [this] at h0
    simp only [edgePt, tri] at h0
    norm_num at h0
    have hne : Complex.I * (√3 : ℝ) - 1 ≠ 0 := by
      intro h
      have h2 : Complex.I * (√3 : ℝ) = 1 := sub_eq_zero.1 h
      have h3 : (Complex.I * (√3 : ℝ)) ^ 2 = 1 := by rw [h2]; norm_num
      rw [mul_pow, hI, hs] at h3
      norm_num at h3
    apply mul_right_cancel₀ hne
    linear_combination 2 * h0 - (Complex.I ^ 2) * hs - 3 * hI

/-- data of an edge of the triangle -/
theorem tri_data {m a b : Nat} (hm : 0 < m) (ha : a < 3) (hb : b < 3) (hab : a ≠ b) :
    ∃ y : YData ℂ, ydataInitEdge setArith sndTests (fun k => {tri k}) a b 3 m = .ok (ptData y) ∧ y.n = 3 ∧ EdgeData m 3 tri a b y.n1 y.u := by
  rcases C20_edge_data setArith_pt sndTests (x := fun k => {tri k}) (fun _ => rfl) ha hb hab (m := m) hm (fun h => hab (tri_inj ha hb h))
    with ⟨yd, hyd, h1, h2, u', hu, hE⟩ | ⟨_, s, z, hz, h, h0⟩
  · refine ⟨{ m := m, n := 3, n1 := yd.n1, u := u' }, ?_, rfl, hE⟩
    rw [hyd]
    congr 1
    unfold ptData
    cases yd
    simp only at h1 h2 hu ⊢
    subst h1 h2
    congr 1
    exact funext hu
  · subst hz
    simp only [sndTests, mem_singleton_iff, decide_eq_true_eq] at h
    exact absurd h.symm h0

/-- the ball enlarged by a radius -/
def growBall (e : ℝ) (v : Set ℂ) : Set ℂ := {z' | ∃ z ∈ v, ‖z - z'‖ ≤ e}

/-- **Instance of `C51_periods_partial`** (and of the three ball versions of C50): all their hypotheses hold together for the triangle. -/
theorem curve_inst {f : Nat} (hf : f.testBit 5 = true) : ∃ (c : Sec) (data : List (YData (Set ℂ))) (par : Nat → GcPar) (e : Nat → ℝ) (I' : Nat → Nat → Set ℂ) (cc : IMat),
    secInit 2 3 = .ok c ∧ c.shape.g = 1 ∧ (∀ ed ∈ triEdges, ed.a < 3 ∧ ed.b < 3) ∧ EdgeCount 2 3 triEdges.length ∧
    treeYdataInit setArith sndTests (fun k => {tri k}) 3 2 triEdges = .ok data ∧
    (∀ (k : Nat) (yd : YData (Set ℂ)), data[k]? = some yd → gcParams setPar dblInst 2 ((List.range (3 - 2)).map yd.u) c.shape.g 64 = .ok (par k) ∧ (par k).e = some (e k) ∧
      1 < (par k).r ∧ (par k).r ≤ (par k).r0 ∧ 1 ≤ (par k).n) ∧
    [0, 1].Pairwise (fun k l => (par l).n.toNat ≤ (par k).n.toNat) ∧
    integralsTreeGc setArith sndTests setFns c.shape f data (fun k => (par k).n.toNat) (fun k => growBall (e k)) [0, 1] { n := 0, len := 0, x := fun _ => {0} } (fun _ _ => {0}) = .ok I' ∧
    Resolved setArith sndTests tri triEdges data ∧ intersectionTree (shiftOracle setArith sndTests data 2) triEdges 2 = .ok cc := by
  obtain ⟨c, hc, hg⟩ : ∃ c, secInit 2 3 = .ok c ∧ c.shape.g = 1 := by
    refine ⟨_, rfl, ?_⟩
    decide +kernel
  have hcn : c.shape.n = 3 := by
    obtain ⟨_, _, e2, _⟩ := secInit_fields hc (by norm_num)
    unfold Sec.shape
    simp [e2]
  obtain ⟨p, e, hp, hpe, h1, h2, h3, -⟩ := gcParams_inst
  obtain ⟨y0, d0, n0, E0⟩ := tri_data (m := 2) (a := 0) (b := 1) (by norm_num) (by norm_num) (by norm_num) (by norm_num)
  obtain ⟨y1, d1, n1, E1⟩ := tri_data (m := 2) (a := 1) (b := 2) (by norm_num) (by norm_num) (by norm_num) (by norm_num)
  have hpar : ∀ y : YData ℂ, y.u 0 = Complex.I * (√3 : ℝ) → gcParams setPar dblInst 2 ((List.range (3 - 2)).map (ptData y).u) c.shape.g 64 = .ok p := by
    intro y hy
    rw [hg, show (List.range (3 - 2)).map (ptData y).u = ([Complex.I * (√3 : ℝ)] : List ℂ).map fun z => {z} by simp [ptData, hy], set_gcParams, gcParams_tri]
    exact hp
  let err : Nat → Set ℂ → Set ℂ := fun _ => growBall e
  have he : 0 ≤ e := by
    have := C45_error_partial exactPar_sound (u' := [2]) (List.Forall₂.cons rfl .nil) hp hpe h1 h2 h3 (N := p.n.toNat) (by omega) (i := 0) (by norm_num) (n1 := 0) (by norm_num)
    exact (norm_nonneg _).trans this
  -- the points of integration
  obtain ⟨gc, hgc⟩ : ∃ gc, gcIntInit setArith setFns p.n.toNat = .ok gc := by
    obtain ⟨r, r', hr, -⟩ := gcIntegrals_sum setArith_encloses setFns_encloses sndTests (sz := 6) (g := 1) (d1 := y0.n1) (d := 1) (by norm_num) (by norm_num) E0.n1_le
      (u := (ptData y0).u) (u' := y0.u) (fun k => rfl) p.n.toNat f (Or.inl hf) (fun h => absurd hf (by rw [h]; decide))
    simp only [gcIntegrals, Res.bind_eq_ok] at hr
    obtain ⟨gc, hgc, -⟩ := hr
    exact ⟨gc, hgc⟩
  -- the row of an edge
  have row : ∀ (y : YData ℂ), y.n1 ≤ 1 → ∃ r row, gcIntegralsPrecomp setArith sndTests 6 (ptData y).u y.n1 1 1 gc f = .ok r ∧
      edgeFactors setArith c.shape (ptData y).ba2 (ptData y).ab (ptData y).c (fun i => if i < 1 then err 0 (r i) else r i) = .ok row := by
    intro y hn1
    obtain ⟨r, r', hr, hr1, -⟩ := gcIntegrals_sum setArith_encloses setFns_encloses sndTests (sz := 6) (g := 1) (d1 := y.n1) (d := 1) (by norm_num) (by norm_num) hn1
      (u := (ptData y).u) (u' := y.u) (fun k => rfl) p.n.toNat f (Or.inl hf) (fun h => absurd hf (by rw [h]; decide))
    have hz : ∀ i, (if i < 1 then r' i else r' i) ∈ (if i < 1 then err 0 (r i) else r i) := by
      intro i
      split
      · exact ⟨r' i, hr1 i, by simpa using he⟩
      · exact hr1 i
    obtain ⟨row, row', hrow, -, -⟩ := C19_encloses setArith_encloses (by norm_num) hc (ba2 := (ptData y).ba2) (ab := (ptData y).ab) (cab := (ptData y).c) (ba2' := y.ba2)
      (ab' := y.ab) (cab' := y.c) rfl rfl rfl hz
    simp only [gcIntegrals, hgc, Res.ok_bind] at hr
    exact ⟨r, row, hr, hrow⟩
  obtain ⟨r0, w0, a0, b0⟩ := row y0 E0.n1_le
  obtain ⟨r1, w1, a1, b1⟩ := row y1 E1.n1_le
  have hs0 : gcScheme setArith setFns c.shape p.n.toNat { n := 0, len := 0, x := fun _ => {0} } = .ok gc := by
    unfold gcScheme
    rw [if_pos (by simp [gcReplace]), hgc]
  have hs1 : gcScheme setArith setFns c.shape p.n.toNat gc = .ok gc := by
    unfold gcScheme
    split
    · exact hgc
    · rfl
  obtain ⟨S, hS⟩ := shiftBD_exact_ok (m := 2) (n := 3) (by norm_num) (by norm_num) tri_inj (by norm_num) (by norm_num) (by norm_num) (by norm_num) (by norm_num) n0 n1 E0 E1
  have hget : ∀ (k l : Nat) (ek el : Edge Unit), k < l → triEdges[k]? = some ek → triEdges[l]? = some el → k = 0 ∧ l = 1 ∧ ek.a = 0 ∧ ek.b = 1 ∧ el.a = 1 := by
    intro k l ek el hkl hk hl
    have h1 := (List.getElem?_eq_some_iff.1 hl).1
    have h2 : l < 2 := h1
    obtain rfl : l = 1 := by omega
    obtain rfl : k = 0 := by omega
    obtain rfl := Option.some.inj hk
    obtain rfl := Option.some.inj hl
    exact ⟨rfl, rfl, rfl, rfl, rfl⟩
  obtain ⟨cc, hcc, -⟩ := C13_intersection_table (shiftOracle setArith sndTests [ptData y0, ptData y1] 2) triEdges (m := 2) le_rfl (sab := fun _ _ => 0) (sbd := fun _ _ => S)
    ⟨fun k l ek el hkl hk hl h => by
      obtain ⟨-, -, q1, -, q3⟩ := hget k l ek el hkl hk hl
      omega, fun k l ek el hkl hk hl h _ => by
      obtain ⟨rfl, rfl, -⟩ := hget k l ek el hkl hk hl
      exact (snd_shiftBD y0 y1 2).trans hS⟩
  refine ⟨c, [ptData y0, ptData y1], fun _ => p, fun _ => e, fun i => if i = 1 then w1 else if i = 0 then w0 else fun _ => {0}, cc, hc, hg, ?_, Or.inl rfl, ?_, ?_, ?_, ?_, ?_, hcc⟩
  · intro ed hed
    simp only [triEdges, List.mem_cons, List.not_mem_nil, or_false] at hed
    rcases hed with rfl | rfl <;> exact ⟨by norm_num, by norm_num⟩
  · simp only [triEdges, treeYdataInit, d0, d1, Res.ok_bind]
  · intro k yd' hk
    rcases k with _ | _ | k
    · obtain rfl := Option.some.inj hk
      exact ⟨hpar y0 (tri_u (Or.inl ⟨rfl, rfl⟩) E0), hpe, h1, h2, h3⟩
    · obtain rfl := Option.some.inj hk
      exact ⟨hpar y1 (tri_u (Or.inr ⟨rfl, rfl⟩) E1), hpe, h1, h2, h3⟩
    · cases hk
  · simp
  · have q0 : (ptData y0).n1 = y0.n1 := rfl
    have q1 : (ptData y1).n1 = y1.n1 := rfl
    simp only [integralsTreeGc, List.getElem?_cons_zero, List.getElem?_cons_succ, integralsEdgeGc, hs0, Res.ok_bind, hcn, hg, q0, a0]
    have b0' : edgeFactors setArith c.shape (ptData y0).ba2 (ptData y0).ab (ptData y0).c (fun i => if i < 1 then growBall e (r0 i) else r0 i) = .ok w0 := b0
    have b1' : edgeFactors setArith c.shape (ptData y1).ba2 (ptData y1).ab (ptData y1).c (fun i => if i < 1 then growBall e (r1 i) else r1 i) = .ok w1 := b1
    simp only [b0', Res.ok_bind, hs1, q1, a1, b1']
  · constructor
    · intro k l ek el yk yl hkl hk hl _ _ h
      obtain ⟨-, -, q1, -, q3⟩ := hget k l ek el hkl hk hl
      omega
    · intro k l ek el yk yl hkl hk hl gk gl _ _
      obtain ⟨rfl, rfl, -⟩ := hget k l ek el hkl hk hl
      obtain rfl := Option.some.inj hk
      obtain rfl := Option.some.inj hl
      obtain rfl := Option.some.inj gk
      obtain rfl := Option.some.inj gl
      have e1 : setArith.div (ptData y0).ba2 (ptData y1).ba2 = {exact.div y0.ba2 y1.ba2} := setArith_pt.div rfl rfl
      have e2 : setArith.neg {exact.div y0.ba2 y1.ba2} = {exact.neg (exact.div y0.ba2 y1.ba2)} := setArith_pt.neg rfl
      rw [e1, e2, snd_arg, snd_reNonneg]
      have z0 : y0.ba2 = (tri 1 - tri 0) / 2 := by unfold YData.ba2; rw [n0]; exact E0.ba2
      have z1 : y1.ba2 = (tri 2 - tri 1) / 2 := by unfold YData.ba2; rw [n1]; exact E1.ba2
      have z2 : exact.neg (exact.div y0.ba2 y1.ba2) = (tri 0 - tri 1) / (tri 2 - tri 1) := by
        change -(y0.ba2 / y1.ba2) = _
        rw [z0, z1, div_div_div_cancel_right₀ two_ne_zero, ← neg_div, neg_sub]
      rw [z2]
      simp [exactTests]

/-- `C51_periods_partial` applied to the instance: one loop `alpha`, one loop `beta` with `alpha . beta = 1`, and their periods are in the matrices. -/
example : ∃ (c : Sec) (I' : Nat → Nat → Set ℂ) (Y : Nat → ℝ → ℂ) (ca cb : Nat → ℂ) (a b : List Gamma) (om0 om1 : Nat → Nat → Set ℂ) (cc : IMat),
    Branches 2 3 tri triEdges Y ca cb ∧ HoldsNumbers 2 triEdges ca cb cc ∧ Chain.pair (fun s t => cc (s.1 * (2 - 1) + s.2) (t.1 * (2 - 1) + t.2)) (toChain a) (toChain b) = 1 ∧
    periodMatrix setArith c.shape [a] 2 I' = .ok om0 ∧ periodMatrix setArith c.shape [b] 2 I' = .ok om1 ∧
    loopPeriod tri triEdges Y 0 a ∈ om0 0 0 ∧ loopPeriod tri triEdges Y 0 b ∈ om1 0 0 := by
  obtain ⟨c, data, par, e, I', cc, h1, hg, h2, h3, h4, h5, h7, h8, h9, h10⟩ := curve_inst (f := 2 ^ 5) (by decide)
  obtain ⟨Y, ca, cb, Q, al, be, om0, om1, k1, k2, -, k4, k5, -, k6, k7, k8⟩ := C51_periods_partial XGcd.std setArith_encloses setFns_encloses setPar_sound sndTests_sound (n := 3) (le_refl 3) h1
    (x := fun k => {tri k}) (x' := tri) (fun k => mem_singleton _) tri_inj h2 h3 triEdges_grow h4 (flag := 2 ^ 5) h5 (err := fun k => growBall (e k)) (fun k v z z' h h' => ⟨z, h, h'⟩) (ks := [0, 1]) (List.Perm.refl _) h7 (fun _ _ _ _ _ => Or.inl (by decide))
    (I := fun _ _ => {0}) (fun _ _ => mem_singleton _) rfl h8 h9 h10
  rw [hg] at k4 k8
  obtain ⟨a, rfl⟩ := List.length_eq_one_iff.1 k4.lengths.1
  obtain ⟨b, rfl⟩ := List.length_eq_one_iff.1 k4.lengths.2
  exact ⟨c, I', Y, ca, cb, a, b, om0, om1, cc, k1, k2, k5 0 a b rfl rfl, k6, k7, k8 0 0 a b (by norm_num) rfl rfl⟩

end Hcp
