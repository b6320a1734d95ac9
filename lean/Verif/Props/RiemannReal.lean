import Verif.Props.RiemannRel
import Verif.Proofs.RealCurve

/-!
# C61: elliptic curves with real branch points
-/

namespace Hcp
open Spec Set

variable {A B C W : Type} {O : MatOps} {R : A → ℂ → Prop}

/-- the relations of Riemann for one differential and two paths -/
theorem relations_one {g N : Nat} (hg : g = 1) (hN : N = 2) {P : Matrix (Fin g) (Fin N) ℂ} {K : Matrix (Fin N) (Fin N) ℤ} (hK : Antisymm K) {k : ℤ} (hk : k = 1 ∨ k = -1)
    (h01 : ∀ a b : Fin N, a.val = 0 → b.val = 1 → K a b = k) (hpos : ∀ (r : Fin g) (a b : Fin N), a.val = 0 → b.val = 1 → 0 < k * ((starRingEnd ℂ) (P r a) * P r b).im) : RiemannRelations P K := by
  subst hg hN
  have h1 := h01 0 1 rfl rfl
  have h2 : K 1 0 = -k := by rw [hK, h1]
  have h3 : K 0 0 = 0 := by have := hK 0 0; omega
  have h4 : K 1 1 = 0 := by have := hK 1 1; omega
  have hkk : (k : ℂ) * k = 1 := by rcases hk with rfl | rfl <;> norm_num
  refine ⟨Matrix.of fun r => ![k * P r 1, -(k * P r 0)], fun r b => ?_, fun r s => ?_, fun v hv => ?_⟩
  · fin_cases b
    · simp [Fin.sum_univ_two, h2, h3]
      linear_combination P r 0 * hkk
    · simp [Fin.sum_univ_two, h1, h4]
      linear_combination P r 1 * hkk
  · have : r = s := Subsingleton.elim _ _
    subst this
    simp [Fin.sum_univ_two, h1, h2, h3, h4]
    ring
  · have hv0 : v 0 ≠ 0 := fun h0 => hv (funext fun i => by rw [Subsingleton.elim i 0, h0]; rfl)
    have := hpos 0 0 1 rfl rfl
    have hn := Complex.normSq_pos.2 hv0
    simp only [Fin.sum_univ_two, Fin.sum_univ_one, h1, h2, h3, h4, Matrix.of_apply, Matrix.cons_val_zero, Matrix.cons_val_one]
    have e : (Complex.I * (v 0 * (k * P 0 1) * ((0 : ℤ) : ℂ) * (starRingEnd ℂ) (v 0 * (k * P 0 1)) + v 0 * (k * P 0 1) * (k : ℂ) * (starRingEnd ℂ) (v 0 * -(k * P 0 0)) +
        (v 0 * -(k * P 0 0) * ((-k : ℤ) : ℂ) * (starRingEnd ℂ) (v 0 * (k * P 0 1)) + v 0 * -(k * P 0 0) * ((0 : ℤ) : ℂ) * (starRingEnd ℂ) (v 0 * -(k * P 0 0))))).re =
        2 * Complex.normSq (v 0) * (k * ((starRingEnd ℂ) (P 0 0) * P 0 1).im) := by
      have hkr : (k : ℝ) * k = 1 := by exact_mod_cast hkk
      simp only [map_mul, map_neg, map_intCast, Int.cast_zero, mul_zero, zero_mul, zero_add, add_zero, Int.cast_neg]
      have e1 : Complex.I * (v 0 * (k * P 0 1) * k * ((starRingEnd ℂ) (v 0) * -(k * (starRingEnd ℂ) (P 0 0))) + v 0 * -(k * P 0 0) * -k * ((starRingEnd ℂ) (v 0) * (k * (starRingEnd ℂ) (P 0 1)))) =
          (k * k * k : ℂ) * (v 0 * (starRingEnd ℂ) (v 0)) * (Complex.I * (P 0 0 * (starRingEnd ℂ) (P 0 1) - P 0 1 * (starRingEnd ℂ) (P 0 0))) := by ring
      rw [e1, Complex.mul_conj, hkk, one_mul, ← Complex.ofReal_intCast, ← Complex.ofReal_mul, Complex.re_ofReal_mul]
      simp only [Complex.mul_re, Complex.mul_im, Complex.I_re, Complex.I_im, Complex.sub_im, Complex.conj_re, Complex.conj_im]
      ring
    rw [e]
    positivity

theorem freeR_of {n : Nat} {ξ : Nat → ℝ} (hξ : InjOn ξ (Iio n)) {es : List (Edge W)} (hfree : FreeEdges (fun k => (ξ k : ℂ)) n es) {f : Edge W} (hf : f ∈ es) (ha : f.a < n) (hb : f.b < n) (hab : f.a ≠ f.b) :
    FreeR n ξ f.a f.b := by
  refine ⟨ha, hb, fun e => hab (hξ ha hb e), fun k hk h1 h2 t h3 h4 e => hfree f hf k hk h1 h2 t h3 h4 ?_⟩
  rw [edgePt_real, ← e]

section
variable {n : Nat} {ξ : Nat → ℝ} {V : AjEnv A B C W O} {RC : {n m : Nat} → O.C n m → Matrix (Fin n) (Fin m) ℂ → Prop} {c : Sec} {out : AjOut A W O c.shape.g}
  {Y : Nat → ℝ → ℂ} {ca cb : Nat → ℂ} {cc : IMat} {Q : Mat (out.tree.e.length * (2 - 1))}

/-- **C61 (elliptic curves with real branch points).** Curve `y^2 = ∏ (x - ξ_k)` with three or four distinct real branch points.  If the output is right in the sense of C56 and no edge of the tree passes through a third branch
point, then the period over the loop `alpha` is not zero and `tau` has a positive imaginary part. -/
theorem C61_elliptic_real (hn : n = 3 ∨ n = 4) (h : secInit 2 n = .ok c) (hξ : InjOn ξ (Iio n)) (hr : AjRight V R RC 2 n (fun k => (ξ k : ℂ)) c out Y ca cb cc Q)
    (hfree : FreeEdges (fun k => (ξ k : ℂ)) n out.tree.e) :
    c.shape.g = 1 ∧ (periodsOf 2 (fun k => (ξ k : ℂ)) out.tree.e Y c.shape out.loopA).det ≠ 0 ∧
      ∀ tau, periodsOf 2 (fun k => (ξ k : ℂ)) out.tree.e Y c.shape out.loopA * tau = periodsOf 2 (fun k => (ξ k : ℂ)) out.tree.e Y c.shape out.loopB → IsRiemannMatrix tau := by
  have hcs : c.shape.g = 1 ∧ diffOf c.shape.ni c.shape.j1 0 = (0, 1) := by
    rcases hn with rfl | rfl
    · have : secInit 2 3 = .ok ⟨2, 3, 1, 1, 1, 1, [1]⟩ := by decide
      rw [show ((3 : Nat) : Int) = 3 from rfl, this] at h
      obtain rfl := Res.ok.inj h
      exact ⟨rfl, rfl⟩
    · have : secInit 2 4 = .ok ⟨2, 4, 2, 1, 1, 1, [1]⟩ := by decide
      rw [show ((4 : Nat) : Int) = 4 from rfl, this] at h
      obtain rfl := Res.ok.inj h
      exact ⟨rfl, rfl⟩
  have hlen : out.tree.e.length = 2 := by
    rcases hn with rfl | rfl
    · have := hr.tree.2.1.2 (by decide); omega
    · have := hr.tree.2.1.1 (by decide); omega
  obtain ⟨e0, e1, hes⟩ := List.length_eq_two.1 hlen
  have h0 : out.tree.e[0]? = some e0 := by rw [hes]; rfl
  have h1 : out.tree.e[1]? = some e1 := by rw [hes]; rfl
  have m0 : e0 ∈ out.tree.e := List.mem_of_getElem? h0
  have m1 : e1 ∈ out.tree.e := List.mem_of_getElem? h1
  have g0 := hr.tree.1 0 (by rw [hes]; simp)
  have g1 := hr.tree.1 1 (by rw [hes]; simp)
  simp only [hes, List.map_cons, List.map_nil, List.getElem_cons_zero, List.getElem_cons_succ, List.take_succ_cons, List.take_zero, Touches, List.mem_singleton, exists_eq_left] at g0 g1
  obtain ⟨g0, -, -⟩ := g0
  obtain ⟨g1, g2, g3⟩ := g1
  have g3 := g3 one_ne_zero
  push Not at g2
  have f0 := freeR_of hξ hfree m0 (hr.tree.2.2 e0 m0).1 (hr.tree.2.2 e0 m0).2 g0
  have f1 := freeR_of hξ hfree m1 (hr.tree.2.2 e1 m1).1 (hr.tree.2.2 e1 m1).2 g1
  obtain ⟨b0, b0a, b0b⟩ := hr.branches 0 e0 h0
  obtain ⟨b1, b1a, b1b⟩ := hr.branches 1 e1 h1
  obtain ⟨σ0, d0⟩ := f0.dir b0 b0a b0b
  obtain ⟨σ1, d1⟩ := f1.dir b1 b1a b1b
  have hnum : ∃ κ : ℤ, (κ = 1 ∨ κ = -1) ∧ pathNumber (passages 2 e0.a e0.b (ca 0) (cb 0) 0) (passages 2 e1.a e1.b (ca 1) (cb 1) 0) = κ ∧ (starRingEnd ℂ) σ0 * σ1 = κ * Complex.I := by
    rcases g3 with g3 | g3
    · rw [g3] at f1 d1 ⊢
      exact number_start hξ f0 f1 g2.2.symm d0 d1
    · rw [g3] at f1 d1 ⊢
      exact number_end hξ f0 f1 g2.1.symm d0 d1
  obtain ⟨κ, hκ, hk1, hk2⟩ := hnum
  have hk := hr.numbers 0 1 e0 e1 0 0 h0 h1 (by norm_num) (by norm_num)
  rw [hk1] at hk
  have hk' : cc 0 1 = κ := by exact_mod_cast hk
  refine ⟨hcs.1, C61_relations le_rfl hr (relations_one hcs.1 (by omega) hr.whole.1 hκ (fun a b ha hb => ?_) fun r a b ha hb => ?_)⟩
  · rw [← hk']
    show cc a.val b.val = cc 0 1
    rw [ha, hb]
  · have hr0 : r.val = 0 := by have := r.isLt; omega
    have hw : ∀ (q : Fin (out.tree.e.length * (2 - 1))) (ed : Edge W), out.tree.e[q.val]? = some ed → cyclePeriods 2 (fun k => (ξ k : ℂ)) out.tree.e Y c.shape r q = cycleIntM 2 (ξ ed.a) (ξ ed.b) 0 1 (Y q.val) 0 := by
      intro q ed hq
      simp only [cyclePeriods, Matrix.of_apply, show (2 : Nat) - 1 = 1 from rfl, Nat.div_one, Nat.mod_one, hq, hr0, hcs.2]
    rw [hw a e0 (by rw [ha]; exact h0), hw b e1 (by rw [hb]; exact h1), ha, hb, d0.cyc, d1.cyc, map_mul, Complex.conj_ofReal]
    have e : (starRingEnd ℂ) σ0 * (momR n ξ e0.a e0.b 0 : ℂ) * (σ1 * momR n ξ e1.a e1.b 0) = ((momR n ξ e0.a e0.b 0 * momR n ξ e1.a e1.b 0 * κ : ℝ) : ℂ) * Complex.I := by
      push_cast
      linear_combination ((momR n ξ e0.a e0.b 0 : ℂ) * momR n ξ e1.a e1.b 0) * hk2
    have hkr : (κ : ℝ) * κ = 1 := by rcases hκ with rfl | rfl <;> norm_num
    have p := mul_pos f0.mom_pos f1.mom_pos
    rw [e, Complex.im_ofReal_mul, Complex.I_im, mul_one]
    nlinarith

end

/-- Exact arithmetic, `m = 2`, distinct branch points: the tree, the data of the edges and the loops are returned, no edge passes through a third point and the result is right in the sense of C56. -/
theorem ajRight_exact {B C : Type} {O : MatOps} (V : AjEnv ℂ B C ℝ O) {RC : {n m : Nat} → O.C n m → Matrix (Fin n) (Fin m) ℂ → Prop} {lam : ℝ} (hlam : lam ≠ 0) (type : IntType)
    {n : Nat} (hn : 2 ≤ n) {c : Sec} (h : secInit 2 n = .ok c) {x : Nat → ℂ} (hx : InjOn x (Iio n)) {N : Nat} (hN : TreeSize 2 n N) :
    ∃ (tr : Tree ℝ) (data : List (YData ℂ)) (al be : List (List Gamma)),
      spanningTreeOf (exactCOps lam) (WOps.ofOrder (-1)) sortByR x (treeInit (WOps.ofOrder (-1)) N) n type = .ok tr ∧ treeYdataInit exact exactTests x n 2 tr.e = .ok data ∧
      symplecticBasis XGcd.std 1 (shiftOracle exact exactTests data 2) tr.e 2 c.shape.g = .ok (al, be) ∧ FreeEdges x n tr.e ∧
      ∃ Y ca cb cc Q, AjRight V (fun a z => a = z) RC 2 n x c ⟨type, tr, 0, data, al, be, none, none, none⟩ Y ca cb cc Q := by
  obtain ⟨tr, data, cc, h1, hlen, hgr, -, hbl, hdat, hdl, hc, hed, -⟩ := C14_from_points (m := 2) sortByR_sorts hlam type (edgeCount_lt (edgeCount_of_size hN)) le_rfl (by norm_num) hx
  have h1' := h1
  unfold spanningTreeOf at h1'
  obtain ⟨t1, e1, -, -, -, g2⟩ := C09_grows_as_tree (WOps.ofOrder (-1)) sortByR sortByR_sorts.perm _ (treeInit (WOps.ofOrder (-1 : ℝ)) N) n (Or.inl (by have := edgeCount_lt (edgeCount_of_size hN); simp [treeInit]; omega))
  obtain rfl := Res.ok.inj (h1'.symm.trans e1)
  have hes : ∀ ed ∈ tr.e, ed.a < n ∧ ed.b < n := fun ed h => ⟨(g2 ed h).1, (g2 ed h).2.1⟩
  have hfree : FreeEdges x n tr.e := fun f hf k hk ha hb t t1 t2 e => hbl f hf ⟨k, hk, ha, hb, t, t1, t2, e⟩
  have hres : Resolved exact exactTests x tr.e data := resolved_exact (m := 2) hx hes hgr hfree fun k ed yd hk hd => by
    obtain ⟨hk', rfl⟩ := List.getElem?_eq_some_iff.1 hk
    exact hed k hk' yd hd
  have hsz : TreeSize 2 n tr.e.length := by rw [hlen]; exact hN
  obtain ⟨-, -, -, -, -, P, al, be, k1, -⟩ := C50_hyperelliptic_basis XGcd.std exact_encloses exactTests_sound (fun k => rfl) hx (isGenus_shape (by exact_mod_cast hn) h) hes (edgeCount_of_size hsz) hgr hfree hdat hres hc
  have hb := k1 1 le_rfl
  have hne : ∀ ed ∈ tr.e, ed.a < n ∧ ed.b < n ∧ x ed.a ≠ x ed.b := by
    intro ed hed
    obtain ⟨k, hk, rfl⟩ := List.getElem_of_mem hed
    have := (hgr k (by simpa [Tree.pairs] using hk)).1
    exact ⟨(hes _ hed).1, (hes _ hed).2, fun h => by simpa [Tree.pairs] using this (by simpa [Tree.pairs] using hx (hes _ hed).1 (hes _ hed).2 h)⟩
  obtain ⟨u, hu⟩ := exactData_exists exact_encloses exactTests (x := x) (x' := x) (fun k => rfl) (by norm_num) hne hdat
  obtain ⟨cc', Q, b1, b2, bw, b3, b4, b5⟩ := basis_of_run XGcd.std exact_encloses exactTests_sound hn le_rfl h hx hes hsz hgr hfree hdl hu hres hb
  refine ⟨tr, data, al, be, h1, hdat, hb, hfree, storedY 2 n data u, _, _, cc', Q, ⟨hgr, hsz, hes⟩, branches_of (by norm_num) (fun ed h => (hne ed h).2.2) hfree hdl hu, b1, b2, bw, b3, b4, b5, fun I hI => ?_, fun _ _ ho => ?_, fun _ _ _ ho => ?_⟩
  · cases hI
  · cases ho
  · cases ho

/-- The hypotheses of `C61_elliptic_real` are met: points 0, 1, 3 and exact arithmetic. -/
example {B C : Type} {O : MatOps} (V : AjEnv ℂ B C ℝ O) : ∃ (c : Sec) (out : AjOut ℂ ℝ O c.shape.g) (Y : Nat → ℝ → ℂ) (ca cb : Nat → ℂ) (cc : IMat) (Q : Mat (out.tree.e.length * (2 - 1))), secInit 2 (3 : Nat) = .ok c ∧
    AjRight V (fun a z => a = z) (fun _ _ => True) 2 3 (fun k => (((k * k + k) / 2 : ℝ) : ℂ)) c out Y ca cb cc Q ∧ FreeEdges (fun k => (((k * k + k) / 2 : ℝ) : ℂ)) 3 out.tree.e := by
  have hc : secInit 2 (3 : Nat) = .ok ⟨2, 3, 1, 1, 1, 1, [1]⟩ := by decide
  have hx : InjOn (fun k : Nat => (((k * k + k) / 2 : ℝ) : ℂ)) (Iio 3) := by
    intro a ha b hb h
    have ha' : a < 3 := ha
    have hb' : b < 3 := hb
    have h1 : ((a * a + a) / 2 : ℝ) = (b * b + b) / 2 := Complex.ofReal_injective h
    have h2 : a * a + a = b * b + b := by
      have : (a * a + a : ℝ) = b * b + b := by linarith
      exact_mod_cast this
    interval_cases a <;> interval_cases b <;> simp_all
  obtain ⟨tr, data, al, be, -, -, -, hf, Y, ca, cb, cc, Q, hr⟩ := ajRight_exact V (RC := fun _ _ => True) (lam := Real.pi / 2) (by positivity) .gc (by norm_num) hc hx (N := 2) ⟨fun h => by revert h; decide, fun _ => rfl⟩
  exact ⟨_, _, Y, ca, cb, cc, Q, hc, hr, hf⟩

end Hcp
