import Verif.Props.DePeriods
import Verif.Props.TauTotal

/-!
# C86: convergence of `tau` with the double-exponential rule
-/

namespace Hcp

open Set Spec

variable {x : Nat → ℂ} {n : Nat}

/-- the quotient of two matrices depends on them in a Lipschitz way -/
theorem quot_lip {g : Nat} {P Q : Matrix (Fin g) (Fin g) ℂ} (hP : P.det ≠ 0) :
    ∃ δ0 > 0, ∃ K : ℝ, 0 ≤ K ∧ ∀ (M N : Matrix (Fin g) (Fin g) ℂ) (δ : ℝ), 0 ≤ δ → δ ≤ δ0 → (∀ i k, ‖M i k - P i k‖ ≤ δ) → (∀ i k, ‖N i k - Q i k‖ ≤ δ) →
      M.det ≠ 0 ∧ ∀ i k, ‖(M⁻¹ * N) i k - (P⁻¹ * Q) i k‖ ≤ K * δ := by
  obtain ⟨δ0, h0, h⟩ := quot_close (Q := (1 : Matrix (Fin g) (Fin g) ℂ)) hP one_pos
  let B : ℝ := ∑ i, ∑ k, (‖P⁻¹ i k‖ + 1)
  let T : ℝ := ∑ i, ∑ k, ‖(P⁻¹ * Q) i k‖
  have hB0 : 0 ≤ B := Finset.sum_nonneg fun _ _ => Finset.sum_nonneg fun _ _ => by positivity
  have hT0 : 0 ≤ T := Finset.sum_nonneg fun _ _ => Finset.sum_nonneg fun _ _ => norm_nonneg _
  refine ⟨δ0, h0, g * (B * (1 + g * T)), by positivity, fun M N δ hδ hδ0 hM hN => ?_⟩
  obtain ⟨hd, hi⟩ := h M 1 (fun i k => (hM i k).trans hδ0) (fun i k => by rw [sub_self, norm_zero]; exact h0.le)
  refine ⟨hd, fun i k => ?_⟩
  have hinv : ∀ i k, ‖M⁻¹ i k‖ ≤ B := by
    intro i k
    have := hi i k
    rw [Matrix.mul_one, Matrix.mul_one] at this
    have h1 : ‖M⁻¹ i k‖ ≤ ‖P⁻¹ i k‖ + 1 := by
      calc ‖M⁻¹ i k‖ = ‖P⁻¹ i k + (M⁻¹ i k - P⁻¹ i k)‖ := by congr 1; ring
        _ ≤ _ := (norm_add_le _ _).trans (add_le_add le_rfl this)
    refine h1.trans ?_
    exact (Finset.single_le_sum (f := fun k => ‖P⁻¹ i k‖ + 1) (fun _ _ => by positivity) (Finset.mem_univ k)).trans
      (Finset.single_le_sum (f := fun i => ∑ k, (‖P⁻¹ i k‖ + 1)) (fun _ _ => Finset.sum_nonneg fun _ _ => by positivity) (Finset.mem_univ i))
  have htau : ∀ i k, ‖(P⁻¹ * Q) i k‖ ≤ T := fun i k =>
    (Finset.single_le_sum (f := fun k => ‖(P⁻¹ * Q) i k‖) (fun _ _ => norm_nonneg _) (Finset.mem_univ k)).trans
      (Finset.single_le_sum (f := fun i => ∑ k, ‖(P⁻¹ * Q) i k‖) (fun _ _ => Finset.sum_nonneg fun _ _ => norm_nonneg _) (Finset.mem_univ i))
  have hu : IsUnit M.det := isUnit_iff_ne_zero.2 hd
  have hv : IsUnit P.det := isUnit_iff_ne_zero.2 hP
  have e : M⁻¹ * N - P⁻¹ * Q = M⁻¹ * ((N - Q) - (M - P) * (P⁻¹ * Q)) := by
    rw [Matrix.mul_sub, Matrix.mul_sub, Matrix.sub_mul, Matrix.mul_nonsing_inv_cancel_left _ _ hv, Matrix.mul_sub, Matrix.nonsing_inv_mul_cancel_left _ _ hu]
    abel
  have hin : ∀ l, ‖((N - Q) - (M - P) * (P⁻¹ * Q)) l k‖ ≤ δ * (1 + g * T) := by
    intro l
    rw [Matrix.sub_apply, Matrix.mul_apply]
    refine (norm_sub_le _ _).trans ?_
    have h1 : ‖∑ q, (M - P) l q * (P⁻¹ * Q) q k‖ ≤ ∑ _q : Fin g, δ * T := by
      refine (norm_sum_le _ _).trans (Finset.sum_le_sum fun q _ => ?_)
      rw [norm_mul, Matrix.sub_apply]
      exact mul_le_mul (hM l q) (htau q k) (norm_nonneg _) hδ
    rw [Finset.sum_const, Finset.card_univ, Fintype.card_fin, nsmul_eq_mul] at h1
    have h2 := hN l k
    rw [← Matrix.sub_apply] at h2
    calc _ ≤ δ + g * (δ * T) := add_le_add h2 h1
      _ = _ := by ring
  have := congrFun (congrFun e i) k
  rw [Matrix.sub_apply] at this
  rw [this, Matrix.mul_apply]
  calc _ ≤ ∑ _l : Fin g, B * (δ * (1 + g * T)) := by
        refine (norm_sum_le _ _).trans (Finset.sum_le_sum fun l _ => ?_)
        rw [norm_mul]
        exact mul_le_mul (hinv i l) (hin l) (norm_nonneg _) hB0
    _ = _ := by
        rw [Finset.sum_const, Finset.card_univ, Fintype.card_fin, nsmul_eq_mul]
        ring

/-- the matrices with entries in given sets -/
def matBox (g : Nat) (om : Nat → Nat → Set ℂ) : Set (Matrix (Fin g) (Fin g) ℂ) := {M | ∀ i j : Fin g, M i j ∈ om i j}

/-- C86 with the determinations of `y` written from the data of the edges -/
theorem tau_converges_stored (hs : SortsByR sort) (ho : OrdersByR ord) {lam : ℝ} (hlam : 0 < lam) (hlam2 : lam ≤ Real.pi / 2) (m2 : ℝ → ℝ) {m n : Nat} (hm : 2 ≤ m) (hn : 3 ≤ n) (hx : InjOn x (Iio n))
    {c : Sec} (hc : secInit m n = .ok c) {flag : Nat} (hty : intType flag c.m c.n = .de) (hni : flag &&& ajNoInt = 0) (hna : flag &&& ajNoAb = 0) (hnt : flag &&& ajNoTau = 0) (hroot : RootsDefault flag n) :
    ∃ (tr : Tree ℝ) (data : List (YData (Set ℂ))) (Y : Nat → ℝ → ℂ), spanningTreeOf (exactCOps lam) (WOps.ofOrder (-1)) sort x (treeInit (WOps.ofOrder (-1)) (treeEdges c).toNat) n .de = .ok tr ∧
      treeYdataInit setArith sndTests (fun k => {x k}) n m tr.e = .ok data ∧ TreeSize m n tr.e.length ∧ GrowsAsTree (tr.e.map fun f => (f.a, f.b)) ∧ FreeEdges x n tr.e ∧ (∃ u, ExactData (fun s z => s = {z}) m n x tr.e data u ∧ Y = storedY m n data u) ∧
      (∀ (prec : Int) (fuel : Nat), 2 ≤ prec → ∃ I, ajIntegrals (idealDe x lam sort ord lam m2) fuel c.shape (flag ||| ajNoTau) prec .de tr.e data = .ok I) ∧
      (∀ (k : Nat) (ed : Edge ℝ), tr.e[k]? = some ed → ed.a < n ∧ ed.b < n ∧ ed.a ≠ ed.b ∧ IsBranchM m n x (x ed.a) (x ed.b) (Y k)) ∧
      ∀ (fuel0 : Nat) (la lb : List (List Gamma)), PlainEdges x tr.e → symplecticBasis XGcd.std fuel0 (shiftOracle setArith sndTests data m) tr.e m c.shape.g = .ok (la, lb) →
        ∃ tau, IsRiemannMatrix tau ∧ (∀ tau', periodsOf m x tr.e Y c.shape la * tau' = periodsOf m x tr.e Y c.shape lb ↔ tau' = tau) ∧ ∃ (K : ℝ) (P0 : Nat),
          (∀ (prec : Int) (fuel : Nat) (I om0 om1 : Nat → Nat → Set ℂ), 2 ≤ prec → P0 ≤ prec → ajIntegrals (idealDe x lam sort ord lam m2) fuel c.shape (flag ||| ajNoTau) prec .de tr.e data = .ok I →
            periodMatrix setArith c.shape la tr.e.length I = .ok om0 → periodMatrix setArith c.shape lb tr.e.length I = .ok om1 →
              ∃ t : Set (Matrix (Fin c.shape.g) (Fin c.shape.g) ℂ), tauMatrix setMat (n := c.shape.g) (m := c.shape.g) (matBox c.shape.g om0) (matBox c.shape.g om1) = .ok t ∧
                (∀ T ∈ t, ∀ i k, ‖T i k - tau i k‖ ≤ K * 2 ^ (-(prec / (m - 1) : ℝ))) ∧ ((∀ ρ, 0 ≤ m2 ρ) → t.Nonempty)) ∧
          ∀ (prec : Int) (fuel : Nat) (out : AjOut (Set ℂ) ℝ setMat c.shape.g), ajRun (idealDe x lam sort ord lam m2) fuel c (flag ||| ajNoTau) prec (treeInit (WOps.ofOrder (-1)) (treeEdges c).toNat) = .ok out → P0 ≤ out.intprec →
            out.tree = tr ∧ out.loopA = la ∧ out.loopB = lb ∧ ∃ t : Set (Matrix (Fin c.shape.g) (Fin c.shape.g) ℂ),
              ajRun (idealDe x lam sort ord lam m2) fuel c flag prec (treeInit (WOps.ofOrder (-1)) (treeEdges c).toNat) = .ok { out with tau := some t } ∧
                (∀ T ∈ t, ∀ i k, ‖T i k - tau i k‖ ≤ K * 2 ^ (-(out.intprec / (m - 1) : ℝ))) ∧ ((∀ ρ, 0 ≤ m2 ρ) → t.Nonempty) := by
  classical
  -- the same call without `tau`
  have hsw : SameWork flag (flag ||| 2) := fun i i1 i2 i3 => by
    rw [Nat.testBit_or, show (2 : Nat) = 2 ^ 1 from rfl, Nat.testBit_two_pow]
    simp [Ne.symm i1]
  have hb : ∀ i, (flag ||| 2).testBit i = (flag.testBit i || decide (1 = i)) := fun i => by rw [Nat.testBit_or, show (2 : Nat) = 2 ^ 1 from rfl, Nat.testBit_two_pow]
  have b1 : flag.testBit 1 = false := by
    by_contra h
    exact noTau_iff.2 (by simpa using h) hnt
  have b2 : flag.testBit 2 = false := by
    by_contra h
    exact noAb_iff.2 (by simpa using h) hna
  have b3 : flag.testBit 3 = false := by
    by_contra h
    exact noInt_iff.2 (by simpa using h) hni
  have c1 : (flag ||| 2).testBit 1 = true := by rw [hb]; simp
  have c2 : (flag ||| 2).testBit 2 = false := by rw [hb, b2]; simp
  have c3 : (flag ||| 2).testBit 3 = false := by rw [hb, b3]; simp
  have f3 : (flag ||| 2) &&& ajNoInt = 0 := by
    by_contra h
    rw [noInt_iff.1 h] at c3
    cases c3
  have f2 : (flag ||| 2) &&& ajNoAb = 0 := by
    by_contra h
    rw [noAb_iff.1 h] at c2
    cases c2
  have hroot' : RootsDefault (flag ||| 2) n := by
    unfold RootsDefault
    rw [hb, hb, hb]
    simpa [RootsDefault] using hroot
  obtain ⟨tr, data, Y, la', lb', ht, hd, h1, h1n, hgr, hfree, hdl, ⟨u, hu, rfl⟩, huniq, hbr, htot, -, HP, HR⟩ := de_all (x := x) (flag := flag ||| 2) hs ho hlam hlam2 m2 hm hn hx hc (by rw [← hsw.intType]; exact hty) f3 hroot'
  refine ⟨tr, data, _, ht, hd, h1, hgr, hfree, ⟨u, hu, rfl⟩, htot, hbr, fun fuel0 la lb hplain hsb => ?_⟩
  obtain ⟨rfl, rfl⟩ := huniq _ _ _ hsb
  have hes : ∀ ed ∈ tr.e, ed.a < n ∧ ed.b < n := fun ed hed => by
    obtain ⟨k', hk', rfl⟩ := List.getElem_of_mem hed
    obtain ⟨q1, q2, -⟩ := hbr k' _ (List.getElem?_eq_getElem hk')
    exact ⟨q1, q2⟩
  have hne : ∀ ed ∈ tr.e, x ed.a ≠ x ed.b := fun ed hed h => by
    obtain ⟨k', hk', rfl⟩ := List.getElem_of_mem hed
    obtain ⟨q1, q2, q3, -⟩ := hbr k' _ (List.getElem?_eq_getElem hk')
    exact q3 (hx q1 q2 h)
  have hu' : ExactData (fun s z => z ∈ s) m n x tr.e data u := fun k ed yd q1 q2 => ⟨(hu k ed yd q1 q2).1, fun i => by rw [(hu k ed yd q1 q2).2.1 i]; exact mem_singleton _, (hu k ed yd q1 q2).2.2⟩
  obtain ⟨cc, Q, a1, a2, a3, a4, a5, a6⟩ := basis_of_run _ setArith_encloses sndTests_sound (by omega) hm hc hx hes h1 hgr hfree hdl hu' (resolved_pts hx hes hgr hfree hu) hsb
  -- the exact matrices
  let out0 : AjOut (Set ℂ) ℝ setMat c.shape.g := ⟨.de, tr, 0, data, la, lb, none, none, none⟩
  have hA : AjRight (idealDe x lam sort ord lam m2) (fun s z => z ∈ s) InC m n x c out0 (storedY m n data u) (fun k => u k (n + 1)) (fun k => u k (n + 2)) cc Q :=
    ⟨⟨hgr, h1, hes⟩, branches_of (by omega) hne hfree hdl hu, a1, a2, a3, a4, a5, a6, fun I h => (by cases h), fun _ _ h => (by cases h), fun _ _ _ h => (by cases h)⟩
  obtain ⟨hdet, hriem⟩ := C61_complex hm (by omega) hc hx hA hfree hplain
  have hdet' : (periodsOf m x tr.e (storedY m n data u) c.shape la).det ≠ 0 := hdet
  have hunit : IsUnit (periodsOf m x tr.e (storedY m n data u) c.shape la).det := isUnit_iff_ne_zero.2 hdet'
  set P := periodsOf m x tr.e (storedY m n data u) c.shape la with hPdef
  set R := periodsOf m x tr.e (storedY m n data u) c.shape lb with hRdef
  refine ⟨P⁻¹ * R, hriem _ (Matrix.mul_nonsing_inv_cancel_left _ _ hunit), fun tau' => ⟨fun e => by rw [← e, Matrix.nonsing_inv_mul_cancel_left _ _ hunit], fun e => by rw [e, Matrix.mul_nonsing_inv_cancel_left _ _ hunit]⟩, ?_⟩
  -- constants
  have hcell : ∀ a : Fin c.shape.g × Fin c.shape.g, ∃ K : ℝ, ∀ (prec : Int) (fuel : Nat) (I om0 om1 : Nat → Nat → Set ℂ), 2 ≤ prec → ajIntegrals (idealDe x lam sort ord lam m2) fuel c.shape (flag ||| ajNoTau) prec .de tr.e data = .ok I →
      periodMatrix setArith c.shape la tr.e.length I = .ok om0 → periodMatrix setArith c.shape lb tr.e.length I = .ok om1 →
        (∀ w ∈ om0 a.1 a.2, ‖w - P a.1 a.2‖ ≤ K * deRate m (m - 1) prec) ∧ (∀ w ∈ om1 a.1 a.2, ‖w - R a.1 a.2‖ ≤ K * deRate m (m - 1) prec) ∧ ((∀ ρ, 0 ≤ m2 ρ) → (om0 a.1 a.2).Nonempty ∧ (om1 a.1 a.2).Nonempty) := by
    rintro ⟨r, k⟩
    obtain ⟨K, hK⟩ := HP r k _ _ r.2 k.2 rfl
    refine ⟨|K|, fun prec fuel I om0 om1 hp hI j1 j2 => ?_⟩
    obtain ⟨k1, k2, k3⟩ := hK prec fuel I om0 om1 hp hI j1 j2
    have hj : (diffOf c.shape.ni c.shape.j1 r).2 ≤ m - 1 := by
      have := diffOf_bounds (by omega) hc r.2
      omega
    have hp0 : (0 : ℝ) ≤ prec := by exact_mod_cast (by omega : (0 : Int) ≤ prec)
    have hr := deRate_mono hm hj hp0
    have hle : K * 2 ^ (-((m - (diffOf c.shape.ni c.shape.j1 r).2) / (m - 1) * prec : ℝ)) ≤ |K| * deRate m (m - 1) prec :=
      (mul_le_mul_of_nonneg_right (le_abs_self K) (deRate_pos m (diffOf c.shape.ni c.shape.j1 r).2 prec).le).trans (mul_le_mul_of_nonneg_left hr (abs_nonneg _))
    exact ⟨fun w hw => (k1 w hw).trans hle, fun w hw => (k2 w hw).trans hle, k3⟩
  choose Kc hKc using hcell
  let K1 : ℝ := ∑ a, |Kc a|
  have hK1 : 0 ≤ K1 := Finset.sum_nonneg fun _ _ => abs_nonneg _
  have hKle : ∀ a, Kc a ≤ K1 := fun a => (le_abs_self _).trans (Finset.single_le_sum (f := fun a => |Kc a|) (fun _ _ => abs_nonneg _) (Finset.mem_univ a))
  obtain ⟨δ0, hδ0, K2, hK2, hq⟩ := quot_lip (Q := R) hdet'
  have hrate : ∀ prec : ℝ, deRate m (m - 1) prec = 2 ^ (-(prec / (m - 1) : ℝ)) := fun prec => by
    unfold deRate
    rw [Nat.cast_sub (by omega : 1 ≤ m), Nat.cast_one]
    congr 2
    rw [sub_sub_cancel, one_div, div_eq_mul_inv, mul_comm]
  have hm1 : (0 : ℝ) < m - 1 := by
    have : (2 : ℝ) ≤ m := by exact_mod_cast hm
    linarith
  obtain ⟨P0, hP0⟩ : ∃ P0 : Nat, ∀ prec : ℝ, (P0 : ℝ) ≤ prec → K1 * deRate m (m - 1) prec ≤ δ0 := by
    have ht : Filter.Tendsto (fun prec : ℝ => K1 * deRate m (m - 1) prec) Filter.atTop (nhds 0) := by
      have h2 : Filter.Tendsto (fun prec : ℝ => prec / ((m : ℝ) - 1)) Filter.atTop Filter.atTop := Filter.tendsto_id.atTop_div_const hm1
      have h3 := ((tendsto_rpow_atTop_of_base_lt_one (1 / 2 : ℝ) (by norm_num) (by norm_num)).comp h2).const_mul K1
      rw [mul_zero] at h3
      refine h3.congr fun prec => ?_
      rw [hrate, Function.comp_apply, Real.rpow_neg zero_le_two, ← Real.inv_rpow zero_le_two, one_div]
    obtain ⟨B, hB⟩ := Filter.eventually_atTop.1 (ht.eventually (ge_mem_nhds hδ0))
    obtain ⟨P0, hP0⟩ := exists_nat_ge B
    exact ⟨P0, fun prec h => hB prec (hP0.trans h)⟩
  have hmain : ∀ (prec : Int) (fuel : Nat) (I om0 om1 : Nat → Nat → Set ℂ), 2 ≤ prec → P0 ≤ prec → ajIntegrals (idealDe x lam sort ord lam m2) fuel c.shape (flag ||| ajNoTau) prec .de tr.e data = .ok I →
      periodMatrix setArith c.shape la tr.e.length I = .ok om0 → periodMatrix setArith c.shape lb tr.e.length I = .ok om1 →
        ∃ t : Set (Matrix (Fin c.shape.g) (Fin c.shape.g) ℂ), tauMatrix setMat (n := c.shape.g) (m := c.shape.g) (matBox c.shape.g om0) (matBox c.shape.g om1) = .ok t ∧
          (∀ T ∈ t, ∀ i k, ‖T i k - (P⁻¹ * R) i k‖ ≤ K2 * K1 * 2 ^ (-(prec / (m - 1) : ℝ))) ∧ ((∀ ρ, 0 ≤ m2 ρ) → t.Nonempty) := by
    intro prec fuel I om0 om1 hp hpP hI j1 j2
    have hd0 : 0 ≤ K1 * deRate m (m - 1) prec := mul_nonneg hK1 (deRate_pos _ _ _).le
    have hd1 := hP0 prec (by exact_mod_cast hpP)
    have hM : ∀ M ∈ matBox c.shape.g om0, ∀ i k, ‖M i k - P i k‖ ≤ K1 * deRate m (m - 1) prec := fun M h i k =>
      ((hKc (i, k) prec fuel I om0 om1 hp hI j1 j2).1 _ (h i k)).trans (mul_le_mul_of_nonneg_right (hKle _) (deRate_pos _ _ _).le)
    have hN : ∀ N ∈ matBox c.shape.g om1, ∀ i k, ‖N i k - R i k‖ ≤ K1 * deRate m (m - 1) prec := fun M h i k =>
      ((hKc (i, k) prec fuel I om0 om1 hp hI j1 j2).2.1 _ (h i k)).trans (mul_le_mul_of_nonneg_right (hKle _) (deRate_pos _ _ _).le)
    have hnz : ∀ M ∈ matBox c.shape.g om0, M.det ≠ 0 := fun M h => (hq M R _ hd0 hd1 (hM M h) fun i k => by rw [sub_self, norm_zero]; exact hd0).1
    have hsolve : setMat.solve (n := c.shape.g) (m := c.shape.g) (matBox c.shape.g om0) (matBox c.shape.g om1) = some (image2 (fun M N => M⁻¹ * N) (matBox c.shape.g om0) (matBox c.shape.g om1)) := if_pos hnz
    refine ⟨image2 (fun M N => M⁻¹ * N) (matBox c.shape.g om0) (matBox c.shape.g om1), ?_, ?_, fun h2 => ?_⟩
    · unfold tauMatrix solveMulti
      rw [hsolve]
    · rintro T ⟨M, h, N, h', rfl⟩ i k
      have := (hq M N _ hd0 hd1 (hM M h) (hN N h')).2 i k
      rw [hrate, ← mul_assoc] at this
      exact this
    · choose p0 hp0 using fun a : Fin c.shape.g × Fin c.shape.g => ((hKc a prec fuel I om0 om1 hp hI j1 j2).2.2 h2).1
      choose p1 hp1 using fun a : Fin c.shape.g × Fin c.shape.g => ((hKc a prec fuel I om0 om1 hp hI j1 j2).2.2 h2).2
      exact ⟨_, mem_image2_of_mem (show Matrix.of (fun i k => p0 (i, k)) ∈ _ from fun i k => hp0 (i, k)) (show Matrix.of (fun i k => p1 (i, k)) ∈ _ from fun i k => hp1 (i, k))⟩
  refine ⟨K2 * K1, P0, hmain, fun prec fuel out hrun hip => ?_⟩
  obtain ⟨g1, g2, g3, -, g4, g5, -, -, I, g6, g7, g8⟩ := HR _ _ _ hrun
  obtain ⟨om0, om1, w1, w2, w3⟩ := g8 f2
  obtain ⟨t, t1, t2, t3⟩ := hmain _ _ _ _ _ g3 hip g7 w2 w3
  obtain ⟨om0', om1', o1, o2⟩ := C75_tau hsw b1 c1 b2 c2 b3 c3 hrun
  obtain ⟨rfl, rfl⟩ := Prod.mk.inj (Option.some.inj (w1.symm.trans o1))
  refine ⟨g1, g4, g5, t, ?_, t2, t3⟩
  rw [o2]
  change Res.bind (tauMatrix setMat (n := c.shape.g) (m := c.shape.g) (matBox c.shape.g om0) (matBox c.shape.g om1)) _ = _
  rw [t1]
  exact congrArg (fun t => Res.ok ({ out with tau := some t } : AjOut (Set ℂ) ℝ setMat c.shape.g)) (ite_self _)

/-- **C86.** Take `n ≥ 3` distinct branch points known exactly, an exponent `m ≥ 2`, and options which select the double-exponential rule.  When the edges of the tree meet only at common ends and the loops `la`, `lb` are computed, the
matrices of periods of the loops have a quotient `tau` (the only solution of `omega0 tau = omega1`), which is a Riemann matrix, and there are constants `K` and `P0` such that at every precision from `P0` on (without an upper bound) the
matrix computed by `tau_matrix` from the matrices of periods exists and is within `K 2^(-prec/(m-1))` of `tau`; it is not empty when the bounds `m2` are not negative.  If `abel_jacobi_compute` without `tau` returns with `intprec ≥ P0`,
then with `tau` it returns too, and `tau` is as said. -/
theorem C86_tau_converges (hs : SortsByR sort) (ho : OrdersByR ord) {lam : ℝ} (hlam : 0 < lam) (hlam2 : lam ≤ Real.pi / 2) (m2 : ℝ → ℝ) {m n : Nat} (hm : 2 ≤ m) (hn : 3 ≤ n) (hx : InjOn x (Iio n))
    {c : Sec} (hc : secInit m n = .ok c) {flag : Nat} (hty : intType flag c.m c.n = .de) (hni : flag &&& ajNoInt = 0) (hna : flag &&& ajNoAb = 0) (hnt : flag &&& ajNoTau = 0) (hroot : RootsDefault flag n) :
    ∃ (tr : Tree ℝ) (data : List (YData (Set ℂ))) (Y : Nat → ℝ → ℂ), spanningTreeOf (exactCOps lam) (WOps.ofOrder (-1)) sort x (treeInit (WOps.ofOrder (-1)) (treeEdges c).toNat) n .de = .ok tr ∧
      treeYdataInit setArith sndTests (fun k => {x k}) n m tr.e = .ok data ∧ TreeSize m n tr.e.length ∧ GrowsAsTree (tr.e.map fun f => (f.a, f.b)) ∧ FreeEdges x n tr.e ∧
      (∀ (prec : Int) (fuel : Nat), 2 ≤ prec → ∃ I, ajIntegrals (idealDe x lam sort ord lam m2) fuel c.shape (flag ||| ajNoTau) prec .de tr.e data = .ok I) ∧
      (∀ (k : Nat) (ed : Edge ℝ), tr.e[k]? = some ed → ed.a < n ∧ ed.b < n ∧ ed.a ≠ ed.b ∧ IsBranchM m n x (x ed.a) (x ed.b) (Y k)) ∧
      ∀ (fuel0 : Nat) (la lb : List (List Gamma)), PlainEdges x tr.e → symplecticBasis XGcd.std fuel0 (shiftOracle setArith sndTests data m) tr.e m c.shape.g = .ok (la, lb) →
        ∃ tau, IsRiemannMatrix tau ∧ (∀ tau', periodsOf m x tr.e Y c.shape la * tau' = periodsOf m x tr.e Y c.shape lb ↔ tau' = tau) ∧ ∃ (K : ℝ) (P0 : Nat),
          (∀ (prec : Int) (fuel : Nat) (I om0 om1 : Nat → Nat → Set ℂ), 2 ≤ prec → P0 ≤ prec → ajIntegrals (idealDe x lam sort ord lam m2) fuel c.shape (flag ||| ajNoTau) prec .de tr.e data = .ok I →
            periodMatrix setArith c.shape la tr.e.length I = .ok om0 → periodMatrix setArith c.shape lb tr.e.length I = .ok om1 →
              ∃ t : Set (Matrix (Fin c.shape.g) (Fin c.shape.g) ℂ), tauMatrix setMat (n := c.shape.g) (m := c.shape.g) (matBox c.shape.g om0) (matBox c.shape.g om1) = .ok t ∧
                (∀ T ∈ t, ∀ i k, ‖T i k - tau i k‖ ≤ K * 2 ^ (-(prec / (m - 1) : ℝ))) ∧ ((∀ ρ, 0 ≤ m2 ρ) → t.Nonempty)) ∧
          ∀ (prec : Int) (fuel : Nat) (out : AjOut (Set ℂ) ℝ setMat c.shape.g), ajRun (idealDe x lam sort ord lam m2) fuel c (flag ||| ajNoTau) prec (treeInit (WOps.ofOrder (-1)) (treeEdges c).toNat) = .ok out → P0 ≤ out.intprec →
            out.tree = tr ∧ out.loopA = la ∧ out.loopB = lb ∧ ∃ t : Set (Matrix (Fin c.shape.g) (Fin c.shape.g) ℂ),
              ajRun (idealDe x lam sort ord lam m2) fuel c flag prec (treeInit (WOps.ofOrder (-1)) (treeEdges c).toNat) = .ok { out with tau := some t } ∧
                (∀ T ∈ t, ∀ i k, ‖T i k - tau i k‖ ≤ K * 2 ^ (-(out.intprec / (m - 1) : ℝ))) ∧ ((∀ ρ, 0 ≤ m2 ρ) → t.Nonempty) := by
  obtain ⟨tr, data, Y, ht, hd, h1, hgr, hfree, -, htot, hbr, H⟩ := tau_converges_stored (x := x) hs ho hlam hlam2 m2 hm hn hx hc hty hni hna hnt hroot
  exact ⟨tr, data, Y, ht, hd, h1, hgr, hfree, htot, hbr, H⟩

/-- whether the matrix of periods is computed does not depend on the integrals -/
theorem periodMatrix_any {c : Shape} {rows : Nat} {ls : List (List Gamma)} {I om : Nat → Nat → Set ℂ} (h : periodMatrix setArith c ls rows I = .ok om) (I' : Nat → Nat → Set ℂ) : ∃ om', periodMatrix setArith c ls rows I' = .ok om' := by
  have triv : Encloses setArith setArith fun _ _ => True := by
    constructor <;> intros <;> trivial
  have hr := periodMatrix_rel triv c rows (I := I) (J := I') (fun _ _ => trivial) ls
  rw [h] at hr
  generalize periodMatrix setArith c ls rows I' = r at hr ⊢
  cases hr with
  | ok _ => exact ⟨_, rfl⟩

/-- **C86** for `m ≤ 3`, where no coefficient of the loops is too large: with edges which meet only at common ends, `abel_jacobi_compute` returns `tau` at every precision `ip` from `P0` on (`ip < 2^62`, the machine limit; the stages are computed
and converge without it), within `K 2^(-ip/(m-1))` of a Riemann matrix which does not depend on the precision. -/
theorem C86_returns (hs : SortsByR sort) (ho : OrdersByR ord) {lam : ℝ} (hlam : 0 < lam) (hlam2 : lam ≤ Real.pi / 2) {m2 : ℝ → ℝ} (h2 : ∀ ρ, 0 ≤ m2 ρ) {m n : Nat} (hm : 2 ≤ m) (hm3 : m ≤ 3) (hn : 3 ≤ n) (hx : InjOn x (Iio n))
    {c : Sec} (hc : secInit m n = .ok c) {flag : Nat} (hty : intType flag c.m c.n = .de) (hni : flag &&& ajNoInt = 0) (hna : flag &&& ajNoAb = 0) (hnt : flag &&& ajNoTau = 0) (hroot : RootsDefault flag n) :
    ∃ (tr : Tree ℝ) (data : List (YData (Set ℂ))) (la lb : List (List Gamma)) (extra : Int), spanningTreeOf (exactCOps lam) (WOps.ofOrder (-1)) sort x (treeInit (WOps.ofOrder (-1)) (treeEdges c).toNat) n .de = .ok tr ∧
      treeYdataInit setArith sndTests (fun k => {x k}) n m tr.e = .ok data ∧ extraprecTree setArith clampMag tr.e (fun k => {x k}) c.shape = .ok extra ∧ GrowsAsTree (tr.e.map fun f => (f.a, f.b)) ∧ FreeEdges x n tr.e ∧ (∀ ed ∈ tr.e, ed.a < n ∧ ed.b < n) ∧
      (PlainEdges x tr.e → ∃ tau : Matrix (Fin c.shape.g) (Fin c.shape.g) ℂ, IsRiemannMatrix tau ∧ ∃ (K : ℝ) (P0 : Nat),
        (∀ ip : Nat, P0 ≤ ip → ∃ (I om0 om1 : Nat → Nat → Set ℂ) (t : Set (Matrix (Fin c.shape.g) (Fin c.shape.g) ℂ)), ajIntegrals (idealDe x lam sort ord lam m2) 1 c.shape (flag ||| ajNoTau) ip .de tr.e data = .ok I ∧
          periodMatrix setArith c.shape la tr.e.length I = .ok om0 ∧ periodMatrix setArith c.shape lb tr.e.length I = .ok om1 ∧ tauMatrix setMat (n := c.shape.g) (m := c.shape.g) (matBox c.shape.g om0) (matBox c.shape.g om1) = .ok t ∧
            t.Nonempty ∧ ∀ T ∈ t, ∀ i k, ‖T i k - tau i k‖ ≤ K * 2 ^ (-(ip / (m - 1) : ℝ))) ∧
        ∀ (prec : Int) (ip fuel : Nat), P0 ≤ ip → prec + extra = ip → (ip : Int) < 2 ^ 62 → 1 ≤ fuel → ∃ (out : AjOut (Set ℂ) ℝ setMat c.shape.g) (t : Set (Matrix (Fin c.shape.g) (Fin c.shape.g) ℂ)),
          ajRun (idealDe x lam sort ord lam m2) fuel c flag prec (treeInit (WOps.ofOrder (-1)) (treeEdges c).toNat) = .ok out ∧ out.tree = tr ∧ out.loopA = la ∧ out.loopB = lb ∧ out.intprec = ip ∧ out.tau = some t ∧ t.Nonempty ∧
            ∀ T ∈ t, ∀ i k, ‖T i k - tau i k‖ ≤ K * 2 ^ (-(ip / (m - 1) : ℝ))) := by
  classical
  have hsw : SameWork flag (flag ||| 2) := fun i i1 i2 i3 => by
    rw [Nat.testBit_or, show (2 : Nat) = 2 ^ 1 from rfl, Nat.testBit_two_pow]
    simp [Ne.symm i1]
  have hb : ∀ i, (flag ||| 2).testBit i = (flag.testBit i || decide (1 = i)) := fun i => by rw [Nat.testBit_or, show (2 : Nat) = 2 ^ 1 from rfl, Nat.testBit_two_pow]
  have f1 : (flag ||| 2) &&& ajNoTau ≠ 0 := noTau_iff.2 (by rw [hb]; simp)
  have f3 : (flag ||| 2) &&& ajNoInt = 0 := by
    by_contra h
    have h' := noInt_iff.1 h
    rw [hb] at h'
    exact noInt_iff.2 (by simpa using h') hni
  have f2 : (flag ||| 2) &&& ajNoAb = 0 := by
    by_contra h
    have h' := noAb_iff.1 h
    rw [hb] at h'
    exact noAb_iff.2 (by simpa using h') hna
  have hroot' : RootsDefault (flag ||| 2) n := by
    unfold RootsDefault
    rw [hb, hb, hb]
    simpa [RootsDefault] using hroot
  have hty' : intType (flag ||| 2) c.m c.n = .de := by rw [← hsw.intType]; exact hty
  obtain ⟨tr, data, Y, ht, hd, h1, hgr, hfree, htot, hbr, H⟩ := C86_tau_converges (x := x) hs ho hlam hlam2 m2 hm hn hx hc hty hni hna hnt hroot
  obtain ⟨tr', data', Y', la, lb, ht', hd', -, -, -, -, -, -, -, -, -, -, -, HR⟩ := de_all (x := x) hs ho hlam hlam2 m2 hm hn hx hc hty' f3 hroot'
  obtain rfl := Res.ok.inj (ht.symm.trans ht')
  obtain rfl := Res.ok.inj (hd.symm.trans hd')
  obtain ⟨tr', extra, hex, -, -, -, -, cc, Y', ca, cb, P, -, -, -, -, hrun⟩ := C79_returns (x := x) hs ho.perm hlam.ne' hlam hlam2 m2 hm (by omega) (by omega) hx hc hty' f3 hroot'
  -- a first run, for the loops
  obtain ⟨out, -, o1, o0, -⟩ := (hrun (2 - extra) 2 1 (by omega) le_rfl (by norm_num) le_rfl).1 (Or.inl hm3) (Or.inr ⟨Or.inl hm3, f1⟩)
  obtain ⟨e0, -, -, ⟨fuel0, hsb⟩, -, -, -, -, I, -, -, k3⟩ := HR _ _ _ o1
  obtain rfl := o0.symm.trans e0
  obtain ⟨om0, om1, -, k5, k6⟩ := k3 f2
  have hes : ∀ ed ∈ tr'.e, ed.a < n ∧ ed.b < n := fun ed hed => by
    obtain ⟨k', hk', rfl⟩ := List.getElem_of_mem hed
    obtain ⟨q1, q2, -⟩ := hbr k' _ (List.getElem?_eq_getElem hk')
    exact ⟨q1, q2⟩
  refine ⟨_, data, la, lb, extra, ht, hd, hex, hgr, hfree, hes, fun hplain => ?_⟩
  obtain ⟨tau, g1, -, K, P0, g2, g3⟩ := H fuel0 la lb hplain hsb
  refine ⟨tau, g1, K, max P0 2, fun ip hip => ?_, fun prec ip fuel hip hpi hip2 hf => ?_⟩
  · obtain ⟨I', hI'⟩ := htot ip 1 (by omega)
    obtain ⟨om0', w0⟩ := periodMatrix_any k5 I'
    obtain ⟨om1', w1⟩ := periodMatrix_any k6 I'
    obtain ⟨t, t1, t2, t3⟩ := g2 ip 1 I' om0' om1' (by omega) (by omega) hI' w0 w1
    exact ⟨I', om0', om1', t, hI', w0, w1, t1, t3 h2, fun T hT i k => by exact_mod_cast t2 T hT i k⟩
  · obtain ⟨out', -, o1', -, o2, -⟩ := (hrun prec ip fuel hpi (by omega) hip2 hf).1 (Or.inl hm3) (Or.inr ⟨Or.inl hm3, f1⟩)
    obtain ⟨t4, t5, t6, t, t1, t2, t3⟩ := g3 prec fuel out' o1' (by rw [o2]; omega)
    rw [o2] at t2
    exact ⟨_, t, t1, t4, t5, t6, o2, rfl, t3 h2, fun T hT i k => by exact_mod_cast t2 T hT i k⟩

/-- the equilateral triangle and `m = 3` with the default options: the edges meet only at common ends -/
example (m2 : ℝ → ℝ) (h2 : ∀ ρ, 0 ≤ m2 ρ) : ∃ (c : Sec) (tau : Matrix (Fin c.shape.g) (Fin c.shape.g) ℂ) (K : ℝ) (P0 : Nat) (extra : Int), secInit (3 : Nat) (3 : Nat) = .ok c ∧ c.shape.g = 1 ∧ IsRiemannMatrix tau ∧
    ∀ ip : Nat, P0 ≤ ip → (ip : Int) < 2 ^ 62 → ∃ (out : AjOut (Set ℂ) ℝ setMat c.shape.g) (t : Set (Matrix (Fin c.shape.g) (Fin c.shape.g) ℂ)),
      ajRun (idealDe tri (Real.pi / 2) sortByR orderByR (Real.pi / 2) m2) 1 c 0 (ip - extra) (treeInit (WOps.ofOrder (-1)) (treeEdges c).toNat) = .ok out ∧ out.tau = some t ∧ t.Nonempty ∧
        ∀ T ∈ t, ∀ i k, ‖T i k - tau i k‖ ≤ K * 2 ^ (-(ip / (3 - 1) : ℝ)) := by
  obtain ⟨c, hc, hg, hty⟩ : ∃ c, secInit (3 : Nat) (3 : Nat) = .ok c ∧ c.shape.g = 1 ∧ intType 0 c.m c.n = .de := ⟨_, rfl, by decide, by decide⟩
  obtain ⟨tr, data, la, lb, extra, -, -, -, hgr, hfree, hes, H⟩ := C86_returns (x := tri) sortByR_sorts orderByR_orders (by positivity : 0 < Real.pi / 2) le_rfl h2 (by norm_num : 2 ≤ 3) le_rfl le_rfl tri_inj hc hty (by decide) (by decide) (by decide)
    (Or.inr (Or.inr ⟨by decide, by decide⟩))
  obtain ⟨tau, g1, K, P0, -, g2⟩ := H (plainEdges_three hgr hes tri_inj hfree)
  refine ⟨c, tau, K, P0, extra, hc, hg, g1, fun ip hip hip2 => ?_⟩
  obtain ⟨out, t, t1, -, -, -, -, t2, t3, t4⟩ := g2 (ip - extra) ip 1 hip (by omega) hip2 le_rfl
  exact ⟨out, t, t1, t2, t3, fun T hT i k => by exact_mod_cast t4 T hT i k⟩

/-- The curve `y^3 = ∏ (x - x_k)` over the equilateral triangle with the default options: there are a Riemann matrix `tau` and constants `K`, `P0` such that at every precision `ip ≥ P0` the integrals, the matrices of periods of the loops
and the matrix `tau` are computed, the latter is not empty and within `K 2^(-ip/2)` of `tau`; when moreover `ip < 2^62` the run at working precision `ip` returns such a matrix. -/
example (m2 : ℝ → ℝ) (h2 : ∀ ρ, 0 ≤ m2 ρ) : ∃ (c : Sec) (tr : Tree ℝ) (data : List (YData (Set ℂ))) (la lb : List (List Gamma)) (tau : Matrix (Fin c.shape.g) (Fin c.shape.g) ℂ) (K : ℝ) (P0 : Nat) (extra : Int),
    secInit (3 : Nat) (3 : Nat) = .ok c ∧ c.shape.g = 1 ∧ IsRiemannMatrix tau ∧
      (∀ ip : Nat, P0 ≤ ip → ∃ (I om0 om1 : Nat → Nat → Set ℂ) (t : Set (Matrix (Fin c.shape.g) (Fin c.shape.g) ℂ)), ajIntegrals (idealDe tri (Real.pi / 2) sortByR orderByR (Real.pi / 2) m2) 1 c.shape (0 ||| ajNoTau) ip .de tr.e data = .ok I ∧
        periodMatrix setArith c.shape la tr.e.length I = .ok om0 ∧ periodMatrix setArith c.shape lb tr.e.length I = .ok om1 ∧ tauMatrix setMat (n := c.shape.g) (m := c.shape.g) (matBox c.shape.g om0) (matBox c.shape.g om1) = .ok t ∧
          t.Nonempty ∧ ∀ T ∈ t, ∀ i k, ‖T i k - tau i k‖ ≤ K * 2 ^ (-(ip / (3 - 1) : ℝ))) ∧
      ∀ ip : Nat, P0 ≤ ip → (ip : Int) < 2 ^ 62 → ∃ (out : AjOut (Set ℂ) ℝ setMat c.shape.g) (t : Set (Matrix (Fin c.shape.g) (Fin c.shape.g) ℂ)),
        ajRun (idealDe tri (Real.pi / 2) sortByR orderByR (Real.pi / 2) m2) 1 c 0 (ip - extra) (treeInit (WOps.ofOrder (-1)) (treeEdges c).toNat) = .ok out ∧ out.intprec = ip ∧ out.tau = some t ∧ t.Nonempty ∧
          ∀ T ∈ t, ∀ i k, ‖T i k - tau i k‖ ≤ K * 2 ^ (-(ip / (3 - 1) : ℝ)) := by
  obtain ⟨c, hc, hg, hty⟩ : ∃ c, secInit (3 : Nat) (3 : Nat) = .ok c ∧ c.shape.g = 1 ∧ intType 0 c.m c.n = .de := ⟨_, rfl, by decide, by decide⟩
  have hty' : intType ajNoTau c.m c.n = .de := by
    obtain rfl := Res.ok.inj hc
    decide
  have hroot : RootsDefault 0 3 := Or.inr (Or.inr ⟨by decide, by decide⟩)
  have hroot' : RootsDefault ajNoTau 3 := Or.inr (Or.inr ⟨by decide, by decide⟩)
  obtain ⟨tr, data, Y, ht, hd, h1, hgr, hfree, htot, hbr, H⟩ := C86_tau_converges (x := tri) sortByR_sorts orderByR_orders (by positivity : 0 < Real.pi / 2) le_rfl m2 (by norm_num : 2 ≤ 3) le_rfl tri_inj hc hty (by decide) (by decide) (by decide) hroot
  obtain ⟨tr', data', Y', la, lb, ht', hd', -, -, -, -, -, -, -, -, -, -, -, HR⟩ := de_all (x := tri) sortByR_sorts orderByR_orders (by positivity : 0 < Real.pi / 2) le_rfl m2 (by norm_num : 2 ≤ 3) le_rfl tri_inj hc hty' (by decide) hroot'
  obtain rfl := Res.ok.inj (ht.symm.trans ht')
  obtain rfl := Res.ok.inj (hd.symm.trans hd')
  obtain ⟨tr', extra, -, -, -, -, -, cc, Y', ca, cb, P, -, -, -, -, hrun⟩ := C79_returns (x := tri) sortByR_sorts orderByR_orders.perm (by positivity : Real.pi / 2 ≠ 0) (by positivity : 0 < Real.pi / 2) le_rfl m2
    (by norm_num : 2 ≤ 3) (by norm_num) (by norm_num) tri_inj hc hty' (by decide) hroot'
  have hplain : PlainEdges tri tr.e := plainEdges_three hgr (fun ed hed => by
    obtain ⟨k', hk', rfl⟩ := List.getElem_of_mem hed
    obtain ⟨q1, q2, -⟩ := hbr k' _ (List.getElem?_eq_getElem hk')
    exact ⟨q1, q2⟩) tri_inj hfree
  -- a first run, for the loops
  obtain ⟨out, -, o1, -⟩ := (hrun (2 - extra) 2 1 (by omega) le_rfl (by norm_num) le_rfl).1 (Or.inl (by norm_num)) (Or.inr ⟨Or.inl (by norm_num), by decide⟩)
  obtain ⟨-, -, -, ⟨fuel0, hsb⟩, -, -, -, -, I, -, -, k3⟩ := HR _ _ _ o1
  obtain ⟨om0, om1, -, k5, k6⟩ := k3 (by decide)
  obtain ⟨tau, g1, -, K, P0, g2, g3⟩ := H fuel0 la lb hplain hsb
  refine ⟨c, tr, data, la, lb, tau, K, max P0 2, extra, hc, hg, g1, fun ip hip => ?_, fun ip hip hip2 => ?_⟩
  · obtain ⟨I', hI'⟩ := htot ip 1 (by omega)
    obtain ⟨om0', w0⟩ := periodMatrix_any k5 I'
    obtain ⟨om1', w1⟩ := periodMatrix_any k6 I'
    obtain ⟨t, t1, t2, t3⟩ := g2 ip 1 I' om0' om1' (by omega) (by omega) hI' w0 w1
    exact ⟨I', om0', om1', t, hI', w0, w1, t1, t3 h2, fun T hT i k => by exact_mod_cast t2 T hT i k⟩
  · obtain ⟨out, -, o1, -, o2, -⟩ := (hrun (ip - extra) ip 1 (by omega) (by omega) hip2 le_rfl).1 (Or.inl (by norm_num)) (Or.inr ⟨Or.inl (by norm_num), by decide⟩)
    obtain ⟨-, -, -, t, t1, t2, t3⟩ := g3 (ip - extra) 1 out (by rw [Nat.zero_or]; exact o1) (by rw [o2]; omega)
    rw [o2] at t2
    exact ⟨_, t, t1, o2, rfl, t3 h2, fun T hT i k => by exact_mod_cast t2 T hT i k⟩

end Hcp
