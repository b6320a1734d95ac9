import Verif.Props.Main

/-!
# Instance of C60: `periods -m 5 --xn1 2 --big --gp`

All operations are done exactly on sets; the roots are those of the polynomial.
-/

namespace Hcp
open Set Spec

theorem prod_getD (f : ℂ → Polynomial ℂ) : ∀ l : List ℂ, (l.map f).prod = ∏ k ∈ Finset.range l.length, f (l.getD k 0)
  | [] => by simp
  | a :: l => by
    rw [List.map_cons, List.prod_cons, prod_getD f l, List.length_cons, Finset.prod_range_succ', mul_comm]
    simp

/-- the roots of a polynomial, in some order -/
noncomputable def rootList (P : Polynomial ℤ) (k : Nat) : ℂ := (P.map (Int.castRingHom ℂ)).roots.toList.getD k 0

theorem map_degree (P : Polynomial ℤ) : (P.map (Int.castRingHom ℂ)).natDegree = P.natDegree := Polynomial.natDegree_map_eq_of_injective (RingHom.injective_int _) P

theorem rootList_spec (P : Polynomial ℤ) : RootsOf P (rootList P) := by
  have hs : (P.map (Int.castRingHom ℂ)).Splits := IsAlgClosed.splits _
  have h1 := hs.eq_prod_roots
  have h2 : (P.map (Int.castRingHom ℂ)).roots.toList.length = P.natDegree := by
    rw [Multiset.length_toList, ← hs.natDegree_eq_card_roots, map_degree]
  have h3 : (P.map (Int.castRingHom ℂ)).leadingCoeff = (P.leadingCoeff : ℂ) := by
    rw [Polynomial.leadingCoeff_map_of_injective (RingHom.injective_int _)]
    rfl
  have h4 := prod_getD (fun a => Polynomial.X - Polynomial.C a) (P.map (Int.castRingHom ℂ)).roots.toList
  rw [h2] at h4
  have h5 : ((P.map (Int.castRingHom ℂ)).roots.map fun a => Polynomial.X - Polynomial.C a).prod = ((P.map (Int.castRingHom ℂ)).roots.toList.map fun a => Polynomial.X - Polynomial.C a).prod := by
    conv_lhs => rw [← Multiset.coe_toList (P.map (Int.castRingHom ℂ)).roots, Multiset.map_coe, Multiset.prod_coe]
  rw [h3, h5, h4] at h1
  exact h1

open Classical in
/-- the polynomial with given coefficients -/
noncomputable def ofCoeffs (p : IPoly) : Polynomial ℤ := if h : ∃ P : Polynomial ℤ, P.coeff = p then h.choose else 0

theorem ofCoeffs_coeff (P : Polynomial ℤ) : ofCoeffs P.coeff = P := by
  have h : ∃ Q : Polynomial ℤ, Q.coeff = P.coeff := ⟨P, rfl⟩
  unfold ofCoeffs
  rw [dif_pos h]
  exact Polynomial.coeff_injective h.choose_spec

open Classical in
/-- exact libraries on sets -/
noncomputable def setMain (F : Families) (d : DePar (Set ℂ)) : MainEnv (Set ℂ) RSet Unit Unit setMat where
  aj p := setEnv (rootList (ofCoeffs p)) d
  degree p := if ofCoeffs p = 0 then -1 else (ofCoeffs p).natDegree
  sqfree p := decide (Squarefree ((ofCoeffs p).map (Int.castRingHom ℚ)))
  fam := F

theorem setMain_sound (F : Families) (d : DePar (Set ℂ)) : (setMain F d).Sound (fun s z => z ∈ s) (fun b x => x ∈ b.1) InC where
  aj p := setEnv_sound _ d
  degree0 := by
    have : ofCoeffs (fun _ => 0) = 0 := by
      have := ofCoeffs_coeff 0
      rwa [show (0 : Polynomial ℤ).coeff = fun _ => 0 from funext Polynomial.coeff_zero] at this
    simp [setMain, this]
  degree P hP := by simp [setMain, ofCoeffs_coeff, hP]
  sqfree P _ := by simp [setMain, ofCoeffs_coeff]
  roots P _ _ q _ := by
    refine ⟨rootList P, rootList_spec P, fun k => ?_⟩
    simp [setMain, ofCoeffs_coeff, setEnv]

/-- the commands `-m 5 --xn1 2 --big --gp` -/
def instCmds : List Cmd := [.num .m "5".toList] ++ .num .xn1 "2".toList :: [.flag .big, .gp]

/-- the hypotheses of `C60_program_partial` hold for `periods -m 5 --xn1 2 --big --gp`, and the program prints. -/
theorem main_instance (F : Families) (d : DePar (Set ℂ)) : (setMain F d).Sound (fun s z => z ∈ s) (fun b x => x ∈ b.1) InC ∧ Complete instCmds ∧ SideCond (.num .xn1 "2".toList) ∧
    ∃ r, periodsMain (setMain F d) 1 (argv instCmds) = .ok (some r) ∧ r.c.shape.g = 2 ∧ (∃ s, r.shown = some s) ∧
      ∀ out x, ∀ P : Polynomial ℤ, r.out = some out → P.coeff = r.poly → RootsOf P x → GoodRun ((setMain F d).aj r.poly) (fun s z => z ∈ s) 1 r.c r.o.flag P.natDegree x out := by
  have hc : secInit 5 2 = .ok ⟨5, 2, 1, 2, 3, 2, [1, 1]⟩ := by decide +kernel
  set c : Sec := ⟨5, 2, 1, 2, 3, 2, [1, 1]⟩ with hcdef
  -- the polynomial
  set P : Polynomial ℤ := Polynomial.X ^ 2 - 1 with hP
  have hPd : P.natDegree = 2 := by rw [hP]; compute_degree!
  have hP0 : P ≠ 0 := by rintro h; rw [h] at hPd; simp at hPd
  have hsf : Squarefree (P.map (Int.castRingHom ℚ)) := by
    apply Polynomial.Separable.squarefree
    rw [hP, Polynomial.map_sub, Polynomial.map_pow, Polynomial.map_X, Polynomial.map_one]
    have := Polynomial.separable_X_pow_sub_C (F := ℚ) 1 (n := 2) (by norm_num) one_ne_zero
    simpa using this
  have hPc : P.coeff = fun k => if k = 2 then 1 else if k = 0 then -1 else 0 := by
    funext k
    rw [hP, Polynomial.coeff_sub, Polynomial.coeff_X_pow, Polynomial.coeff_one]
    by_cases h2 : k = 2
    · simp [h2]
    · by_cases h0 : k = 0 <;> simp [h2, h0]
  -- its roots
  have hR := rootList_spec P
  have hinj := roots_inj hsf hR
  rw [hPd] at hinj
  have hne : rootList P 0 ≠ rootList P 1 := fun h => by simpa using hinj (by simp : (0 : Nat) ∈ Iio 2) (by simp : (1 : Nat) ∈ Iio 2) h
  have hsq : ∀ k < 2, rootList P k ^ 2 = 1 := by
    intro k hk
    have h := congrArg (Polynomial.eval (rootList P k)) hR
    rw [Polynomial.eval_mul, Polynomial.eval_prod, Finset.prod_eq_zero (i := k) (by rw [hPd]; simpa using hk) (by simp), mul_zero] at h
    simp [hP] at h
    linear_combination h
  have hlen : ∀ ed : Edge Unit, ed.a < 2 → ed.b < 2 → ed.a ≠ ed.b → ‖rootList P ed.b - rootList P ed.a‖ = 2 := by
    intro ed ha hb hab
    have h3 : rootList P ed.a ≠ rootList P ed.b := fun h => hab (hinj ha hb h)
    have hpm : ∀ k < 2, rootList P k = 1 ∨ rootList P k = -1 := by
      intro k hk
      have : (rootList P k - 1) * (rootList P k + 1) = 0 := by linear_combination hsq k hk
      rcases mul_eq_zero.1 this with h | h
      · exact Or.inl (sub_eq_zero.1 h)
      · exact Or.inr (eq_neg_of_add_eq_zero_left h)
    rcases hpm _ ha with e1 | e1 <;> rcases hpm _ hb with e2 | e2
    · exact absurd (e1.trans e2.symm) h3
    · rw [e1, e2]; norm_num
    · rw [e1, e2]; norm_num
    · exact absurd (e1.trans e2.symm) h3
  have hxab : ∀ a b : Nat, a < 2 → b < 2 → a ≠ b → rootList P a ≠ rootList P b := fun a b ha hb hab h => hab (hinj ha hb h)
  -- the computation
  obtain ⟨out, hrun⟩ : ∃ out, ajRun (setEnv (rootList P) d) 1 c 2 128 (treeInit (setEnv (rootList P) d).wops 1) = .ok out := by
    rcases C56_quadratic setMat_encl (setEnv_sound (rootList P) d) (m := 5) (by norm_num) hc (tr0 := treeInit (setEnv (rootList P) d).wops 1) (by rfl) (fuel := 1) le_rfl (flag := 2) (by decide) (prec := 128)
      (fun ed h1 h2 h3 => ⟨1, setMag_extra (x := rootList P) (k := 1) (by simp) (fun e he => by obtain rfl := List.mem_singleton.1 he; exact hlen _ h1 h2 h3) (by rfl), by decide⟩) (x' := fun _ => rootList P) (fun _ => hne)
      (fun _ k _ => mem_singleton _) with ⟨-, q, a, b, ha, hb, hab, h1, -⟩ | ⟨-, -, -, h', -⟩ | ⟨out, h, -⟩
    · exfalso
      rcases C20_edge_data setArith_pt sndTests (x := fun k => {rootList P k}) (x' := rootList P) (fun _ => rfl) ha hb hab (m := 5) (by omega) (hxab a b ha hb hab) with ⟨yd, hyd, -⟩ | ⟨_, s, z, hz, h, h0⟩
      · have : ydataInitEdge setArith sndTests (fun k => {rootList P k}) a b 2 5 = .abort "Cab contains 0" := h1
        rw [hyd] at this
        cases this
      · subst hz
        simp only [sndTests, mem_singleton_iff, decide_eq_true_eq] at h
        exact absurd h.symm h0
    · exact absurd h' (by decide)
    · exact ⟨out, h⟩
  obtain ⟨o, ho, hm, hp, hr, hf, hpr, hcv, hpp⟩ : ∃ o, readArgs (argv instCmds) = .ok (some o) ∧ o.m = 5 ∧ o.prec = 128 ∧ o.run = 1 ∧ o.flag = 2 ∧ o.print = true ∧ curvePoly F o = .ok (fun k => if k = 2 then 1 else if k = 0 then -1 else 0) ∧
      polPrec o = .ok () := ⟨_, rfl, rfl, rfl, rfl, rfl, rfl, rfl, rfl⟩
  rw [← hPc] at hcv
  have hdeg : (setMain F d).degree P.coeff = 2 := by rw [(setMain_sound F d).degree P hP0, hPd]; rfl
  have hsqf : (setMain F d).sqfree P.coeff = true := ((setMain_sound F d).sqfree P (by omega)).2 hsf
  have hini : initPoly 5 2 true = .ok c := by
    unfold initPoly
    rw [hc]
    rfl
  have haj : (setMain F d).aj P.coeff = setEnv (rootList P) d := by
    show setEnv (rootList (ofCoeffs P.coeff)) d = _
    rw [ofCoeffs_coeff]
  have hmain : mainOpts (setMain F d) 1 o = .ok ⟨o, P.coeff, c, some out⟩ := by
    unfold mainOpts
    have hcv' : curvePoly (setMain F d).fam o = .ok P.coeff := hcv
    rw [hpp, Res.ok_bind, hcv', Res.ok_bind, hdeg, hsqf, hm, hini, Res.ok_bind, haj, hr, hf, hp]
    have : computeLoop (setEnv (rootList P) d) 1 c 2 128 (1 : Int).toNat (treeInit (setEnv (rootList P) d).wops (treeEdges c).toNat) none = .ok (some out) := by
      show (ajRun (setEnv (rootList P) d) 1 c 2 128 (treeInit (setEnv (rootList P) d).wops 1) >>= _) = _
      rw [hrun]
      rfl
    rw [this]
    rfl
  refine ⟨setMain_sound F d, by simp [instCmds, Complete], ⟨by decide, by decide⟩, ⟨o, P.coeff, c, some out⟩, ?_, rfl, ?_, ?_⟩
  · unfold periodsMain
    rw [ho, Res.ok_bind]
    simp only
    rw [hmain]
    rfl
  · obtain ⟨-, -, -, h4, -⟩ := ajRun_ok hrun
    obtain ⟨-, I, -, -, h5, -⟩ := h4 (by decide)
    obtain ⟨om0, om1, -, -, h6, -⟩ := h5 (by decide)
    refine ⟨.omega (trimIf (setEnv (rootList P) d) 2 om0) (trimIf (setEnv (rootList P) d) 2 om1), ?_⟩
    unfold MainRun.shown printed
    simp only [hpr, hf, if_true]
    show out.omega.map _ = _
    rw [h6]
    rfl
  · intro out' x Q hout _ _
    obtain rfl := Option.some.inj hout
    obtain ⟨-, h2, -⟩ := ajRun_ok hrun
    have hty : out.type = .d2 := h2.trans (by decide)
    exact ⟨fun h => absurd hty h, fun h => by simp [hty] at h, fun h => by simp [hty] at h, fun h => by simp [hty] at h⟩

end Hcp
