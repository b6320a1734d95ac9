import Verif.Props.Riemann

/-!
# C61: the matrix `tau` of the curve `y^m = x^2 - 1`
-/

namespace Hcp
open Set Spec

/-- **C61 (instance).** Curve `y^m = x^2 - 1`, `m > 2`, all matrices wanted, with exact operations on sets: the run returns, `tau` is one exact matrix, and it is a Riemann matrix. -/
theorem C61_exact {m : Nat} (hm : 2 < m) {c : Sec} (h : secInit m 2 = .ok c) (p : DePar (Set ℂ)) {prec : Int} (hp1 : 1 ≤ prec) (hp2 : prec < 2 ^ 62) :
    1 ≤ c.shape.g ∧ ∃ (out : AjOut (Set ℂ) Unit setMat c.shape.g) (tau : Matrix (Fin c.shape.g) (Fin c.shape.g) ℂ),
      ajRun (setEnv pm p) 1 c 0 prec (treeInit (setEnv pm p).wops 1) = .ok out ∧ (∃ t, out.tau = some t ∧ ∀ M, InC t M ↔ M = tau) ∧ IsRiemannMatrix tau := by
  obtain ⟨hm1, e1, e2, eδ, _⟩ := secInit_fields h le_rfl
  have hcn : c.shape.n = 2 := by unfold Sec.shape; simp [e2]
  have hcm : c.shape.m = m := by unfold Sec.shape; simp [e1]
  have hmZ : (2 : Int) < m := by exact_mod_cast hm
  have hty : ∀ fl, fl &&& ajUseDe = 0 → intType fl c.m c.n = .d2 := by
    intro fl hfl
    unfold intType
    rw [if_neg, if_neg]
    · omega
    · rw [e2]
      push Not
      exact ⟨hfl, fun _ => le_rfl⟩
  have hg : 1 ≤ c.shape.g := by
    have hgen := isGenus_shape le_rfl h
    unfold IsGenus at hgen
    have h3 : ((Int.gcd m 2 : Nat) : Int) ≤ 2 := Int.le_of_dvd (by norm_num) (Int.gcd_dvd_right _ _)
    by_contra h0
    have h4 : c.shape.g = 0 := by omega
    rw [h4] at hgen
    have h5 : m = 3 ∨ 4 ≤ m := by omega
    rcases h5 with rfl | h5
    · norm_num at hgen
    · push_cast at hgen
      omega
  refine ⟨hg, ?_⟩
  have hte : ((treeInit (setEnv pm p).wops 1).n : Int) = treeEdges c := by
    have h3 : ((Int.gcd m 2 : Nat) : Int) ≤ 2 := Int.le_of_dvd (by norm_num) (Int.gcd_dvd_right _ _)
    unfold treeEdges
    rw [if_neg (by rw [eδ, e1]; omega), e2]
    rfl
  obtain ⟨k0, hni⟩ := ni_two h hg
  have fit : (2 : Int) ≤ prec + 1 ∧ FitsSlong (prec + 1) ∧ FitsSlong (prec + 1 + 10) := by
    unfold FitsSlong slongMin slongMax
    omega
  have hlen : ∀ ed : Edge Unit, ed.a < 2 → ed.b < 2 → ed.a ≠ ed.b → ‖pm ed.b - pm ed.a‖ = 2 := by
    intro ed ha hb hab
    rcases (by omega : ed.a = 0 ∧ ed.b = 1 ∨ ed.a = 1 ∧ ed.b = 0) with ⟨e1, e2⟩ | ⟨e1, e2⟩ <;> rw [e1, e2] <;> norm_num [pm]
  -- the run without `tau`
  obtain ⟨out, hrun, Y, ca, cb, cc, Q, hr⟩ : ∃ out, ajRun (setEnv pm p) 1 c 2 prec (treeInit (setEnv pm p).wops 1) = .ok out ∧ ∃ (Y : Nat → ℝ → ℂ) (ca cb : Nat → ℂ) (cc : IMat) (Q : Mat (out.tree.e.length * (m - 1))),
      AjRight (setEnv pm p) (fun s z => z ∈ s) InC m 2 pm c out Y ca cb cc Q := by
    rcases C56_quadratic setMat_encl (setEnv_sound pm p) hm h hte (fuel := 1) le_rfl (flag := 2) (by decide) (prec := prec)
      (fun ed h1 h2 h3 => ⟨1, setMag_extra (x := pm) (by simp) (fun e he => by obtain rfl := List.mem_singleton.1 he; exact hlen _ h1 h2 h3) hni, fit⟩) (x' := fun _ => pm) (fun _ => by norm_num [pm])
      (fun _ k _ => mem_singleton _) with ⟨-, q, a, b, ha, hb, hab, h1, -⟩ | ⟨-, -, -, h', -⟩ | ⟨out, h1, h2⟩
    · exfalso
      rcases C20_edge_data setArith_pt sndTests (x := fun k => {pm k}) (x' := pm) (fun _ => rfl) ha hb hab (m := m) (by omega) (fun h => hab (pm_inj ha hb h)) with ⟨yd, hyd, -⟩ | ⟨_, s, z, hz, h, h0⟩
      · have : ydataInitEdge setArith sndTests (fun k => {pm k}) a b 2 m = .abort "Cab contains 0" := h1
        rw [hyd] at this
        cases this
      · subst hz
        simp only [sndTests, decide_eq_true_eq, mem_singleton_iff] at h
        exact absurd h.symm h0
    · exact absurd h' (by decide)
    · exact ⟨out, h1, h2⟩
  obtain ⟨h1, h2, -, h4, -⟩ := ajRun_ok hrun
  obtain ⟨-, hgr, hec, hes, hdata, -⟩ := ajTree_ok (setEnv_sound pm p).sortEdges (n := 2) le_rfl (by exact_mod_cast h) hte h1
  obtain ⟨-, I, hI, hint, hom, -⟩ := h4 (by decide)
  obtain ⟨om0, om1, o1, o2, o3, -⟩ := hom (by decide)
  rw [h2, hty 2 (by decide)] at hint
  obtain ⟨ed, hed⟩ : ∃ ed, out.tree.e = [ed] := by
    apply List.length_eq_one_iff.1
    rcases edgeCount_of_size hec with h | ⟨h, -⟩
    · omega
    · have := Nat.le_of_dvd (by norm_num) h
      omega
  have hab : ed.a < 2 ∧ ed.b < 2 := hes ed (by rw [hed]; exact List.mem_singleton_self _)
  have hne : ed.a ≠ ed.b := by
    have := (hgr 0 (by rw [hed]; simp)).1
    simpa [hed] using this
  have hxab : pm ed.a ≠ pm ed.b := fun h => hne (pm_inj hab.1 hab.2 h)
  rw [hed] at hdata
  -- the integrals are exact
  obtain ⟨yd, hd0, hyd⟩ : ∃ yd, out.data[0]? = some yd ∧ ydataInitEdge setArith sndTests (fun k => {pm k}) ed.a ed.b 2 m = .ok yd := by
    obtain ⟨g1, g2⟩ := treeYdataInit_get hdata
    obtain ⟨yd, hyd⟩ := List.length_eq_one_iff.1 g1
    have e0 : out.data[0]? = some yd := by rw [hyd]; rfl
    obtain ⟨ed', w1, w2⟩ := g2 0 yd e0
    obtain rfl : ed = ed' := by simpa using w1
    exact ⟨yd, e0, w2⟩
  obtain ⟨hyn, u, hu, hE⟩ : yd.n = 2 ∧ ∃ u' : Nat → ℂ, (∀ i, yd.u i = {u' i}) ∧ EdgeData m 2 pm ed.a ed.b yd.n1 u' := by
    rcases C20_edge_data setArith_pt sndTests (x := fun k => {pm k}) (x' := pm) (fun _ => rfl) hab.1 hab.2 hne (m := m) (by omega) hxab with ⟨yd2, k1, -, k2⟩ | ⟨k1, -⟩
    · obtain rfl := Res.ok.inj (hyd.symm.trans k1)
      exact k2
    · rw [hyd] at k1
      cases k1
  obtain ⟨row, row', w1, w2, -⟩ := d2_row setArith_pt setFns_pt hm h hxab hyn hu hE
  have hIex : ∃ I' : Nat → Nat → ℂ, ∀ k r, I k r = {I' k r} := by
    unfold ajIntegrals at hint
    simp only [hd0] at hint
    have w1' : integralD2 ((setEnv pm p).ar out.intprec) ((setEnv pm p).fns out.intprec) c.shape yd = .ok row := w1
    rw [w1', Res.ok_bind] at hint
    obtain rfl := Res.ok.inj hint
    refine ⟨fun k r => if k = 0 then row' r else 0, fun k r => ?_⟩
    by_cases hk : k = 0
    · simp only [hk, if_true]
      exact w2 r
    · simp only [hk, if_false]
      rfl
  obtain ⟨I', hI'⟩ := hIex
  have exact_om : ∀ (basis : List (List Gamma)) om, periodMatrix ((setEnv pm p).ar out.intprec) c.shape basis out.tree.n I = .ok om → ∃ om' : Nat → Nat → ℂ, ∀ r k, om r k = {om' r k} := by
    intro basis om ho
    have hrel := periodMatrix_rel setArith_pt c.shape out.tree.n (I := I) (J := I') (fun e r => hI' e r) basis
    have ho' : periodMatrix setArith c.shape basis out.tree.n I = .ok om := ho
    rw [ho'] at hrel
    generalize periodMatrix exact c.shape basis out.tree.n I' = q at hrel
    cases hrel with
    | ok h3 => exact ⟨_, h3⟩
  obtain ⟨om0', ho0⟩ := exact_om _ _ o1
  obtain ⟨om1', ho1⟩ := exact_om _ _ o2
  have ht0 : ∀ om, trimIf (setEnv pm p) 2 om = om := fun om => if_neg (by decide)
  rw [ht0, ht0] at o3
  have hA : ∀ r k : Fin c.shape.g, om0' r k = periodsOf m pm out.tree.e Y c.shape out.loopA r k := by
    intro r k
    have := (hr.omega om0 om1 o3 r k).1
    rw [ho0] at this
    exact (mem_singleton_iff.1 this).symm
  have hB : ∀ r k : Fin c.shape.g, om1' r k = periodsOf m pm out.tree.e Y c.shape out.loopB r k := by
    intro r k
    have := (hr.omega om0 om1 o3 r k).2
    rw [ho1] at this
    exact (mem_singleton_iff.1 this).symm
  obtain ⟨hdet, hrm⟩ := C61_riemann_partial hm h (by norm_num [pm]) hr
  set PA := periodsOf m pm out.tree.e Y c.shape out.loopA
  set PB := periodsOf m pm out.tree.e Y c.shape out.loopB
  have hmatA : (setEnv pm p).mat (g := c.shape.g) om0 = ({PA} : Set (Matrix (Fin c.shape.g) (Fin c.shape.g) ℂ)) := by
    apply Set.ext
    intro M
    constructor
    · intro hM
      exact mem_singleton_iff.2 (by
        funext r k
        have : M r k ∈ om0 r k := hM r k
        rw [ho0] at this
        rw [mem_singleton_iff.1 this, hA])
    · intro hM
      obtain rfl := mem_singleton_iff.1 hM
      intro r k
      show PA r k ∈ om0 r k
      rw [ho0, ← hA]
      exact mem_singleton _
  have hmatB : (setEnv pm p).mat (g := c.shape.g) om1 = ({PB} : Set (Matrix (Fin c.shape.g) (Fin c.shape.g) ℂ)) := by
    apply Set.ext
    intro M
    constructor
    · intro hM
      exact mem_singleton_iff.2 (by
        funext r k
        have : M r k ∈ om1 r k := hM r k
        rw [ho1] at this
        rw [mem_singleton_iff.1 this, hB])
    · intro hM
      obtain rfl := mem_singleton_iff.1 hM
      intro r k
      show PB r k ∈ om1 r k
      rw [ho1, ← hB]
      exact mem_singleton _
  -- the run with `tau`
  have hfull := ajRun_tau (setEnv pm p) 1 (hty 0 (by decide)) (hty 2 (by decide)) (by decide) (by decide) (by decide) (by decide) (by decide) (by decide) (by decide) prec (treeInit (setEnv pm p).wops 1)
  have hsolve : setMat.solve (n := c.shape.g) (m := c.shape.g) ((setEnv pm p).mat om0) ((setEnv pm p).mat om1) = some (({PA⁻¹ * PB} : Set (Matrix (Fin c.shape.g) (Fin c.shape.g) ℂ))) := by
    classical
    rw [hmatA, hmatB]
    change (if ∀ M ∈ ({PA} : Set (Matrix (Fin c.shape.g) (Fin c.shape.g) ℂ)), M.det ≠ 0 then some (image2 (fun M N => M⁻¹ * N) ({PA} : Set (Matrix (Fin c.shape.g) (Fin c.shape.g) ℂ)) {PB}) else none) = _
    rw [if_pos (by intro M hM; rw [mem_singleton_iff.1 hM]; exact hdet), image2_singleton]
  have htau : tauMatrix setMat (n := c.shape.g) (m := c.shape.g) ((setEnv pm p).mat om0) ((setEnv pm p).mat om1) = .ok (({PA⁻¹ * PB} : Set (Matrix (Fin c.shape.g) (Fin c.shape.g) ℂ))) := by
    unfold tauMatrix solveMulti
    rw [hsolve]
  refine ⟨{ out with tau := some (({PA⁻¹ * PB} : Set (Matrix (Fin c.shape.g) (Fin c.shape.g) ℂ))) }, PA⁻¹ * PB, ?_, ⟨_, rfl, fun M => mem_singleton_iff⟩, hrm _ ?_⟩
  · rw [hfull, hrun, Res.ok_bind, tauStep]
    simp only [o3, htau]
    rfl
  · exact Matrix.mul_nonsing_inv_cancel_left _ _ (isUnit_iff_ne_zero.2 hdet)

/-- an instance: `y^5 = x^2 - 1`, of genus 2 -/
example (p : DePar (Set ℂ)) : ∃ c, secInit 5 2 = .ok c ∧ c.shape.g = 2 ∧ ∃ (out : AjOut (Set ℂ) Unit setMat c.shape.g) (tau : Matrix (Fin c.shape.g) (Fin c.shape.g) ℂ),
    ajRun (setEnv pm p) 1 c 0 128 (treeInit (setEnv pm p).wops 1) = .ok out ∧ (∃ t, out.tau = some t ∧ InC t tau) ∧ IsRiemannMatrix tau := by
  have hc : secInit 5 2 = .ok ⟨5, 2, 1, 2, 3, 2, [1, 1]⟩ := by decide +kernel
  obtain ⟨-, out, tau, h1, ⟨t, h2, h3⟩, h4⟩ := C61_exact (m := 5) (by norm_num) hc p (prec := 128) (by norm_num) (by norm_num)
  exact ⟨_, hc, rfl, out, tau, h1, ⟨t, h2, (h3 tau).2 rfl⟩, h4⟩

end Hcp
