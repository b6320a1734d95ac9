import Verif.Proofs.GcExact

/-!
# C72: number of points of the Gauss-Chebyshev rule on exact numbers
-/

namespace Hcp

open Spec Filter Topology

/-- the smallest of the parameters `rOf z` of the ellipses through the points `z` -/
def IsMinR (u : List ℂ) (r0 : ℝ) : Prop := (∀ z ∈ u, r0 ≤ rOf z) ∧ ∃ z ∈ u, r0 = rOf z

theorem isMinR_unique {u : List ℂ} {r s : ℝ} (h : IsMinR u r) (h' : IsMinR u s) : r = s := by
  obtain ⟨a, z, hz, rfl⟩ := h
  obtain ⟨b, w, hw, rfl⟩ := h'
  exact le_antisymm (a w hw) (b z hz)

/-- the same for the list of the parameters: the smallest of them -/
def IsLeastIn (r : ℝ) (vr : List ℝ) : Prop := r ∈ vr ∧ ∀ s ∈ vr, r ≤ s

theorem isMinR_iff {u : List ℂ} {r : ℝ} : IsMinR u r ↔ IsLeastIn r (u.map rOf) := by
  unfold IsMinR IsLeastIn
  simp only [List.mem_map, forall_exists_index, and_imp, forall_apply_eq_imp_iff₂]
  exact ⟨fun ⟨h, z, hz, e⟩ => ⟨⟨z, hz, e.symm⟩, h⟩, fun ⟨⟨z, hz, e⟩, h⟩ => ⟨h, z, hz, e.symm⟩⟩

theorem isLeastIn_unique {vr : List ℝ} {r s : ℝ} (h : IsLeastIn r vr) (h' : IsLeastIn s vr) : r = s := le_antisymm (h.2 s h'.1) (h'.2 r h.1)

theorem isLeastIn_perm {vr wr : List ℝ} {r : ℝ} (h : vr.Perm wr) : IsLeastIn r vr ↔ IsLeastIn r wr := by
  unfold IsLeastIn
  simp only [h.mem_iff]

theorem isLeastIn_exists : ∀ {vr : List ℝ}, vr ≠ [] → ∃ r, IsLeastIn r vr
  | [], h => absurd rfl h
  | [a], _ => ⟨a, by simp [IsLeastIn]⟩
  | a :: b :: l, _ => by
    obtain ⟨r, h1, h2⟩ := isLeastIn_exists (List.cons_ne_nil b l)
    rcases le_total a r with h | h
    · exact ⟨a, List.mem_cons_self, fun s hs => (List.mem_cons.1 hs).elim (fun e => e.ge) fun hs => h.trans (h2 s hs)⟩
    · exact ⟨r, List.mem_cons_of_mem _ h1, fun s hs => (List.mem_cons.1 hs).elim (fun e => e ▸ h) fun hs => h2 s hs⟩

/-- the number of points for the ellipses of parameters `vr`, the smallest of which is `r0` -/
noncomputable def gcN (vr : List ℝ) (r0 : ℝ) (d prec : Nat) : Int := ⌈gcX vr r0 d prec⌉

/-- The precision is large enough for the ellipses of parameters `vr`: two explicit inequalities. -/
structure GcPrec (vr : List ℝ) (r0 : ℝ) (d prec : Nat) : Prop where
  /-- the ellipse chosen is not degenerate -/
  large : Real.arcosh r0 < gcA (gcC vr r0 d) (gcK vr r0) prec
  /-- `2^(1-prec)` is below the bound of the integrand -/
  small : 2 * (1 / 2 : ℝ) ^ prec ≤ 2 * Real.pi * (r0 ^ d / vr.prod ^ (1 / (2 : Nat) : ℝ))

/-- it depends on the parameters of the ellipses only, and not on their order -/
theorem gcConst_perm {vr wr : List ℝ} (h : vr.Perm wr) (r0 : ℝ) : gcQ vr r0 = gcQ wr r0 ∧ gcK vr r0 = gcK wr r0 := by
  classical
  constructor
  · unfold gcQ
    exact ((h.filter _).map _).prod_eq
  · unfold gcK
    exact h.count_eq _

theorem gcN_perm {vr wr : List ℝ} (h : vr.Perm wr) (r0 : ℝ) (d prec : Nat) : gcN vr r0 d prec = gcN wr r0 d prec := by
  have hR : gcR vr r0 d prec = gcR wr r0 d prec := by
    unfold gcR gcC
    rw [(gcConst_perm h r0).1, (gcConst_perm h r0).2]
  unfold gcN gcX gcM
  rw [hR, (h.map _).prod_eq]

theorem gcPrec_perm {vr wr : List ℝ} (h : vr.Perm wr) {r0 : ℝ} {d prec : Nat} (hp : GcPrec vr r0 d prec) : GcPrec wr r0 d prec := by
  obtain ⟨h1, h2⟩ := hp
  constructor
  · unfold gcC at h1 ⊢
    rwa [(gcConst_perm h r0).1, (gcConst_perm h r0).2] at h1
  · rwa [h.prod_eq] at h2

/-- a larger precision is large enough -/
theorem gcPrec_mono {vr : List ℝ} {r0 : ℝ} {d prec prec' : Nat} (hp : GcPrec vr r0 d prec) (h : prec ≤ prec') : GcPrec vr r0 d prec' := by
  obtain ⟨h1, h2⟩ := hp
  constructor
  · refine h1.trans_le ?_
    unfold gcA
    have hl := Real.log_pos one_lt_two
    have : (prec : ℝ) ≤ prec' := by exact_mod_cast h
    gcongr
  · refine le_trans ?_ h2
    have := pow_le_pow_of_le_one (by norm_num : (0 : ℝ) ≤ 1 / 2) (by norm_num) h
    linarith

/-- **C72 (large precisions).** All precisions from some precision on are large enough. -/
theorem C72_large {vr : List ℝ} {r0 : ℝ} (hr : IsLeastIn r0 vr) (h0 : 1 < r0) (d : Nat) : ∃ P0 : Nat, ∀ prec : Nat, P0 ≤ prec → GcPrec vr r0 d prec := by
  classical
  have hK : 0 < gcK vr r0 := List.count_pos_iff.2 hr.1
  have hc : 0 < 2 * Real.pi * (r0 ^ d / vr.prod ^ (1 / (2 : Nat) : ℝ)) := by
    have := Real.pi_pos
    have hQ0 : 0 < vr.prod := List.prod_pos fun v hv => by linarith [hr.2 v hv]
    have := Real.rpow_pos_of_pos hQ0 (1 / (2 : Nat) : ℝ)
    positivity
  have hlim : Tendsto (fun prec : ℕ => 2 * (1 / 2 : ℝ) ^ prec) atTop (𝓝 0) := by
    have := (tendsto_pow_atTop_nhds_zero_of_lt_one (r := (1 / 2 : ℝ)) (by norm_num) (by norm_num)).const_mul 2
    rwa [mul_zero] at this
  obtain ⟨P0, h⟩ := eventually_atTop.1 (((gcA_atTop (c := gcC vr r0 d) hK).eventually_gt_atTop (Real.arcosh r0)).and (hlim.eventually_le_const hc))
  exact ⟨P0, fun prec hp => ⟨(h prec hp).1, (h prec hp).2⟩⟩

theorem one_lt_of_min {u : List ℂ} (hu : ∀ z ∈ u, 1 < rOf z) {r0 : ℝ} (hr : IsMinR u r0) : 1 < r0 := by
  obtain ⟨_, z, hz, e⟩ := hr
  rw [e]
  exact hu z hz

theorem ne_nil_of_min {u : List ℂ} {r0 : ℝ} (hr : IsMinR u r0) : u ≠ [] := by
  rintro rfl
  obtain ⟨_, z, hz, -⟩ := hr
  simp at hz

/-- everything about `gc_params` on exact numbers -/
theorem gcParams_at {u : List ℂ} (hu : ∀ z ∈ u, 1 < rOf z) {r0 : ℝ} (hr : IsMinR u r0) {d prec : Nat} (hp : GcPrec (u.map rOf) r0 d prec) (fuel : Nat) :
    (∀ p, gcParams exactPar exactDbl fuel u d prec = .ok p → p.n = gcN (u.map rOf) r0 d prec ∧ p.r0 = r0 ∧ 1 < p.r ∧ p.r < r0 ∧ 1 ≤ p.n ∧ ∃ e, p.e = some e ∧ e ≤ 2 ^ (1 - prec : Int)) ∧
      (2 ≤ fuel → FitsSlong (gcN (u.map rOf) r0 d prec) → FitsSlong (2 * gcN (u.map rOf) r0 d prec) → ∃ p, gcParams exactPar exactDbl fuel u d prec = .ok p) := by
  obtain ⟨r1, h0, hmin, hmem, H⟩ := gcParams_exact (ne_nil_of_min hr) hu d
  obtain rfl := isMinR_unique hr ⟨hmin, hmem⟩
  obtain ⟨hA, hbig⟩ := hp
  obtain ⟨b1, b2, b3, b4⟩ := H fuel prec hA
  refine ⟨fun p hp => ?_, b4⟩
  -- the bound of the integrand
  have hQ : (u.map rOf).prod = ∏ k ∈ Finset.range u.length, rOf (u.getD k 0) := by
    rw [Finset.prod_range, ← List.prod_ofFn]
    congr 1
    refine List.ext_getElem (by simp) fun i h1 h2 => ?_
    simp at h1
    simp
  rw [hQ] at hbig
  set Q : ℝ := ∏ k ∈ Finset.range u.length, rOf (u.getD k 0) with hQ
  have hpos : ∀ k ∈ Finset.range u.length, r0 ≤ rOf (u.getD k 0) := by
    intro k hk
    rw [List.getD_eq_getElem?_getD, List.getElem?_eq_getElem (Finset.mem_range.1 hk)]
    exact hmin _ (List.getElem_mem _)
  have hQ0 : 0 < Q := Finset.prod_pos fun k hk => by linarith [hpos k hk]
  obtain ⟨c1, c2, c3⟩ := b3 p hp
  refine ⟨c1, c3, by rw [c2]; exact b1, by rw [c2]; exact b2, ?_⟩
  refine C45_precision hp (by rw [c2]; exact b1) (by rw [c2, c3]; exact b2.le) ?_
  rw [c2, c3]
  have e : (2 : ℝ) ^ (1 - (prec : Int)) = 2 * (1 / 2 : ℝ) ^ prec := by
    rw [zpow_sub₀ (by norm_num), zpow_one, zpow_natCast, div_eq_mul_inv, one_div, inv_pow]
  rw [e]
  refine hbig.trans ?_
  have hP : 0 < ∏ k ∈ Finset.range u.length, (rOf (u.getD k 0) - gcR (u.map rOf) r0 d prec) := Finset.prod_pos fun k hk => by linarith [hpos k hk]
  have hle : ∏ k ∈ Finset.range u.length, (rOf (u.getD k 0) - gcR (u.map rOf) r0 d prec) ≤ Q :=
    Finset.prod_le_prod (fun k hk => by linarith [hpos k hk]) fun k hk => by linarith
  have hr0 : 0 ≤ r0 ^ d := by positivity
  have hPr := Real.rpow_pos_of_pos hP (1 / (2 : Nat) : ℝ)
  have := Real.pi_pos
  gcongr

/-- there is at least one point -/
theorem gcN_pos {u : List ℂ} (hu : ∀ z ∈ u, 1 < rOf z) {r0 : ℝ} (hr : IsMinR u r0) {d prec : Nat} (hp : GcPrec (u.map rOf) r0 d prec) : 1 ≤ gcN (u.map rOf) r0 d prec := by
  have h0 := one_lt_of_min hu hr
  obtain ⟨-, b1, b2⟩ := gcParLoop_exact h0 hr.1 hr.2 hp.large 0
  have hmin := (isMinR_iff.1 hr).2
  generalize u.map rOf = vr at hp b1 b2 hmin ⊢
  set ρ := gcR vr r0 d prec with hρ
  have hQ : 0 < (vr.map fun v => v - ρ).prod := List.prod_pos fun w hw => by
    obtain ⟨v, hv, rfl⟩ := List.mem_map.1 hw
    linarith [hmin v hv]
  have hle : (vr.map fun v => v - ρ).prod ≤ vr.prod := by
    have : ∀ l : List ℝ, (∀ v ∈ l, r0 ≤ v) → (l.map fun v => v - ρ).prod ≤ l.prod := by
      intro l
      induction l with
      | nil => simp
      | cons v l ih =>
        intro h
        have h1 := h v List.mem_cons_self
        have h2 := ih fun w hw => h w (List.mem_cons_of_mem _ hw)
        have h3 : 0 < (l.map fun v => v - ρ).prod := List.prod_pos fun w hw => by
          obtain ⟨v, hv, rfl⟩ := List.mem_map.1 hw
          linarith [h v (List.mem_cons_of_mem _ hv)]
        rw [List.map_cons, List.prod_cons, List.prod_cons]
        exact mul_le_mul (by linarith) h2 h3.le (by linarith)
    exact this vr hmin
  have hM : 0 < gcM vr r0 d prec := by
    have hpi := Real.pi_pos
    have h1 := Real.log_le_log (by positivity) hp.small
    have hv : 0 < vr.prod := hQ.trans_le hle
    have hv2 := Real.rpow_pos_of_pos hv (1 / (2 : Nat) : ℝ)
    rw [Real.log_mul (by norm_num) (by positivity), Real.log_pow, Real.log_mul (by positivity) (by positivity), Real.log_div (by positivity) hv2.ne', Real.log_pow, Real.log_rpow hv, one_div (2 : ℝ), Real.log_inv] at h1
    have h2 := Real.log_le_log hQ hle
    have h3 := Real.log_pos one_lt_two
    unfold gcM
    rw [← hρ, Real.log_sqrt (by positivity), zpow_one, zpow_neg_one]
    push_cast at h1 ⊢
    linarith
  unfold gcN
  refine Int.ceil_pos.2 ?_
  unfold gcX
  rw [← hρ, zpow_neg_one]
  have := Real.arcosh_pos b1
  positivity

/-- **C72 (parameters).** Let the points `u` (at least one, none on `[-1, 1]`) be exact numbers, and let the precision be large enough (`GcPrec`).  Whenever `gc_params` returns, the ellipse it settles on encloses no point and is not degenerate, there
are `gcN` nodes, at least one, and the error returned is at most `2^(1-prec)`.  So the hypotheses of `C45_error_partial` hold. -/
theorem C72_params {u : List ℂ} (hu : ∀ z ∈ u, 1 < rOf z) {r0 : ℝ} (hr : IsMinR u r0) {d prec : Nat} (hprec : GcPrec (u.map rOf) r0 d prec) {fuel : Nat} {p : GcPar} (hp : gcParams exactPar exactDbl fuel u d prec = .ok p) :
    1 < p.r ∧ p.r < p.r0 ∧ p.r0 = r0 ∧ (∀ z ∈ u, p.r0 ≤ rOf z) ∧ p.n = gcN (u.map rOf) r0 d prec ∧ 1 ≤ p.n ∧ ∃ e, p.e = some e ∧ e ≤ 2 ^ (1 - prec : Int) := by
  obtain ⟨a1, a2, a3, a4, a5, a6⟩ := (gcParams_at hu hr hprec fuel).1 p hp
  exact ⟨a3, by rw [a2]; exact a4, a2, by rw [a2]; exact hr.1, a1, a5, a6⟩

/-- **C72 (error).** At large precision (`GcPrec`), with the number of points returned (or more) the Gauss-Chebyshev sum of `x^i / y`, `i ≤ d`, differs from the integral by at most `2^(1-prec)`. -/
theorem C72_error {u : List ℂ} (hu : ∀ z ∈ u, 1 < rOf z) {r0 : ℝ} (hr : IsMinR u r0) {d prec : Nat} (hprec : GcPrec (u.map rOf) r0 d prec) {fuel : Nat} {p : GcPar} (hp : gcParams exactPar exactDbl fuel u d prec = .ok p)
    {N : Nat} (hN : p.n ≤ N) {i : Nat} (hi : i ≤ d) {n1 : Nat} (hn1 : n1 ≤ u.length) :
    ‖(Real.pi / N : ℂ) * ∑ k ∈ Finset.range N, (Real.cos ((2 * k + 1) / (2 * N) * Real.pi) : ℂ) ^ i /
          edgeY 2 n1 u.length (fun k => u.getD k 0) (Real.cos ((2 * k + 1) / (2 * N) * Real.pi)) -
        ∫ x in (-1 : ℝ)..1, (x : ℂ) ^ i / edgeY 2 n1 u.length (fun k => u.getD k 0) x * ((√(1 - x ^ 2)⁻¹ : ℝ) : ℂ)‖ ≤ 2 ^ (1 - prec : Int) := by
  obtain ⟨a1, a2, -, -, -, a4, e, a5, a6⟩ := C72_params hu hr hprec hp
  exact (C45_error_partial exactPar_sound (List.forall₂_same.2 fun _ _ => rfl) hp a5 a1 a2.le a4 hN hi hn1).trans a6

/-- **C72 (rate).** The number of points grows like `prec * log 2 / (2 arcosh r0)`, where `r0` is the parameter of the smallest ellipse through a point. -/
theorem C72_rate {vr : List ℝ} {r0 : ℝ} (hr : IsLeastIn r0 vr) (h0 : 1 < r0) (d : Nat) :
    Tendsto (fun prec : ℕ => (gcN vr r0 d prec : ℝ) / prec) atTop (𝓝 (Real.log 2 / (2 * Real.arcosh r0))) := ceil_rate (gcX_rate h0 hr d)

/-- **C72 (termination).** At large precision two rounds of the loop of `gc_params` are enough; it returns exactly when twice the number of points fits in a machine integer. -/
theorem C72_returns {u : List ℂ} (hu : ∀ z ∈ u, 1 < rOf z) {r0 : ℝ} (hr : IsMinR u r0) {d prec : Nat} (hprec : GcPrec (u.map rOf) r0 d prec) {fuel : Nat} (hf : 2 ≤ fuel) :
    (∃ p, gcParams exactPar exactDbl fuel u d prec = .ok p) ↔ 2 * gcN (u.map rOf) r0 d prec < 2 ^ 63 := by
  have hpos := gcN_pos hu hr hprec
  constructor
  · rintro ⟨p, hp⟩
    obtain ⟨-, -, -, -, h1, h2, -⟩ := C72_params hu hr hprec hp
    unfold gcParams at hp
    simp only [Res.bind_eq_ok] at hp
    obtain ⟨s, -, t, -, n, -, n2, hc, hp⟩ := hp
    have hn : n = gcN (u.map rOf) r0 d prec := by rw [← h1, ← Res.ok.inj hp]
    unfold chk at hc
    split at hc
    · rename_i h
      rw [hn] at h
      unfold FitsSlong slongMin slongMax at h
      omega
    · cases hc
  · intro h2
    refine (gcParams_at hu hr hprec fuel).2 hf ?_ ?_ <;> unfold FitsSlong slongMin slongMax <;> constructor <;> omega

/-- **C72 (order).** The number of points is ordered by the parameter of the ellipse at large precision: if the smallest ellipse of `vr` is strictly inside that of `wr`, then from some precision on `vr` needs more points than `wr`.
So the nodes computed for an edge of smallest parameter serve all the others. -/
theorem C72_order {vr wr : List ℝ} {r s : ℝ} (hr : IsLeastIn r vr) (hs : IsLeastIn s wr) (h1 : 1 < r) (hrs : r < s) (d : Nat) :
    ∃ P0 : Nat, ∀ prec : Nat, P0 ≤ prec → gcN wr s d prec < gcN vr r d prec := by
  have hR := Real.arcosh_pos h1
  have hRS : Real.arcosh r < Real.arcosh s := (Real.arcosh_lt_arcosh (by linarith) (by linarith)).2 hrs
  have hlim : Real.log 2 / (2 * Real.arcosh s) < Real.log 2 / (2 * Real.arcosh r) := div_lt_div_of_pos_left (Real.log_pos one_lt_two) (by linarith) (by linarith)
  obtain ⟨P0, k⟩ := eventually_atTop.1 (((C72_rate hs (h1.trans hrs) d).eventually_lt (C72_rate hr h1 d) hlim).and (eventually_gt_atTop 0))
  refine ⟨P0, fun prec hp => ?_⟩
  obtain ⟨a3, a4⟩ := k prec hp
  have hp0 : (0 : ℝ) < prec := by exact_mod_cast a4
  exact_mod_cast (div_lt_div_iff_of_pos_right hp0).1 a3

/-! ## Instances -/

theorem arcosh_two : 1 ≤ Real.arcosh 2 ∧ Real.arcosh 2 ≤ 2 := by
  have e1 := Real.exp_one_lt_d9
  have e2 := Real.exp_one_gt_d9
  constructor
  · rw [← Real.arcosh_cosh zero_le_one]
    refine (Real.arcosh_le_arcosh (Real.cosh_pos _) (by norm_num)).2 ?_
    rw [Real.cosh_eq]
    have : Real.exp (-1) ≤ 1 := Real.exp_le_one_iff.2 (by norm_num)
    linarith
  · rw [← Real.arcosh_cosh (zero_le_two (α := ℝ))]
    refine (Real.arcosh_le_arcosh (by rw [Real.arcosh_cosh zero_le_two]; norm_num) (by positivity)).2 ?_
    rw [Real.arcosh_cosh zero_le_two, Real.cosh_eq, show Real.exp 2 = Real.exp 1 * Real.exp 1 by rw [← Real.exp_add]; norm_num]
    have : 0 < Real.exp (-2) := Real.exp_pos _
    nlinarith

theorem gcConst_two : gcQ [2] 2 = 1 ∧ gcK [2] 2 = 1 ∧ gcC [2] 2 1 = Real.log (2 * Real.pi) + Real.log 2 := by
  classical
  have h : gcQ [2] 2 = 1 := by simp [gcQ]
  refine ⟨h, by simp [gcK], ?_⟩
  unfold gcC
  rw [h, Real.log_sqrt (by have := Real.pi_pos; positivity)]
  simp

theorem log_two_pi : 0 < Real.log (2 * Real.pi) ∧ Real.log (2 * Real.pi) ≤ 6 := by
  have h1 := Real.pi_gt_three
  have h2 := Real.pi_le_four
  refine ⟨Real.log_pos (by linarith), ?_⟩
  have := Real.log_le_sub_one_of_pos (show 0 < 2 * Real.pi / 2 by linarith)
  have e : Real.log (2 * Real.pi) = Real.log (2 * Real.pi / 2) + Real.log 2 := by
    rw [← Real.log_mul (by positivity) (by norm_num)]
    congr 1
    ring
  have := Real.log_two_lt_d9
  linarith

/-- one ellipse of parameter `2`: all precisions from `3` on are large enough -/
theorem gcPrec_two {prec : Nat} (hp : 3 ≤ prec) : GcPrec [2] 2 1 prec := by
  obtain ⟨-, hK, hC⟩ := gcConst_two
  have h1 := log_two_pi
  have h2 := Real.log_two_gt_d9
  have hp' : (3 : ℝ) ≤ prec := by exact_mod_cast hp
  constructor
  · unfold gcA
    rw [hK, hC]
    have := arcosh_two.2
    simp only [Nat.cast_one, div_one]
    nlinarith
  · have h3 : (1 / 2 : ℝ) ^ prec ≤ 1 := pow_le_one₀ (by norm_num) (by norm_num)
    have h4 : ([2] : List ℝ).prod ^ (1 / (2 : Nat) : ℝ) ≤ 2 := by
      simp only [List.prod_cons, List.prod_nil, mul_one]
      calc (2 : ℝ) ^ (1 / (2 : Nat) : ℝ) ≤ 2 ^ (1 : ℝ) := Real.rpow_le_rpow_of_exponent_le (by norm_num) (by norm_num)
        _ = 2 := Real.rpow_one 2
    have h5 : 0 < ([2] : List ℝ).prod ^ (1 / (2 : Nat) : ℝ) := by
      simp only [List.prod_cons, List.prod_nil, mul_one]
      positivity
    have h6 : 1 ≤ (2 : ℝ) ^ 1 / ([2] : List ℝ).prod ^ (1 / (2 : Nat) : ℝ) := by
      rw [le_div_iff₀ h5]
      linarith
    have := Real.pi_gt_three
    nlinarith

theorem cosh_gap {S h : ℝ} (hS : 0 ≤ S) (hh : 0 ≤ h) : h * S ≤ Real.cosh (S + h) - Real.cosh S := by
  rw [Real.cosh_add]
  have h1 := Real.self_le_sinh_iff.2 hS
  have h2 := Real.self_le_sinh_iff.2 hh
  have h3 := Real.one_le_cosh h
  have h4 := Real.cosh_pos S
  nlinarith

/-- one ellipse of parameter `2`: the number of points is at most `5 prec + 38` -/
theorem gcN_two {prec : Nat} (hp : 3 ≤ prec) : 1 ≤ gcN [2] 2 1 prec ∧ gcN [2] 2 1 prec ≤ 5 * prec + 38 := by
  obtain ⟨-, hK, hC⟩ := gcConst_two
  obtain ⟨R1, R2⟩ := arcosh_two
  have h1 := log_two_pi
  have h2 := Real.log_two_gt_d9
  have h2' := Real.log_two_lt_d9
  have hp' : (3 : ℝ) ≤ prec := by exact_mod_cast hp
  have hcosh : Real.cosh (Real.arcosh 2) = 2 := Real.cosh_arcosh (by norm_num)
  set R := Real.arcosh 2 with hR
  set A := gcA (gcC [2] 2 1) (gcK [2] 2) prec with hA
  have hA' : A = 1 + 2 * (Real.log (2 * Real.pi) + Real.log 2 + Real.log 2 * prec) := by
    rw [hA]
    unfold gcA
    rw [hK, hC]
    simp
  have A1 : 4 ≤ A := by rw [hA']; nlinarith
  have A2 : A ≤ 15 + 2 * prec := by rw [hA']; nlinarith
  set B := gcB (gcC [2] 2 1) (gcK [2] 2) R prec with hB
  have hB' : B = A + Real.log (A / R) := rfl
  have B1 : A ≤ B := by
    rw [hB']
    have := Real.log_nonneg (show 1 ≤ A / R by rw [le_div_iff₀ (by linarith)]; linarith)
    linarith
  have B2 : B ≤ 30 + 4 * prec := by
    have h3 : A / R ≤ A := div_le_self (by linarith) R1
    have := Real.log_le_sub_one_of_pos (show 0 < A / R by apply div_pos <;> linarith)
    rw [hB']
    linarith
  set ε := R / B with hε
  have hBR : 0 < B := by linarith
  have E1 : ε ≤ 1 / 2 := by
    rw [hε, div_le_iff₀ hBR]
    linarith
  have E0 : 0 < ε := by apply div_pos <;> linarith
  have hS : 0 ≤ R * (1 - ε) := by apply mul_nonneg <;> linarith
  have hr : gcR [2] 2 1 prec = Real.cosh (R * (1 - ε)) := rfl
  have hg1 : R * ε * (R * (1 - ε)) ≤ 2 - gcR [2] 2 1 prec := by
    have := cosh_gap hS (show 0 ≤ R * ε by positivity)
    rw [show R * (1 - ε) + R * ε = R by ring, hcosh] at this
    rw [hr]
    exact this
  have hg2 : ε / 2 ≤ 2 - gcR [2] 2 1 prec := by
    refine le_trans ?_ hg1
    have : 1 ≤ R * R := by nlinarith
    have : 0 < ε * (1 - ε) := by apply mul_pos <;> linarith
    nlinarith
  have hg3 : 2 - gcR [2] 2 1 prec ≤ 1 := by
    rw [hr]
    linarith [Real.one_le_cosh (R * (1 - ε))]
  have hg4 : 1 / (60 + 8 * (prec : ℝ)) ≤ ε / 2 := by
    rw [hε, div_div, div_le_div_iff₀ (by positivity) (by positivity)]
    nlinarith
  have hpos : 0 < 2 - gcR [2] 2 1 prec := by linarith
  have hM : gcM [2] 2 1 prec = Real.log (2 * Real.pi) + Real.log 2 + Real.log 2 * prec - Real.log (2 - gcR [2] 2 1 prec) / 2 := by
    unfold gcM
    rw [Real.log_sqrt (by have := Real.pi_pos; positivity)]
    simp only [List.map_cons, List.map_nil, List.prod_cons, List.prod_nil, mul_one, zpow_one, zpow_neg_one]
    push_cast
    ring
  have hl1 : Real.log (2 - gcR [2] 2 1 prec) ≤ 0 := Real.log_nonpos hpos.le hg3
  have hl2 : -(60 + 8 * (prec : ℝ)) ≤ Real.log (2 - gcR [2] 2 1 prec) := by
    have h3 := Real.log_le_log (by positivity) (hg4.trans hg2)
    have h4 := Real.log_le_sub_one_of_pos (show (0 : ℝ) < 60 + 8 * prec by positivity)
    rw [one_div, Real.log_inv] at h3
    linarith
  have hX : gcX [2] 2 1 prec = gcM [2] 2 1 prec / (2 * (R * (1 - ε))) := by
    unfold gcX
    rw [hr, Real.arcosh_cosh hS, zpow_neg_one, ← div_eq_mul_inv, div_div, mul_comm (2 : ℝ)]
  have hden : 1 ≤ 2 * (R * (1 - ε)) := by nlinarith
  have hM0 : 0 < gcM [2] 2 1 prec := by rw [hM]; nlinarith
  have hM1 : gcM [2] 2 1 prec ≤ 5 * prec + 38 := by rw [hM]; nlinarith
  unfold gcN
  rw [hX]
  constructor
  · have : 0 < gcM [2] 2 1 prec / (2 * (R * (1 - ε))) := div_pos hM0 (by linarith)
    exact Int.ceil_pos.2 this
  · refine Int.ceil_le.2 ?_
    push_cast
    exact (div_le_self hM0.le hden).trans hM1

theorem rOf_two : rOf (2 : ℂ) = 2 := by
  unfold rOf
  rw [show (2 : ℂ) - 1 = ((1 : ℝ) : ℂ) by push_cast; ring, show (2 : ℂ) + 1 = ((3 : ℝ) : ℂ) by push_cast; ring, Complex.norm_real, Complex.norm_real]
  norm_num

theorem rOf_three : rOf (-3 : ℂ) = 3 := by
  unfold rOf
  rw [show (-3 : ℂ) - 1 = ((-4 : ℝ) : ℂ) by push_cast; ring, show (-3 : ℂ) + 1 = ((-2 : ℝ) : ℂ) by push_cast; ring, Complex.norm_real, Complex.norm_real]
  norm_num

/-- the point `2`: `gc_params` returns for all precisions from `3` to `2^58`, and the hypotheses of the theorems hold -/
example {prec fuel : Nat} (h1 : 3 ≤ prec) (h2 : prec < 2 ^ 58) (hf : 2 ≤ fuel) :
    (∀ z ∈ [(2 : ℂ)], 1 < rOf z) ∧ IsMinR [2] 2 ∧ GcPrec ([(2 : ℂ)].map rOf) 2 1 prec ∧ ∃ p, gcParams exactPar exactDbl fuel [2] 1 prec = .ok p := by
  have e : [(2 : ℂ)].map rOf = [2] := by simp [rOf_two]
  have hu : ∀ z ∈ [(2 : ℂ)], 1 < rOf z := by simp [rOf_two]
  have hm : IsMinR [2] 2 := by simp [IsMinR, rOf_two]
  have hg : GcPrec ([(2 : ℂ)].map rOf) 2 1 prec := by rw [e]; exact gcPrec_two h1
  refine ⟨hu, hm, hg, (C72_returns hu hm hg hf).2 ?_⟩
  rw [e]
  have := gcN_two h1
  omega

/-- the points `2` and `-3`: two ellipses of parameters `2` and `3` -/
example : (∀ z ∈ [(2 : ℂ), -3], 1 < rOf z) ∧ IsMinR [2, -3] 2 ∧ IsLeastIn 2 [2, 3] ∧ IsLeastIn 3 [3] := by
  refine ⟨?_, ⟨?_, 2, by simp, rOf_two.symm⟩, ⟨by simp, ?_⟩, by simp [IsLeastIn]⟩
  all_goals
    intro z hz
    simp only [List.mem_cons, List.not_mem_nil, or_false] at hz
  · rcases hz with rfl | rfl
    · rw [rOf_two]; norm_num
    · rw [rOf_three]; norm_num
  · rcases hz with rfl | rfl
    · rw [rOf_two]
    · rw [rOf_three]; norm_num
  · rcases hz with rfl | rfl <;> norm_num

end Hcp
