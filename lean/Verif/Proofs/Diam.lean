import Verif.Proofs.EdgeFactors
import Verif.Props.CurveInst
import Verif.Proofs.Periods

/-! # Size of the sets computed by `integrals_edge_factors` -/

namespace Hcp

open Set

/-- two points of `s` are at distance at most `e` -/
def DiamLe (s : Set ℂ) (e : ℝ) : Prop := ∀ w ∈ s, ∀ w' ∈ s, ‖w - w'‖ ≤ e

theorem DiamLe.mono {s : Set ℂ} {e f : ℝ} (h : DiamLe s e) (hf : e ≤ f) : DiamLe s f := fun w hw w' hw' => (h w hw w' hw').trans hf

/-- the complex number `t` is a bound for the diameter of `s` -/
def RelD (s : Set ℂ) (t : ℂ) : Prop := ∃ e : ℝ, t = e ∧ DiamLe s e

/-- the set `s` is a point of absolute value `t` -/
def RelP (s : Set ℂ) (t : ℂ) : Prop := ∃ a : ℂ, s = {a} ∧ t = ((‖a‖ : ℝ) : ℂ)

theorem relD_add {s s' : Set ℂ} {t t' : ℂ} (h : RelD s t) (h' : RelD s' t') : RelD (setArith.add s s') (exact.add t t') := by
  obtain ⟨e, rfl, h⟩ := h
  obtain ⟨e', rfl, h'⟩ := h'
  refine ⟨e + e', by simp [exact], ?_⟩
  rintro _ ⟨a, ha, b, hb, rfl⟩ _ ⟨a', ha', b', hb', rfl⟩
  have e1 : exact.add a b - exact.add a' b' = (a - a') + (b - b') := by simp only [exact]; ring
  show ‖exact.add a b - exact.add a' b'‖ ≤ _
  rw [e1]
  exact (norm_add_le _ _).trans (add_le_add (h a ha a' ha') (h' b hb b' hb'))

theorem relD_mul {s s' : Set ℂ} {t t' : ℂ} (h : RelD s t) (h' : RelP s' t') : RelD (setArith.mul s s') (exact.mul t t') := by
  obtain ⟨e, rfl, h⟩ := h
  obtain ⟨c, rfl, rfl⟩ := h'
  refine ⟨e * ‖c‖, by simp [exact], ?_⟩
  rintro _ ⟨a, ha, b, hb, rfl⟩ _ ⟨a', ha', b', hb', rfl⟩
  rw [mem_singleton_iff] at hb hb'
  have e1 : exact.mul a b - exact.mul a' b' = (a - a') * c := by rw [hb, hb']; simp only [exact]; ring
  show ‖exact.mul a b - exact.mul a' b'‖ ≤ _
  rw [e1, norm_mul]
  exact mul_le_mul_of_nonneg_right (h a ha a' ha') (norm_nonneg _)

theorem relP_mul {s s' : Set ℂ} {t t' : ℂ} (h : RelP s t) (h' : RelP s' t') : RelP (setArith.mul s s') (exact.mul t t') := by
  obtain ⟨a, rfl, rfl⟩ := h
  obtain ⟨b, rfl, rfl⟩ := h'
  exact ⟨a * b, setArith_pt.mul rfl rfl, by simp [exact]⟩

theorem addmulCell_diam {sz i j : Nat} {c : Set ℂ} {d : ℂ} {x : Nat → Set ℂ} {y : Nat → ℂ} (hc : RelP c d) (h : RelV RelD x y) :
    RelRes (RelV RelD) (addmulCell setArith sz i j c x) (addmulCell exact sz i j d y) :=
  (rdV_rel h).bind fun _ _ h1 => (rdV_rel h).bind fun _ _ h2 => wrV_rel h (relD_add h1 (relD_mul h2 hc))

theorem mulCell_diam {sz i : Nat} {c : Set ℂ} {d : ℂ} {x : Nat → Set ℂ} {y : Nat → ℂ} (hc : RelP c d) (h : RelV RelD x y) :
    RelRes (RelV RelD) (mulCell setArith sz i c x) (mulCell exact sz i d y) :=
  (rdV_rel h).bind fun _ _ h1 => wrV_rel h (relD_mul h1 hc)

theorem polyShift_diam {sz off len : Nat} {c : Set ℂ} {d : ℂ} {x : Nat → Set ℂ} {y : Nat → ℂ} (hc : RelP c d) (h : RelV RelD x y) :
    RelRes (RelV RelD) (polyShift setArith sz off len c x) (polyShift exact sz off len d y) := by
  unfold polyShift
  refine loopUp_rel (fun _ _ _ h => ?_) _ _ _ _ h
  refine loopDown_rel (fun _ _ _ h => ?_) _ _ _ _ h
  exact addmulCell_diam hc h

theorem scalarMul_diam {sz off len : Nat} {c : Set ℂ} {d : ℂ} {x : Nat → Set ℂ} {y : Nat → ℂ} (hc : RelP c d) (h : RelV RelD x y) :
    RelRes (RelV RelD) (scalarMul setArith sz off len c x) (scalarMul exact sz off len d y) := by
  unfold scalarMul
  refine loopUp_rel (fun _ _ _ h => ?_) _ _ _ _ h
  exact mulCell_diam hc h

theorem mulGeom_diam {sz off len : Nat} {c0 c : Set ℂ} {d0 d : ℂ} {x : Nat → Set ℂ} {y : Nat → ℂ} (hc0 : RelP c0 d0) (hc : RelP c d) (h : RelV RelD x y) :
    RelRes (fun s t => RelV RelD s.1 t.1 ∧ RelP s.2 t.2) (mulGeom setArith sz off len c0 c x) (mulGeom exact sz off len d0 d y) := by
  unfold mulGeom
  refine (mulCell_diam hc0 h).bind fun x0 y0 h1 => ?_
  refine loopUp_rel (RS := fun s t => RelV RelD s.1 t.1 ∧ RelP s.2 t.2) (fun k s t h => ?_) _ _ (x0, c0) (y0, d0) ⟨h1, hc0⟩
  exact (mulCell_diam (relP_mul h.2 hc) h.1).bind fun _ _ h3 => .ok ⟨h3, relP_mul h.2 hc⟩

/-- bound for the size of cell `i` of a block after `integrals_edge_factors` -/
noncomputable def edgeSize (m j : Nat) (ba2 ab cab : ℂ) (t : Nat → ℂ) (i : Nat) : ℂ :=
  ((‖(1 - exact.unitRoot m ^ ((m - j) % m)) / cab ^ j‖ : ℝ) : ℂ) * ((‖ba2‖ : ℝ) : ℂ) ^ (i + 1) * bsum ((‖ab‖ : ℝ) : ℂ) t i i

theorem edgeFactorsStep_diam (c : Shape) (ba2 ab cab : ℂ) (j nij off : Nat) (x : Nat → Set ℂ) (t : Nat → ℂ) (hx : RelV RelD x t) (hm : 0 < c.m) (hn : 0 < nij) (h : off + nij ≤ c.g) :
    ∃ y s, edgeFactorsStep setArith c {ba2} {ab} {cab} j nij (x, off) = .ok (y, off + nij) ∧ RelV RelD y s ∧ Frame off nij t s ∧ ∀ i < nij, s (off + i) = edgeSize c.m (c.j1 + j) ba2 ab cab (fun l => t (off + l)) i := by
  obtain ⟨t1, e1, f1, h1⟩ := polyShift_spec h ((‖ab‖ : ℝ) : ℂ) t
  have r1 := polyShift_diam (sz := c.g) (off := off) (len := nij) (c := {ab}) ⟨ab, rfl, rfl⟩ hx
  rw [e1] at r1
  obtain ⟨y1, q1, g1⟩ := r1.ok_left
  obtain ⟨t2, e2, f2, h2⟩ := mulGeom_spec hn h ((‖ba2‖ : ℝ) : ℂ) ((‖ba2‖ : ℝ) : ℂ) t1
  have r2 := mulGeom_diam (sz := c.g) (off := off) (len := nij) (c0 := {ba2}) (c := {ba2}) ⟨ba2, rfl, rfl⟩ ⟨ba2, rfl, rfl⟩ g1
  rw [e2] at r2
  obtain ⟨⟨y2, b2⟩, q2, g2, -⟩ := r2.ok_left
  have hz : rdV c.m (unitRoots setArith c.m) ((c.m - c.j1 - j) % c.m) = .ok {exact.unitRoot c.m ^ ((c.m - (c.j1 + j)) % c.m)} := by
    rw [rdV_ok (Nat.mod_lt _ hm), Nat.sub_sub]
    exact congrArg Res.ok (setArith_pt.pow _ (setArith_pt.unitRoot _))
  have hcj : setArith.div (setArith.neg (setArith.sub {exact.unitRoot c.m ^ ((c.m - (c.j1 + j)) % c.m)} setArith.one)) (setArith.pow {cab} (c.j1 + j))
      = {(1 - exact.unitRoot c.m ^ ((c.m - (c.j1 + j)) % c.m)) / cab ^ (c.j1 + j)} := by
    rw [setArith_pt.div (setArith_pt.neg (setArith_pt.sub rfl setArith_pt.one)) (setArith_pt.pow _ rfl)]
    congr 1
    simp only [exact]
    ring
  obtain ⟨t3, e3, f3, h3⟩ := scalarMul_spec h ((‖(1 - exact.unitRoot c.m ^ ((c.m - (c.j1 + j)) % c.m)) / cab ^ (c.j1 + j)‖ : ℝ) : ℂ) t2
  have r3 := scalarMul_diam (sz := c.g) (off := off) (len := nij) (c := {(1 - exact.unitRoot c.m ^ ((c.m - (c.j1 + j)) % c.m)) / cab ^ (c.j1 + j)}) ⟨_, rfl, rfl⟩ g2
  rw [e3] at r3
  obtain ⟨y3, q3, g3⟩ := r3.ok_left
  refine ⟨y3, t3, ?_, g3, ?_, ?_⟩
  · simp only [edgeFactorsStep, q1, q2, hz, hcj, q3, Res.ok_bind]
  · intro i hi
    rw [f3 i hi, f2 i hi, f1 i hi]
  · intro i hi
    rw [h3 i hi, h2 i hi, h1 i hi]
    unfold edgeSize
    rw [pow_succ]
    ring

theorem edgeFactorsLoop_diam (c : Shape) (ba2 ab cab : ℂ) (hm : 0 < c.m) :
    ∀ (ni : List Nat) (j off : Nat) (x : Nat → Set ℂ) (t : Nat → ℂ), RelV RelD x t → (∀ k ∈ ni, 0 < k) → off + ni.sum ≤ c.g →
      ∃ y s, edgeFactorsLoop setArith c {ba2} {ab} {cab} j ni (x, off) = .ok (y, off + ni.sum) ∧ RelV RelD y s ∧ Frame off ni.sum t s ∧
        ∀ (k i nij : Nat), ni[k]? = some nij → i < nij → s (off + (ni.take k).sum + i) = edgeSize c.m (c.j1 + (j + k)) ba2 ab cab (fun l => t (off + (ni.take k).sum + l)) i
  | [], j, off, x, t, hx, _, _ => ⟨x, t, rfl, hx, fun _ _ => rfl, by simp⟩
  | nij :: rest, j, off, x, t, hx, hpos, hsum => by
    simp only [List.sum_cons] at hsum
    obtain ⟨y1, s1, e1, g1, f1, h1⟩ := edgeFactorsStep_diam c ba2 ab cab j nij off x t hx hm (hpos nij (by simp)) (by omega)
    obtain ⟨y2, s2, e2, g2, f2, h2⟩ := edgeFactorsLoop_diam c ba2 ab cab hm rest (j + 1) (off + nij) y1 s1 g1 (fun k hk => hpos k (by simp [hk])) (by omega)
    refine ⟨y2, s2, ?_, g2, ?_, ?_⟩
    · simp only [edgeFactorsLoop, e1, Res.ok_bind, e2, List.sum_cons, Nat.add_assoc]
    · intro i hi
      simp only [List.sum_cons] at hi
      rw [f2 i (by omega), f1 i (by omega)]
    · intro k i n hk hi
      cases k with
      | zero =>
        simp only [List.getElem?_cons_zero, Option.some.injEq] at hk
        subst hk
        simp only [List.take_zero, List.sum_nil, Nat.add_zero]
        rw [f2 (off + i) (by omega), h1 i hi]
      | succ k =>
        simp only [List.getElem?_cons_succ] at hk
        have h3 := h2 k i n hk hi
        simp only [List.take_succ_cons, List.sum_cons, ← Nat.add_assoc]
        rw [h3, show c.j1 + (j + 1 + k) = c.j1 + j + k + 1 by omega]
        have : (fun l => s1 (off + nij + (rest.take k).sum + l)) = fun l => t (off + nij + (rest.take k).sum + l) := by
          funext l
          exact f1 _ (by omega)
        rw [this]

theorem edgeFactors_diam (c : Shape) (ba2 ab cab : ℂ) (hm : 0 < c.m) (x : Nat → Set ℂ) (t : Nat → ℂ) (hx : RelV RelD x t) (hpos : ∀ k ∈ c.ni, 0 < k) (hsum : c.ni.sum ≤ c.g) :
    ∃ y s, edgeFactors setArith c {ba2} {ab} {cab} x = .ok y ∧ RelV RelD y s ∧ (∀ i, c.ni.sum ≤ i → s i = t i) ∧
      ∀ (k i nij : Nat), c.ni[k]? = some nij → i < nij → s ((c.ni.take k).sum + i) = edgeSize c.m (c.j1 + k) ba2 ab cab (fun l => t ((c.ni.take k).sum + l)) i := by
  obtain ⟨y, s, e, g, f, h⟩ := edgeFactorsLoop_diam c ba2 ab cab hm c.ni 0 0 x t hx hpos (by omega)
  refine ⟨y, s, by simp [edgeFactors, e], g, fun i hi => f i (by omega), ?_⟩
  intro k i n hk hi
  have := h k i n hk hi
  simpa using this


/-! ## Periods -/

theorem scalarAddmul_diam {sz ro vsz vo len : Nat} {v : Nat → Set ℂ} {w : Nat → ℂ} {c : Set ℂ} {d : ℂ} {x : Nat → Set ℂ} {y : Nat → ℂ} (hv : RelV RelD v w) (hc : RelP c d) (h : RelV RelD x y) :
    RelRes (RelV RelD) (scalarAddmul setArith sz ro vsz v vo len c x) (scalarAddmul exact sz ro vsz w vo len d y) := by
  unfold scalarAddmul
  refine loopUp_rel (fun _ _ _ h => ?_) _ _ _ _ h
  exact (rdV_rel h).bind fun _ _ h1 => (rdV_rel hv).bind fun _ _ h2 => wrV_rel h (relD_add h1 (relD_mul h2 hc))

theorem relP_unit (m k : Nat) (coeff : Int) : RelP (setArith.mul (unitRoots setArith m k) (setArith.ofInt coeff)) ((|coeff| : ℤ) : ℂ) := by
  refine ⟨exact.unitRoot m ^ k * coeff, setArith_pt.mul (setArith_pt.pow k (setArith_pt.unitRoot m)) (setArith_pt.ofInt _), ?_⟩
  have h1 : ‖exact.unitRoot m‖ = 1 := by
    show ‖Complex.exp (2 * Real.pi * Complex.I / m)‖ = 1
    have : (2 * (Real.pi : ℂ) * Complex.I / m : ℂ) = ((2 * Real.pi / m : ℝ) : ℂ) * Complex.I := by push_cast; ring
    rw [this, Complex.norm_exp_ofReal_mul_I]
  rw [norm_mul, norm_pow, h1, one_pow, one_mul, Complex.norm_intCast, ← Int.cast_abs, Complex.ofReal_intCast]

theorem relP_int (coeff : Int) : RelP (setArith.ofInt coeff) ((|coeff| : ℤ) : ℂ) := by
  refine ⟨coeff, setArith_pt.ofInt _, ?_⟩
  rw [Complex.norm_intCast, ← Int.cast_abs, Complex.ofReal_intCast]

theorem addBlocks_diam (c : Shape) (l : Nat) (coeff : Int) {ii : Nat → Set ℂ} {t : Nat → ℂ} (hi : RelV RelD ii t) (hm : 0 < c.m) :
    ∀ (ni : List Nat) (j off : Nat) (x : Nat → Set ℂ) (s : Nat → ℂ), RelV RelD x s → off + ni.sum ≤ c.g →
      ∃ y s', addBlocks setArith c l coeff ii j off ni x = .ok y ∧ RelV RelD y s' ∧ Frame off ni.sum s s' ∧ ∀ i < ni.sum, s' (off + i) = s (off + i) + t (off + i) * ((|coeff| : ℤ) : ℂ)
  | [], j, off, x, s, hx, _ => ⟨x, s, rfl, hx, fun _ _ => rfl, by simp⟩
  | nij :: rest, j, off, x, s, hx, hsum => by
    simp only [List.sum_cons] at hsum
    obtain ⟨s1, e1, f1, h1⟩ := scalarAddmul_spec (sz := c.g) (ro := off) (vsz := c.g) (vo := off) (len := nij) (by omega) (by omega) t ((|coeff| : ℤ) : ℂ) s
    have r1 := scalarAddmul_diam (sz := c.g) (ro := off) (vsz := c.g) (vo := off) (len := nij) hi (relP_unit c.m ((c.m - l) * (c.j1 + j) % c.m) coeff) hx
    rw [e1] at r1
    obtain ⟨y1, q1, g1⟩ := r1.ok_left
    obtain ⟨y2, s2, e2, g2, f2, h2⟩ := addBlocks_diam c l coeff hi hm rest (j + 1) (off + nij) y1 s1 g1 (by omega)
    refine ⟨y2, s2, ?_, g2, ?_, ?_⟩
    · simp only [addBlocks, rdV_ok (Nat.mod_lt _ hm), Res.ok_bind]
      rw [q1, Res.ok_bind, e2]
    · intro i hi
      simp only [List.sum_cons] at hi
      rw [f2 i (by omega), f1 i (by omega)]
    · intro i hi
      simp only [List.sum_cons] at hi
      by_cases h : i < nij
      · rw [f2 (off + i) (by omega), h1 i h]
      · have h3 := h2 (i - nij) (by omega)
        rw [show off + nij + (i - nij) = off + i by omega] at h3
        rw [h3, f1 (off + i) (by omega)]

theorem addTerm_diam {c : Shape} (hc : c.Good) {rows : Nat} {I : Nat → Nat → Set ℂ} {J : Nat → Nat → ℂ} (hI : ∀ e, RelV RelD (I e) (J e)) {t : Gamma} (ht : TermOk c rows t) {x : Nat → Set ℂ} {s : Nat → ℂ} (hx : RelV RelD x s) :
    ∃ y s', addTerm setArith c rows I t x = .ok y ∧ RelV RelD y s' ∧ ∀ r < c.g, s' r = s r + J t.index r * ((|t.coeff| : ℤ) : ℂ) := by
  obtain ⟨h1, h2, h3, h4⟩ := ht
  unfold addTerm
  rw [if_pos h1, slongAsFmpz_ok h3 h4, Res.ok_bind]
  by_cases hs : t.shift = 0
  · rw [if_pos hs]
    obtain ⟨s', e, -, hy⟩ := scalarAddmul_spec (sz := c.g) (ro := 0) (vsz := c.g) (vo := 0) (len := c.g) (by omega) (by omega) (J t.index) ((|t.coeff| : ℤ) : ℂ) s
    have r1 := scalarAddmul_diam (sz := c.g) (ro := 0) (vsz := c.g) (vo := 0) (len := c.g) (hI t.index) (relP_int t.coeff) hx
    rw [e] at r1
    obtain ⟨y, q, g⟩ := r1.ok_left
    refine ⟨y, s', q, g, fun r hr => ?_⟩
    have := hy r hr
    rwa [Nat.zero_add] at this
  · rw [if_neg hs]
    obtain ⟨y, s', e, g, -, hy⟩ := addBlocks_diam c t.shift t.coeff (hI t.index) (by have := hc.m; omega) c.ni 0 0 x s hx (by have := hc.sum; omega)
    refine ⟨y, s', e, g, fun r hr => ?_⟩
    have := hy r (by rw [hc.sum]; exact hr)
    rwa [Nat.zero_add] at this

theorem addTerms_diam {c : Shape} (hc : c.Good) {rows : Nat} {I : Nat → Nat → Set ℂ} {J : Nat → Nat → ℂ} (hI : ∀ e, RelV RelD (I e) (J e)) :
    ∀ (ts : List Gamma) (x : Nat → Set ℂ) (s : Nat → ℂ), RelV RelD x s → (∀ t ∈ ts, TermOk c rows t) →
      ∃ y s', addTerms setArith c rows I ts x = .ok y ∧ RelV RelD y s' ∧ ∀ r < c.g, s' r = s r + (ts.map fun t => J t.index r * ((|t.coeff| : ℤ) : ℂ)).sum
  | [], x, s, hx, _ => ⟨x, s, rfl, hx, by simp⟩
  | t :: ts, x, s, hx, h => by
    obtain ⟨y1, s1, e1, g1, h1⟩ := addTerm_diam hc hI (h t (by simp)) hx
    obtain ⟨y2, s2, e2, g2, h2⟩ := addTerms_diam hc hI ts y1 s1 g1 (fun u hu => h u (by simp [hu]))
    refine ⟨y2, s2, by simp only [addTerms, e1, Res.ok_bind, e2], g2, fun r hr => ?_⟩
    rw [h2 r hr, h1 r hr, List.map_cons, List.sum_cons]
    ring

theorem periodRows_diam {c : Shape} (hc : c.Good) {rows : Nat} {I : Nat → Nat → Set ℂ} {J : Nat → Nat → ℂ} (hI : ∀ e, RelV RelD (I e) (J e)) :
    ∀ (cnt k : Nat) (basis : List (List Gamma)), cnt ≤ basis.length → (∀ l ∈ basis.take cnt, ∀ t ∈ l, TermOk c rows t) →
      ∃ om, periodRows setArith c rows I cnt k basis = .ok om ∧ ∀ (i : Nat) (lp : List Gamma), i < cnt → basis[i]? = some lp → ∃ row, om[i]? = some row ∧ ∀ r < c.g,
        RelD (row r) (lp.map fun t => J t.index r * ((|t.coeff| : ℤ) : ℂ)).sum
  | 0, _, _, _, _ => ⟨[], by simp [periodRows], by intro i lp h; omega⟩
  | cnt + 1, k, [], h, _ => by simp at h
  | cnt + 1, k, lp :: basis, h, hT => by
    obtain ⟨y, s, e1, g1, h1⟩ := addTerms_diam hc hI lp (fun _ => setArith.zero) (fun _ => 0) (fun _ => ⟨0, by simp, fun w hw w' hw' => by
      rw [show setArith.zero = {(0 : ℂ)} from setArith_pt.zero, mem_singleton_iff] at hw hw'
      rw [hw, hw']
      simp⟩) (hT lp (by simp))
    obtain ⟨om, e2, h2⟩ := periodRows_diam hc hI cnt (k + 1) basis (by simpa using h) (fun l hl => hT l (by simp [hl]))
    refine ⟨y :: om, by simp only [periodRows, periodsLoop, e1, e2, Res.ok_bind], ?_⟩
    intro i lp' hi hlp
    cases i with
    | zero =>
      simp only [List.getElem?_cons_zero, Option.some.injEq] at hlp
      subst hlp
      refine ⟨y, rfl, fun r hr => ?_⟩
      have := g1 r
      rwa [h1 r hr, zero_add] at this
    | succ i =>
      simp only [List.getElem?_cons_succ] at hlp ⊢
      exact h2 i lp' (by omega) hlp

/-- size of the periods: `δ r` bounds the integrals of differential number `r` -/
theorem periodMatrix_diam {c : Shape} (hc : c.Good) {rows : Nat} {I : Nat → Nat → Set ℂ} {δ : Nat → ℝ} (hI : ∀ k r, DiamLe (I k r) (δ r)) {basis : List (List Gamma)} (hb : c.g ≤ basis.length)
    (hT : ∀ l ∈ basis, ∀ t ∈ l, TermOk c rows t) {om : Nat → Nat → Set ℂ} (h : periodMatrix setArith c basis rows I = .ok om) {r k : Nat} (hr : r < c.g) {lp : List Gamma} (hk : k < c.g) (hlp : basis[k]? = some lp) :
    DiamLe (om r k) (δ r * (lp.map fun t => |(t.coeff : ℝ)|).sum) := by
  obtain ⟨om', e, H⟩ := periodRows_diam hc (I := I) (J := fun _ r => (δ r : ℂ)) (fun k r => ⟨δ r, rfl, hI k r⟩) c.g 0 basis hb (fun l hl => hT l (List.mem_of_mem_take hl))
  unfold periodMatrix at h
  rw [e, Res.ok_bind] at h
  obtain rfl := Res.ok.inj h
  obtain ⟨row, q1, q2⟩ := H k lp hk hlp
  simp only [q1]
  obtain ⟨d, hd, h'⟩ := q2 r hr
  have : d = δ r * (lp.map fun t => |(t.coeff : ℝ)|).sum := by
    have e2 : ((δ r * (lp.map fun t => |(t.coeff : ℝ)|).sum : ℝ) : ℂ) = d := by
      rw [← hd]
      clear hlp hd h' q2 q1
      induction lp with
      | nil => simp
      | cons t ts ih =>
        rw [List.map_cons, List.map_cons, List.sum_cons, List.sum_cons, mul_add, Complex.ofReal_add, ih, ← Int.cast_abs, Complex.ofReal_mul, Complex.ofReal_intCast]
    exact (Complex.ofReal_injective e2).symm
  rw [← this]
  exact h'

end Hcp
