import Verif.Model.Homology
import Verif.Props.Edge

/-! # `arb/period_matrix.c` -/

namespace Hcp

theorem scalarAddmul_spec {sz ro vsz vo len : Nat} (h : ro + len ≤ sz) (hv : vo + len ≤ vsz) (v : Nat → ℂ)
    (c : ℂ) (x : Nat → ℂ) :
    ∃ y, scalarAddmul exact sz ro vsz v vo len c x = .ok y ∧ Frame ro len x y ∧
      ∀ k < len, y (ro + k) = x (ro + k) + v (vo + k) * c := by
  unfold scalarAddmul
  have key := loopUp_inv (body := fun k x => do
      let a ← rdV sz x (ro + k)
      let b ← rdV vsz v (vo + k)
      wrV sz x (ro + k) (exact.add a (exact.mul b c)))
    (fun k y => Frame ro len x y ∧
      ∀ l < len, y (ro + l) = if l < k then x (ro + l) + v (vo + l) * c else x (ro + l))
    len 0 x ⟨fun i _ => rfl, by simp⟩ (by
      rintro k s _ hk2 ⟨hF, hs⟩
      refine ⟨fun j => if j = ro + k then s (ro + k) + v (vo + k) * c else s j, ?_, ?_, ?_⟩
      · simp only [rdV_ok (show ro + k < sz by omega), rdV_ok (show vo + k < vsz by omega),
          wrV_ok (show ro + k < sz by omega), Res.ok_bind]
        rfl
      · intro j hj
        have : j ≠ ro + k := by omega
        simp only [this, if_false]
        exact hF j hj
      · intro l hl
        simp only [Nat.add_left_cancel_iff]
        split
        · rename_i h; subst h
          rw [if_pos (by omega), hs l hl, if_neg (by omega)]
        · rw [hs l hl]
          by_cases h1 : l < k
          · rw [if_pos h1, if_pos (by omega)]
          · rw [if_neg h1, if_neg (by omega)])
  obtain ⟨y, e, hy⟩ := key
  exact ⟨y, e, hy.1, fun k hk => by rw [hy.2 k hk, if_pos (by omega)]⟩

/-- coefficient of a term on block exponent `j` -/
noncomputable def termCoeff (m l j : Nat) (coeff : Int) : ℂ :=
  exact.unitRoot m ^ (((m - l) * j) % m) * (coeff : ℂ)

theorem addBlocks_spec (c : Shape) (l : Nat) (coeff : Int) (ii : Nat → ℂ) (hm : 0 < c.m) :
    ∀ (ni : List Nat) (j off : Nat) (x : Nat → ℂ), off + ni.sum ≤ c.g →
      ∃ y, addBlocks exact c l coeff ii j off ni x = .ok y ∧ Frame off ni.sum x y ∧
        ∀ (k i nij : Nat), ni[k]? = some nij → i < nij →
          y (off + (ni.take k).sum + i) = x (off + (ni.take k).sum + i) +
            ii (off + (ni.take k).sum + i) * termCoeff c.m l (c.j1 + (j + k)) coeff
  | [], j, off, x, _ => ⟨x, rfl, fun _ _ => rfl, by simp⟩
  | nij :: rest, j, off, x, hsum => by
    simp only [List.sum_cons] at hsum
    obtain ⟨y1, e1, f1, h1⟩ := scalarAddmul_spec (sz := c.g) (ro := off) (vsz := c.g) (vo := off)
      (len := nij) (by omega) (by omega) ii (termCoeff c.m l (c.j1 + j) coeff) x
    obtain ⟨y2, e2, f2, h2⟩ := addBlocks_spec c l coeff ii hm rest (j + 1) (off + nij) y1 (by omega)
    refine ⟨y2, ?_, ?_, ?_⟩
    · simp only [addBlocks, rdV_ok (Nat.mod_lt _ hm), Res.ok_bind]
      have : exact.mul (unitRoots exact c.m ((c.m - l) * (c.j1 + j) % c.m)) (exact.ofInt coeff)
          = termCoeff c.m l (c.j1 + j) coeff := rfl
      rw [this, e1, Res.ok_bind, e2]
    · intro i hi
      simp only [List.sum_cons] at hi
      rw [f2 i (by omega), f1 i (by omega)]
    · intro k i n hk hi
      cases k with
      | zero =>
        simp only [List.getElem?_cons_zero, Option.some.injEq] at hk
        subst hk
        simp only [List.take_zero, List.sum_nil, Nat.add_zero]
        rw [f2 (off + i) (by omega), h1 i hi]
      | succ k =>
        simp only [List.getElem?_cons_succ] at hk
        have h3 := h2 k i n hk hi
        rw [show ((nij :: rest).take (k + 1)).sum = nij + (rest.take k).sum by simp, ← Nat.add_assoc, h3,
          show c.j1 + (j + 1 + k) = c.j1 + (j + (k + 1)) by omega, f1 _ (by omega)]

theorem unit_pow (m l j : Nat) (hm : 0 < m) (hl : l ≤ m) :
    exact.unitRoot m ^ (((m - l) * j) % m) = (Spec.zeta m ^ (l * j))⁻¹ := by
  have h1 : exact.unitRoot m = Spec.zeta m := rfl
  rw [h1, ← pow_eq_pow_mod _ (zeta_pow m hm)]
  apply eq_inv_of_mul_eq_one_left
  rw [← pow_add, ← Nat.add_mul, show m - l + l = m by omega, pow_mul, zeta_pow m hm, one_pow]

/-- a term of a loop that the code can use: edge in range, sheet in range, coefficient a valid small `fmpz`. -/
def TermOk (c : Shape) (rows : Nat) (t : Gamma) : Prop :=
  t.index < rows ∧ t.shift < c.m ∧ -(2 ^ 62) < t.coeff ∧ t.coeff < 2 ^ 62

theorem slongAsFmpz_ok {c : Int} (h1 : -(2 ^ 62) < c) (h2 : c < 2 ^ 62) : slongAsFmpz c = .ok c := by
  unfold slongAsFmpz
  rw [if_neg (by omega), if_neg (by omega)]

theorem addTerm_spec {c : Shape} (hc : c.Good) {rows : Nat} (integrals : Nat → Nat → ℂ) {t : Gamma}
    (ht : TermOk c rows t) (x : Nat → ℂ) :
    ∃ y, addTerm exact c rows integrals t x = .ok y ∧ ∀ r < c.g, y r = x r +
      (t.coeff : ℂ) * (Spec.zeta c.m ^ (t.shift * (Spec.diffOf c.ni c.j1 r).2))⁻¹ * integrals t.index r := by
  obtain ⟨h1, h2, h3, h4⟩ := ht
  unfold addTerm
  rw [if_pos h1, slongAsFmpz_ok h3 h4, Res.ok_bind]
  by_cases hs : t.shift = 0
  · rw [if_pos hs]
    obtain ⟨y, e, -, hy⟩ := scalarAddmul_spec (sz := c.g) (ro := 0) (vsz := c.g) (vo := 0) (len := c.g)
      (by omega) (by omega) (integrals t.index) (exact.ofInt t.coeff) x
    refine ⟨y, e, fun r hr => ?_⟩
    have := hy r hr
    rw [Nat.zero_add] at this
    rw [this, hs, Nat.zero_mul, pow_zero, inv_one, mul_one, mul_comm]
    rfl
  · rw [if_neg hs]
    obtain ⟨y, e, -, hy⟩ := addBlocks_spec c t.shift t.coeff (integrals t.index)
      (by have := hc.m; omega) c.ni 0 0 x (by have := hc.sum; omega)
    refine ⟨y, e, fun r hr => ?_⟩
    obtain ⟨k, nij, i, g1, g2, g3, g4⟩ := diffOf_spec c.ni c.j1 r (by rw [hc.sum]; exact hr)
    have := hy k i nij g1 g2
    rw [Nat.zero_add, Nat.zero_add, ← g3] at this
    rw [this, g4, termCoeff, unit_pow _ _ _ (by have := hc.m; omega) (by omega)]
    ring

theorem addTerms_spec {c : Shape} (hc : c.Good) {rows : Nat} (integrals : Nat → Nat → ℂ) :
    ∀ (ts : List Gamma) (x : Nat → ℂ), (∀ t ∈ ts, TermOk c rows t) →
      ∃ y, addTerms exact c rows integrals ts x = .ok y ∧ ∀ r < c.g, y r = x r +
        (ts.map fun t => (t.coeff : ℂ) * (Spec.zeta c.m ^ (t.shift * (Spec.diffOf c.ni c.j1 r).2))⁻¹ *
          integrals t.index r).sum
  | [], x, _ => ⟨x, rfl, by simp⟩
  | t :: ts, x, h => by
    obtain ⟨y1, e1, h1⟩ := addTerm_spec hc integrals (h t (by simp)) x
    obtain ⟨y2, e2, h2⟩ := addTerms_spec hc integrals ts y1 (fun u hu => h u (by simp [hu]))
    refine ⟨y2, by simp only [addTerms, e1, Res.ok_bind, e2], fun r hr => ?_⟩
    rw [h2 r hr, h1 r hr, List.map_cons, List.sum_cons]
    ring

theorem periodRows_spec {c : Shape} (hc : c.Good) {rows : Nat} (integrals : Nat → Nat → ℂ) :
    ∀ (cnt k : Nat) (basis : List (List Gamma)), cnt ≤ basis.length →
      (∀ l ∈ basis.take cnt, ∀ t ∈ l, TermOk c rows t) →
      ∃ om, periodRows exact c rows integrals cnt k basis = .ok om ∧
        ∀ (i : Nat) (lp : List Gamma), i < cnt → basis[i]? = some lp → ∃ row, om[i]? = some row ∧ ∀ r < c.g, row r =
          (lp.map fun t => (t.coeff : ℂ) * (Spec.zeta c.m ^ (t.shift * (Spec.diffOf c.ni c.j1 r).2))⁻¹ *
            integrals t.index r).sum
  | 0, _, _, _, _ => ⟨[], by simp [periodRows], by intro i lp h; omega⟩
  | cnt + 1, k, [], h, _ => by simp at h
  | cnt + 1, k, lp :: basis, h, hT => by
    obtain ⟨y, e1, h1⟩ := addTerms_spec hc integrals lp (fun _ => exact.zero)
      (hT lp (by simp))
    obtain ⟨om, e2, h2⟩ := periodRows_spec hc integrals cnt (k + 1) basis (by simpa using h)
      (fun l hl => hT l (by simp [hl]))
    refine ⟨y :: om, by simp only [periodRows, periodsLoop, e1, e2, Res.ok_bind], ?_⟩
    intro i lp' hi hlp
    cases i with
    | zero =>
      simp only [List.getElem?_cons_zero, Option.some.injEq] at hlp
      subst hlp
      refine ⟨y, rfl, fun r hr => ?_⟩
      rw [h1 r hr]
      simp [exact]
    | succ i =>
      simp only [List.getElem?_cons_succ] at hlp ⊢
      exact h2 i lp' (by omega) hlp

/-! ## Enclosure -/

variable {A B : Type} {X : Arith A} {Y : Arith B} {R : A → B → Prop}

theorem scalarAddmul_rel (E : Encloses X Y R) {sz ro vsz vo len : Nat} {v : Nat → A} {w : Nat → B}
    {c : A} {d : B} {x : Nat → A} {y : Nat → B} (hv : RelV R v w) (hc : R c d) (h : RelV R x y) :
    RelRes (RelV R) (scalarAddmul X sz ro vsz v vo len c x) (scalarAddmul Y sz ro vsz w vo len d y) := by
  unfold scalarAddmul
  refine loopUp_rel (fun _ _ _ h => ?_) _ _ _ _ h
  exact (rdV_rel h).bind fun _ _ h1 => (rdV_rel hv).bind fun _ _ h2 => wrV_rel h (E.add h1 (E.mul h2 hc))

theorem addBlocks_rel (E : Encloses X Y R) (c : Shape) (l : Nat) (coeff : Int) {ii : Nat → A}
    {jj : Nat → B} (hi : RelV R ii jj) :
    ∀ (ni : List Nat) (j off : Nat) (x : Nat → A) (y : Nat → B), RelV R x y →
      RelRes (RelV R) (addBlocks X c l coeff ii j off ni x) (addBlocks Y c l coeff jj j off ni y)
  | [], _, _, _, _, h => .ok h
  | _ :: rest, j, _, _, _, h => (rdV_rel (unitRoots_rel E c.m)).bind fun _ _ h1 =>
      (scalarAddmul_rel E hi (E.mul h1 (E.ofInt coeff)) h).bind fun _ _ h2 =>
        addBlocks_rel E c l coeff hi rest (j + 1) _ _ _ h2

theorem refl_res {α : Type} (x : Res α) : RelRes (fun a b => a = b) x x := by
  cases x
  · exact .ok rfl
  · exact .abort _
  · exact .ub _
  · exact .diverge

theorem addTerm_rel (E : Encloses X Y R) (c : Shape) (rows : Nat) {I : Nat → Nat → A} {J : Nat → Nat → B}
    (hI : ∀ e, RelV R (I e) (J e)) (t : Gamma) {x : Nat → A} {y : Nat → B} (h : RelV R x y) :
    RelRes (RelV R) (addTerm X c rows I t x) (addTerm Y c rows J t y) := by
  unfold addTerm
  split
  · refine (refl_res (slongAsFmpz t.coeff)).bind ?_
    rintro a _ rfl
    split
    · exact scalarAddmul_rel E (hI _) (E.ofInt a) h
    · exact addBlocks_rel E c _ _ (hI _) _ _ _ _ _ h
  · exact .ub _

theorem addTerms_rel (E : Encloses X Y R) (c : Shape) (rows : Nat) {I : Nat → Nat → A}
    {J : Nat → Nat → B} (hI : ∀ e, RelV R (I e) (J e)) :
    ∀ (ts : List Gamma) (x : Nat → A) (y : Nat → B), RelV R x y →
      RelRes (RelV R) (addTerms X c rows I ts x) (addTerms Y c rows J ts y)
  | [], _, _, h => .ok h
  | t :: ts, _, _, h => (addTerm_rel E c rows hI t h).bind fun _ _ h1 => addTerms_rel E c rows hI ts _ _ h1

theorem periodRows_rel (E : Encloses X Y R) (c : Shape) (rows : Nat) {I : Nat → Nat → A}
    {J : Nat → Nat → B} (hI : ∀ e, RelV R (I e) (J e)) :
    ∀ (cnt k : Nat) (basis : List (List Gamma)),
      RelRes (List.Forall₂ (RelV R)) (periodRows X c rows I cnt k basis) (periodRows Y c rows J cnt k basis)
  | 0, _, _ => by unfold periodRows; exact .ok .nil
  | _ + 1, _, [] => .ub _
  | cnt + 1, k, lp :: basis => (addTerms_rel E c rows hI lp _ _ (fun _ => E.zero)).bind fun _ _ h1 =>
      (periodRows_rel E c rows hI cnt (k + 1) basis).bind fun _ _ h2 => .ok (.cons h1 h2)

theorem periodMatrix_rel (E : Encloses X Y R) (c : Shape) (rows : Nat) {I : Nat → Nat → A}
    {J : Nat → Nat → B} (hI : ∀ e, RelV R (I e) (J e)) (basis : List (List Gamma)) :
    RelRes (fun a b => ∀ r k, R (a r k) (b r k)) (periodMatrix X c basis rows I)
      (periodMatrix Y c basis rows J) := by
  refine (periodRows_rel E c rows hI c.g 0 basis).bind fun a b h => .ok ?_
  intro r k
  have hlen := h.length_eq
  by_cases hk : k < a.length
  · have := List.Forall₂.get h hk (by omega)
    simp only [List.getElem?_eq_getElem hk, List.getElem?_eq_getElem (show k < b.length by omega)]
    exact this r
  · simp only [List.getElem?_eq_none (show a.length ≤ k by omega),
      List.getElem?_eq_none (show b.length ≤ k by omega)]
    exact E.zero

end Hcp
