import Verif.Proofs.Constants

/-! # `integrals_edge_factors` over exact arithmetic, and enclosure for `constants.c` -/

namespace Hcp

/-- value of cell `i` of a block after `integrals_edge_factors` -/
noncomputable def edgeVal (m j : Nat) (ba2 ab cab : ℂ) (x : Nat → ℂ) (i : Nat) : ℂ :=
  (1 - exact.unitRoot m ^ ((m - j) % m)) / cab ^ j * ba2 ^ (i + 1) * bsum ab x i i

theorem edgeFactorsStep_spec (c : Shape) (ba2 ab cab : ℂ) (j nij off : Nat) (x : Nat → ℂ)
    (hm : 0 < c.m) (hn : 0 < nij) (h : off + nij ≤ c.g) :
    ∃ y, edgeFactorsStep exact c ba2 ab cab j nij (x, off) = .ok (y, off + nij) ∧
      Frame off nij x y ∧
      ∀ i < nij, y (off + i) = edgeVal c.m (c.j1 + j) ba2 ab cab (fun l => x (off + l)) i := by
  obtain ⟨y1, e1, f1, h1⟩ := polyShift_spec h ab x
  obtain ⟨y2, e2, f2, h2⟩ := mulGeom_spec hn h ba2 ba2 y1
  have hz : rdV c.m (unitRoots exact c.m) ((c.m - c.j1 - j) % c.m)
      = .ok (exact.unitRoot c.m ^ ((c.m - (c.j1 + j)) % c.m)) := by
    rw [rdV_ok (Nat.mod_lt _ hm), Nat.sub_sub]; rfl
  obtain ⟨y3, e3, f3, h3⟩ := scalarMul_spec h
    (exact.div (exact.neg (exact.sub (exact.unitRoot c.m ^ ((c.m - (c.j1 + j)) % c.m)) exact.one))
      (exact.pow cab (c.j1 + j))) y2
  refine ⟨y3, ?_, ?_, ?_⟩
  · simp only [edgeFactorsStep, e1, e2, hz, e3, Res.ok_bind]
  · intro i hi
    rw [f3 i hi, f2 i hi, f1 i hi]
  · intro i hi
    rw [h3 i hi, h2 i hi, h1 i hi]
    simp only [exact, edgeVal]
    rw [pow_succ]; ring

theorem edgeFactorsLoop_spec (c : Shape) (ba2 ab cab : ℂ) (hm : 0 < c.m) :
    ∀ (ni : List Nat) (j off : Nat) (x : Nat → ℂ), (∀ k ∈ ni, 0 < k) → off + ni.sum ≤ c.g →
      ∃ y, edgeFactorsLoop exact c ba2 ab cab j ni (x, off) = .ok (y, off + ni.sum) ∧
        Frame off ni.sum x y ∧
        ∀ (k i nij : Nat), ni[k]? = some nij → i < nij →
          y (off + (ni.take k).sum + i) = edgeVal c.m (c.j1 + (j + k)) ba2 ab cab
            (fun l => x (off + (ni.take k).sum + l)) i
  | [], j, off, x, _, _ => ⟨x, rfl, fun _ _ => rfl, by simp⟩
  | nij :: rest, j, off, x, hpos, hsum => by
    simp only [List.sum_cons] at hsum
    obtain ⟨y1, e1, f1, h1⟩ := edgeFactorsStep_spec c ba2 ab cab j nij off x hm
      (hpos nij (by simp)) (by omega)
    obtain ⟨y2, e2, f2, h2⟩ := edgeFactorsLoop_spec c ba2 ab cab hm rest (j + 1) (off + nij) y1
      (fun k hk => hpos k (by simp [hk])) (by omega)
    refine ⟨y2, ?_, ?_, ?_⟩
    · simp only [edgeFactorsLoop, e1, Res.ok_bind, e2, List.sum_cons, Nat.add_assoc]
    · intro i hi
      simp only [List.sum_cons] at hi
      rw [f2 i (by omega), f1 i (by omega)]
    · intro k i n hk hi
      cases k with
      | zero =>
        simp only [List.getElem?_cons_zero, Option.some.injEq] at hk
        subst hk
        simp only [List.take_zero, List.sum_nil, Nat.add_zero]
        rw [f2 (off + i) (by omega), h1 i hi]
      | succ k =>
        simp only [List.getElem?_cons_succ] at hk
        have h3 := h2 k i n hk hi
        simp only [List.take_succ_cons, List.sum_cons, ← Nat.add_assoc]
        rw [h3, show c.j1 + (j + 1 + k) = c.j1 + j + k + 1 by omega]
        have : (fun l => y1 (off + nij + (rest.take k).sum + l))
            = fun l => x (off + nij + (rest.take k).sum + l) := by
          funext l
          exact f1 _ (by omega)
        rw [this]

theorem edgeFactors_spec (c : Shape) (ba2 ab cab : ℂ) (hm : 0 < c.m) (x : Nat → ℂ)
    (hpos : ∀ k ∈ c.ni, 0 < k) (hsum : c.ni.sum ≤ c.g) :
    ∃ y, edgeFactors exact c ba2 ab cab x = .ok y ∧
      (∀ i, c.ni.sum ≤ i → y i = x i) ∧
      ∀ (k i nij : Nat), c.ni[k]? = some nij → i < nij →
        y ((c.ni.take k).sum + i) = edgeVal c.m (c.j1 + k) ba2 ab cab
            (fun l => x ((c.ni.take k).sum + l)) i := by
  obtain ⟨y, e, f, h⟩ := edgeFactorsLoop_spec c ba2 ab cab hm c.ni 0 0 x hpos (by omega)
  refine ⟨y, by simp [edgeFactors, e], fun i hi => f i (by omega), ?_⟩
  intro k i n hk hi
  have := h k i n hk hi
  simpa using this

theorem edgeFactorsGc_spec (c : Shape) (ba2 ab : ℂ) (x : Nat → ℂ) :
    ∃ y, edgeFactorsGc exact c ba2 ab x = .ok y ∧
      (∀ i, c.g ≤ i → y i = x i) ∧
      ∀ i < c.g, y i = bsum ab x i i *
        ((if c.n % 2 ≠ 0 then ba2 ^ (c.n / 2) * ba2 ^ ((2 : ℂ)⁻¹) else ba2 ^ (c.n / 2))⁻¹ * 2) *
          (ba2 / Complex.I) ^ i := by
  obtain ⟨y1, e1, f1, h1⟩ := polyShift_spec (sz := c.g) (off := 0) (len := c.g) (by omega) ab x
  obtain ⟨y2, e2, f2, h2⟩ := scalarMul_spec (sz := c.g) (off := 0) (len := c.g) (by omega)
    (exact.mul2exp (exact.inv (if c.n % 2 ≠ 0 then exact.mul (exact.pow ba2 (c.n / 2)) (exact.sqrt ba2)
      else exact.pow ba2 (c.n / 2))) 1) y1
  have key := loopUp_inv (body := fun i s => do
      let ci := exact.divI (exact.mul s.2 ba2)
      let x ← mulCell exact c.g i ci s.1
      .ok (x, ci))
    (fun k (s : (Nat → ℂ) × ℂ) => (∀ i, c.g ≤ i → s.1 i = x i) ∧ s.2 = (ba2 / Complex.I) ^ (k - 1) ∧
      ∀ l < c.g, s.1 l = if l < k then y2 l * (ba2 / Complex.I) ^ l else y2 l)
    (c.g - 1) 1 (y2, exact.one) (by
      refine ⟨?_, by simp [exact], ?_⟩
      · intro i hi
        simp only
        rw [f2 i (by omega), f1 i (by omega)]
      · intro l hl
        split
        · rename_i h
          simp [show l = 0 by omega]
        · rfl) (by
      rintro k ⟨z, d⟩ hk1 hk2 ⟨hF, hd, hz⟩
      simp only at hd hz hF
      refine ⟨(_, _), by simp only [mulCell_ok (sz := c.g) (i := k) (by omega), Res.ok_bind]; rfl,
        ?_, ?_, ?_⟩
      · intro i hi
        have : i ≠ k := by omega
        simp only [this, if_false]
        exact hF i hi
      · simp only [exact, hd]
        rw [show k + 1 - 1 = (k - 1) + 1 by omega, pow_succ]; ring
      · intro l hl
        simp only
        by_cases h : l = k
        · subst h
          rw [if_pos rfl, if_pos (by omega), hz l hl, if_neg (by omega)]
          simp only [exact, hd]
          rw [show (ba2 / Complex.I) ^ l = (ba2 / Complex.I) ^ (l - 1) * (ba2 / Complex.I) by
            rw [← pow_succ, show l - 1 + 1 = l by omega]]
          ring
        · rw [if_neg h, hz l hl]
          by_cases h1 : l < k
          · rw [if_pos h1, if_pos (by omega)]
          · rw [if_neg h1, if_neg (by omega)])
  obtain ⟨⟨y, d⟩, e, hF, hd, hy⟩ := key
  refine ⟨y, ?_, hF, ?_⟩
  · simp only [edgeFactorsGc, e1, Res.ok_bind, e2, e]
  · intro i hi
    simp only at hy
    rw [hy i hi, if_pos (by omega)]
    have h3 := h2 i hi
    have h4 := h1 i hi
    simp only [Nat.zero_add] at h3 h4
    rw [h3, h4]
    simp only [exact, zpow_one]

/-! ## Enclosure -/

variable {A B : Type} {X : Arith A} {Y : Arith B} {R : A → B → Prop}

theorem addmulCell_rel (E : Encloses X Y R) {sz i j : Nat} {c : A} {d : B} {x : Nat → A} {y : Nat → B}
    (hc : R c d) (h : RelV R x y) :
    RelRes (RelV R) (addmulCell X sz i j c x) (addmulCell Y sz i j d y) :=
  (rdV_rel h).bind fun _ _ h1 => (rdV_rel h).bind fun _ _ h2 =>
    wrV_rel h (E.add h1 (E.mul h2 hc))

theorem mulCell_rel (E : Encloses X Y R) {sz i : Nat} {c : A} {d : B} {x : Nat → A} {y : Nat → B}
    (hc : R c d) (h : RelV R x y) :
    RelRes (RelV R) (mulCell X sz i c x) (mulCell Y sz i d y) :=
  (rdV_rel h).bind fun _ _ h1 => wrV_rel h (E.mul h1 hc)

theorem addCell_rel (E : Encloses X Y R) {sz i : Nat} {c : A} {d : B} {x : Nat → A} {y : Nat → B}
    (hc : R c d) (h : RelV R x y) :
    RelRes (RelV R) (addCell X sz i c x) (addCell Y sz i d y) :=
  (rdV_rel h).bind fun _ _ h1 => wrV_rel h (E.add h1 hc)

theorem subCell_rel (E : Encloses X Y R) {sz i : Nat} {c : A} {d : B} {x : Nat → A} {y : Nat → B}
    (hc : R c d) (h : RelV R x y) :
    RelRes (RelV R) (subCell X sz i c x) (subCell Y sz i d y) :=
  (rdV_rel h).bind fun _ _ h1 => wrV_rel h (E.sub h1 hc)

theorem polyShift_rel (E : Encloses X Y R) {sz off len : Nat} {c : A} {d : B} {x : Nat → A}
    {y : Nat → B} (hc : R c d) (h : RelV R x y) :
    RelRes (RelV R) (polyShift X sz off len c x) (polyShift Y sz off len d y) := by
  unfold polyShift
  refine loopUp_rel (fun _ _ _ h => ?_) _ _ _ _ h
  refine loopDown_rel (fun _ _ _ h => ?_) _ _ _ _ h
  exact addmulCell_rel E hc h

theorem scalarMul_rel (E : Encloses X Y R) {sz off len : Nat} {c : A} {d : B} {x : Nat → A}
    {y : Nat → B} (hc : R c d) (h : RelV R x y) :
    RelRes (RelV R) (scalarMul X sz off len c x) (scalarMul Y sz off len d y) := by
  unfold scalarMul
  refine loopUp_rel (fun _ _ _ h => ?_) _ _ _ _ h
  exact mulCell_rel E hc h

/-- related pairs (array, running power) -/
def RelVP (R : A → B → Prop) (s : (Nat → A) × A) (t : (Nat → B) × B) : Prop :=
  RelV R s.1 t.1 ∧ R s.2 t.2

theorem mulGeom_rel (E : Encloses X Y R) {sz off len : Nat} {c0 c : A} {d0 d : B} {x : Nat → A}
    {y : Nat → B} (hc0 : R c0 d0) (hc : R c d) (h : RelV R x y) :
    RelRes (RelVP R) (mulGeom X sz off len c0 c x) (mulGeom Y sz off len d0 d y) := by
  unfold mulGeom
  refine (mulCell_rel E hc0 h).bind fun x0 y0 h1 => ?_
  refine loopUp_rel (RS := RelVP R) (fun k s t h => ?_) _ _ (x0, c0) (y0, d0) ⟨h1, hc0⟩
  exact (mulCell_rel E (E.mul h.2 hc) h.1).bind fun _ _ h3 => .ok ⟨h3, E.mul h.2 hc⟩

theorem addGeom_rel (E : Encloses X Y R) {sz off len : Nat} {c0 c : A} {d0 d : B} {x : Nat → A}
    {y : Nat → B} (hc0 : R c0 d0) (hc : R c d) (h : RelV R x y) :
    RelRes (RelVP R) (addGeom X sz off len c0 c x) (addGeom Y sz off len d0 d y) := by
  unfold addGeom
  refine (addCell_rel E hc0 h).bind fun x0 y0 h1 => ?_
  refine loopUp_rel (RS := RelVP R) (fun k s t h => ?_) _ _ (x0, c0) (y0, d0) ⟨h1, hc0⟩
  exact (addCell_rel E (E.mul h.2 hc) h.1).bind fun _ _ h3 => .ok ⟨h3, E.mul h.2 hc⟩

theorem altCell_rel (E : Encloses X Y R) {sz off k : Nat} {c : A} {d : B} {x : Nat → A} {y : Nat → B}
    (hc : R c d) (h : RelV R x y) :
    RelRes (RelV R) (altCell X sz off k c x) (altCell Y sz off k d y) := by
  unfold altCell
  split
  · exact subCell_rel E hc h
  · exact addCell_rel E hc h

theorem subGeom_rel (E : Encloses X Y R) {sz off len : Nat} {c0 c : A} {d0 d : B} {x : Nat → A}
    {y : Nat → B} (hc0 : R c0 d0) (hc : R c d) (h : RelV R x y) :
    RelRes (RelVP R) (subGeom X sz off len c0 c x) (subGeom Y sz off len d0 d y) := by
  unfold subGeom
  refine (addCell_rel E hc0 h).bind fun x0 y0 h1 => ?_
  refine loopUp_rel (RS := RelVP R) (fun k s t h => ?_) _ _ (x0, c0) (y0, d0) ⟨h1, hc0⟩
  exact (altCell_rel E (E.mul h.2 hc) h.1).bind fun _ _ h3 => .ok ⟨h3, E.mul h.2 hc⟩

theorem unitRoots_rel (E : Encloses X Y R) (m : Nat) : RelV R (unitRoots X m) (unitRoots Y m) :=
  fun k => E.pow k (E.unitRoot m)

/-- related pairs (array, offset) -/
def RelVO (R : A → B → Prop) (s : (Nat → A) × Nat) (t : (Nat → B) × Nat) : Prop :=
  RelV R s.1 t.1 ∧ s.2 = t.2

theorem edgeFactorsStep_rel (E : Encloses X Y R) (c : Shape) {ba2 ab cab : A} {ba2' ab' cab' : B}
    (h1 : R ba2 ba2') (h2 : R ab ab') (h3 : R cab cab') (j nij : Nat) {s t} (h : RelVO R s t) :
    RelRes (RelVO R) (edgeFactorsStep X c ba2 ab cab j nij s)
      (edgeFactorsStep Y c ba2' ab' cab' j nij t) := by
  obtain ⟨x, o⟩ := s
  obtain ⟨y, o'⟩ := t
  obtain ⟨h, rfl⟩ : RelV R x y ∧ o = o' := h
  exact (polyShift_rel E h2 h).bind fun _ _ g1 => (mulGeom_rel E h1 h1 g1).bind fun _ _ g2 =>
    (rdV_rel (unitRoots_rel E c.m)).bind fun _ _ g3 =>
      (scalarMul_rel E (E.div (E.neg (E.sub g3 E.one)) (E.pow _ h3)) g2.1).bind fun _ _ g4 =>
        .ok ⟨g4, rfl⟩

theorem edgeFactorsLoop_rel (E : Encloses X Y R) (c : Shape) {ba2 ab cab : A} {ba2' ab' cab' : B}
    (h1 : R ba2 ba2') (h2 : R ab ab') (h3 : R cab cab') :
    ∀ (ni : List Nat) (j : Nat) s t, RelVO R s t →
      RelRes (RelVO R) (edgeFactorsLoop X c ba2 ab cab j ni s) (edgeFactorsLoop Y c ba2' ab' cab' j ni t)
  | [], _, _, _, h => .ok h
  | _ :: rest, j, _, _, h => (edgeFactorsStep_rel E c h1 h2 h3 j _ h).bind fun _ _ h =>
      edgeFactorsLoop_rel E c h1 h2 h3 rest (j + 1) _ _ h

theorem edgeFactors_rel (E : Encloses X Y R) (c : Shape) {ba2 ab cab : A} {ba2' ab' cab' : B}
    (h1 : R ba2 ba2') (h2 : R ab ab') (h3 : R cab cab') {x : Nat → A} {y : Nat → B} (h : RelV R x y) :
    RelRes (RelV R) (edgeFactors X c ba2 ab cab x) (edgeFactors Y c ba2' ab' cab' y) :=
  (edgeFactorsLoop_rel E c h1 h2 h3 c.ni 0 (x, 0) (y, 0) ⟨h, rfl⟩).bind fun _ _ h => .ok h.1

end Hcp
