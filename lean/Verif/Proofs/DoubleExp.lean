import Verif.Spec.Fns
import Verif.Proofs.EdgeData
import Verif.Proofs.Shape
import Verif.Proofs.EdgeFactors
import Mathlib.Analysis.SpecialFunctions.Trigonometric.DerivHyp
import Mathlib.Analysis.SpecialFunctions.Pow.Real

/-! # Double-exponential summation -/

namespace Hcp

variable {A : Type} {X : Arith A} {R : A → ℂ → Prop}

theorem hasDerivAt_dePhi (lam t : ℝ) :
    HasDerivAt (Spec.dePhi lam) (lam * (Real.cosh t / Real.cosh (lam * Real.sinh t) ^ 2)) t := by
  have h1 : HasDerivAt (fun t => lam * Real.sinh t) (lam * Real.cosh t) t := (Real.hasDerivAt_sinh t).const_mul lam
  have h2 := h1.sinh
  have h3 := h1.cosh
  have hc : Real.cosh (lam * Real.sinh t) ≠ 0 := (Real.cosh_pos _).ne'
  have h4 := h2.div h3 hc
  convert! h4 using 1
  have := Real.cosh_sq (lam * Real.sinh t)
  field_simp
  rw [this]
  ring

theorem one_sub_dePhi_sq (lam t : ℝ) : 1 - Spec.dePhi lam t ^ 2 = (Real.cosh (lam * Real.sinh t) ^ 2)⁻¹ := by
  unfold Spec.dePhi
  have hc : Real.cosh (lam * Real.sinh t) ≠ 0 := (Real.cosh_pos _).ne'
  have := Real.cosh_sq (lam * Real.sinh t)
  field_simp
  rw [this]
  ring

theorem dePhi_neg (lam t : ℝ) : Spec.dePhi lam (-t) = -Spec.dePhi lam t := by
  unfold Spec.dePhi
  rw [Real.sinh_neg, mul_neg, Real.sinh_neg, Real.cosh_neg, neg_div]

theorem dePhi_zero (lam : ℝ) : Spec.dePhi lam 0 = 0 := by
  unfold Spec.dePhi; simp

/-- the tables on exact real numbers -/
theorem deIntInit_spec (h lam : ℝ) {n : Nat} (hn : 0 < n) (err : ℂ → ℂ) (m : Nat) :
    ∃ de, deIntInit exact exactFns h lam n err m = .ok de ∧ de.n = n ∧ de.err = err ∧ de.factor = lam * h ∧
      ∀ l < n, de.x l = (Spec.dePhi lam (l * h) : ℂ) ∧
        de.dx l = (Real.cosh (l * h) / Real.cosh (lam * Real.sinh (l * h)) ^ 2 : ℝ) ∧
        de.ch2m l = ((Real.cosh (lam * Real.sinh (l * h)) ^ 2 : ℝ) : ℂ) ^ ((m : ℂ)⁻¹) := by
  unfold deIntInit
  rw [if_pos hn.ne', wrV_ok hn, wrV_ok hn]
  simp only [Res.ok_bind]
  have key := loopUp_inv (body := deIntStep exact exactFns h lam n m)
    (fun k s => ∀ l < k, s.1 l = (Spec.dePhi lam (l * h) : ℂ) ∧
        s.2.1 l = (Real.cosh (l * h) / Real.cosh (lam * Real.sinh (l * h)) ^ 2 : ℝ) ∧
        s.2.2 l = ((Real.cosh (lam * Real.sinh (l * h)) ^ 2 : ℝ) : ℂ) ^ ((m : ℂ)⁻¹))
    (n - 1) 1 ((fun j => if j = 0 then exact.zero else (fun _ => exact.zero) j),
      (fun j => if j = 0 then exact.one else (fun _ => exact.zero) j),
      (fun j => if j = 0 then exact.one else (fun _ => exact.zero) j)) (by
      intro l hl
      have : l = 0 := by omega
      subst this
      simp [exact, dePhi_zero]) (by
      rintro k ⟨x, dx, ch⟩ h1 h2 hs
      refine ⟨_, by unfold deIntStep; simp only [wrV_ok (show k < n by omega), Res.ok_bind]; rfl, ?_⟩
      intro l hl
      by_cases hlk : l = k
      · subst hlk
        simp only [if_true]
        refine ⟨?_, ?_, ?_⟩
        · simp only [exact, exactFns, Spec.dePhi]
          push_cast
          rw [mul_comm (Complex.sinh _) (lam : ℂ), mul_comm (h : ℂ)]
        · simp only [exact, exactFns]
          push_cast
          rw [mul_comm (Complex.sinh _) (lam : ℂ), mul_comm (h : ℂ), sq]
        · simp only [exact, exactFns]
          push_cast
          rw [mul_comm (Complex.sinh _) (lam : ℂ), mul_comm (h : ℂ), sq]
      · simp only [if_neg hlk]
        exact hs l (by omega))
  obtain ⟨s, e, hs⟩ := key
  rw [e, Res.ok_bind]
  exact ⟨_, rfl, rfl, rfl, rfl, fun l hl => hs l (by omega)⟩

/-- what `acb_vec_add_geom_arb` and `acb_vec_sub_geom_arb` do -/
def GeomSpec (sz : Nat) (G : Nat → Nat → ℂ → ℂ → (Nat → ℂ) → Res ((Nat → ℂ) × ℂ)) (x q : ℂ) : Prop :=
  ∀ off len c0 v, 0 < len → off + len ≤ sz → ∃ w, G off len c0 x v = .ok w ∧ Frame off len v w.1 ∧
    ∀ k < len, w.1 (off + k) = v (off + k) + c0 * q ^ k

theorem deBlocks_spec {sz : Nat} {G : Nat → Nat → ℂ → ℂ → (Nat → ℂ) → Res ((Nat → ℂ) × ℂ)} {y x q : ℂ}
    (hG : GeomSpec sz G x q) :
    ∀ (ni : List Nat) (j off : Nat) (wy : ℂ) (v : Nat → ℂ), (∀ k ∈ ni, 0 < k) → off + ni.sum ≤ sz →
      ∃ w, deBlocks exact G y x j ni off wy v = .ok w ∧ Frame off ni.sum v w ∧
        ∀ k i nij, ni[k]? = some nij → i < nij → w (off + (ni.take k).sum + i) =
          v (off + (ni.take k).sum + i) + wy * y ^ (k + if j ≠ 0 then 1 else 0) * q ^ i
  | [], j, off, wy, v, _, _ => ⟨v, rfl, fun _ _ => rfl, by simp⟩
  | nij :: rest, j, off, wy, v, hpos, hsum => by
    simp only [List.sum_cons] at hsum
    obtain ⟨w1, e1, f1, h1⟩ := hG off nij (if j ≠ 0 then exact.mul wy y else wy) v (hpos nij (by simp)) (by omega)
    obtain ⟨w2, e2, f2, h2⟩ := deBlocks_spec hG rest (j + 1) (off + nij) (if j ≠ 0 then exact.mul wy y else wy) w1.1
      (fun k hk => hpos k (by simp [hk])) (by omega)
    have hwy : (if j ≠ 0 then exact.mul wy y else wy) = wy * y ^ (if j ≠ 0 then 1 else 0) := by
      split
      · rw [pow_one]; rfl
      · rw [pow_zero, mul_one]
    refine ⟨w2, ?_, ?_, ?_⟩
    · unfold deBlocks
      dsimp only
      rw [e1, Res.ok_bind, e2]
    · intro i hi
      simp only [List.sum_cons] at hi
      rw [f2 i (by omega), f1 i (by omega)]
    · intro k i n hk hi
      cases k with
      | zero =>
        simp only [List.getElem?_cons_zero, Option.some.injEq] at hk
        subst hk
        simp only [List.take_zero, List.sum_nil, Nat.add_zero]
        rw [f2 (off + i) (by omega), h1 i hi, hwy, Nat.zero_add]
      | succ k =>
        simp only [List.getElem?_cons_succ] at hk
        have h3 := h2 k i n hk hi
        simp only [List.take_succ_cons, List.sum_cons, ← Nat.add_assoc]
        rw [h3, f1 _ (by omega), hwy, if_pos (Nat.succ_ne_zero j)]
        congr 2
        rw [mul_assoc, ← pow_add]
        congr 2
        omega

theorem dePoint_spec {c : Shape} (hc : c.Good) {G : Nat → Nat → ℂ → ℂ → (Nat → ℂ) → Res ((Nat → ℂ) × ℂ)} {x xg q : ℂ}
    (hG : GeomSpec c.g G xg q) {S : ℂ → Res ℂ} {y0 : ℂ} (hS : S x = .ok y0) (dx ch : ℂ) (v : Nat → ℂ) :
    ∃ w, dePoint exact c S G x xg dx ch v = .ok w ∧ ∀ r i j, r < c.g → Spec.diffOf c.ni c.j1 r = (i, j) →
      w r = v r + dx * (ch / y0) ^ j * q ^ i := by
  have hwy : (if c.j1 > 1 then exact.mul (exact.pow (exact.div ch y0) c.j1) dx else exact.mul (exact.div ch y0) dx)
      = dx * (ch / y0) ^ c.j1 := by
    split
    · show (ch / y0) ^ c.j1 * dx = _
      ring
    · have := hc.j1
      rw [show c.j1 = 1 by omega, pow_one]
      show ch / y0 * dx = _
      ring
  obtain ⟨w, e, -, h⟩ := deBlocks_spec (y := exact.div ch y0) hG c.ni 0 0 (dx * (ch / y0) ^ c.j1) v hc.pos
    (by rw [hc.sum]; omega)
  refine ⟨w, ?_, ?_⟩
  · unfold dePoint
    rw [hS, Res.ok_bind]
    dsimp only
    rw [hwy, e]
  · intro r i j hr hij
    obtain ⟨k, nij, i', h1, h2, h3, h4⟩ := diffOf_spec c.ni c.j1 r (by rw [hc.sum]; exact hr)
    rw [h4] at hij
    simp only [Prod.mk.injEq] at hij
    obtain ⟨rfl, rfl⟩ := hij
    have := h k i' nij h1 h2
    rw [Nat.zero_add, ← h3] at this
    rw [this, if_neg (by simp), Nat.add_zero]
    show _ + _ * (ch / y0) ^ k * _ = _
    rw [mul_assoc dx, ← pow_add]

/-- the sum over both signs -/
theorem deSumWith_spec {c : Shape} (hc : c.Good) {S : ℂ → Res ℂ} {Y : ℂ → ℂ} {de : DeInt ℂ} (hn : 0 < de.n)
    (hS : ∀ l < de.n, S (de.x l) = .ok (Y (de.x l)) ∧ S (-de.x l) = .ok (Y (-de.x l))) :
    ∃ w, deSumWith exact S c de = .ok w ∧ ∀ r i j, r < c.g → Spec.diffOf c.ni c.j1 r = (i, j) →
      w r = de.factor * ∑ l ∈ Finset.range de.n, (de.dx l * (de.ch2m l / Y (de.x l)) ^ j * de.x l ^ i +
        if l = 0 then 0 else de.dx l * (de.ch2m l / Y (-de.x l)) ^ j * (-de.x l) ^ i) := by
  unfold deSumWith
  rw [if_neg hn.ne']
  have key := loopUp_inv (body := deStep exact c S de)
    (fun k v => ∀ r i j, r < c.g → Spec.diffOf c.ni c.j1 r = (i, j) →
      v r = ∑ l ∈ Finset.range k, (de.dx l * (de.ch2m l / Y (de.x l)) ^ j * de.x l ^ i +
        if l = 0 then 0 else de.dx l * (de.ch2m l / Y (-de.x l)) ^ j * (-de.x l) ^ i)) de.n 0
    (fun _ => exact.zero) (by intro r i j _ _; rfl) (by
      intro l v _ hl hv
      rw [Nat.zero_add] at hl
      have hadd : GeomSpec c.g (fun off len => addGeom exact c.g off len) (de.x l) (de.x l) := by
        intro off len c0 v h1 h2
        obtain ⟨w, e, f, h⟩ := addGeom_spec (sz := c.g) h1 h2 c0 (de.x l) v
        exact ⟨_, e, f, h⟩
      have hsub : GeomSpec c.g (fun off len => subGeom exact c.g off len) (de.x l) (-de.x l) := by
        intro off len c0 v h1 h2
        obtain ⟨w, e, f, h⟩ := subGeom_spec (sz := c.g) h1 h2 c0 (de.x l) v
        exact ⟨_, e, f, h⟩
      obtain ⟨w1, e1, h1⟩ := dePoint_spec hc hadd (hS l hl).1 (de.dx l) (de.ch2m l) v
      obtain ⟨w2, e2, h2⟩ := dePoint_spec hc hsub (hS l hl).2 (de.dx l) (de.ch2m l) w1
      unfold deStep
      rw [rdV_ok hl, rdV_ok hl, rdV_ok hl]
      simp only [Res.ok_bind]
      rw [e1, Res.ok_bind]
      by_cases h0 : l = 0
      · rw [if_pos h0]
        refine ⟨w1, rfl, fun r i j hr hij => ?_⟩
        rw [h1 r i j hr hij, hv r i j hr hij, Finset.sum_range_succ, if_pos h0, add_zero]
      · rw [if_neg h0]
        refine ⟨w2, e2, fun r i j hr hij => ?_⟩
        rw [h2 r i j hr hij, h1 r i j hr hij, hv r i j hr hij, Finset.sum_range_succ, if_neg h0, add_assoc])
  obtain ⟨v, e, hv⟩ := key
  rw [e, Res.ok_bind]
  obtain ⟨w, e2, _, h2⟩ := scalarMul_spec (sz := c.g) (off := 0) (len := c.g) (by omega) de.factor v
  refine ⟨w, e2, fun r i j hr hij => ?_⟩
  have := h2 r hr
  rw [Nat.zero_add] at this
  rw [this, hv r i j hr hij, Nat.zero_add, mul_comm]

theorem sum_sym (n : Nat) (f : Int → ℂ) :
    ∑ l ∈ Finset.Ioo (-(n : Int)) n, f l = ∑ l ∈ Finset.range n, (f l + if l = 0 then 0 else f (-l)) := by
  induction n with
  | zero => simp
  | succ n ih =>
    rw [Finset.sum_range_succ, ← ih]
    by_cases h0 : n = 0
    · subst h0
      have : Finset.Ioo (-((0 + 1 : Nat) : Int)) ((0 + 1 : Nat) : Int) = {0} := by decide
      rw [this]
      simp
    · rw [if_neg h0]
      have : Finset.Ioo (-((n + 1 : Nat) : Int)) ((n + 1 : Nat) : Int) =
          insert (n : Int) (insert (-(n : Int)) (Finset.Ioo (-(n : Int)) n)) := by
        ext k
        simp only [Finset.mem_Ioo, Finset.mem_insert]
        omega
      rw [this, Finset.sum_insert, Finset.sum_insert]
      · ring
      · simp
      · simp only [Finset.mem_insert, Finset.mem_Ioo]
        omega

/-- one term -/
theorem deTerm_eq (m d1 d : Nat) (u : Nat → ℂ) (lam t : ℝ) (i j : Nat) :
    Spec.deTerm m d1 d u lam i j t = lam * ((Real.cosh t / Real.cosh (lam * Real.sinh t) ^ 2 : ℝ) *
      (((Real.cosh (lam * Real.sinh t) ^ 2 : ℝ) : ℂ) ^ ((m : ℂ)⁻¹) / Spec.edgeY m d1 d u (Spec.dePhi lam t)) ^ j *
        (Spec.dePhi lam t : ℂ) ^ i) := by
  unfold Spec.deTerm
  rw [(hasDerivAt_dePhi lam t).deriv, one_sub_dePhi_sq]
  have hpos : 0 < Real.cosh (lam * Real.sinh t) ^ 2 := pow_pos (Real.cosh_pos _) 2
  have h1 : (((Real.cosh (lam * Real.sinh t) ^ 2)⁻¹ : ℝ) : ℂ) ^ ((m : ℂ)⁻¹) =
      (((Real.cosh (lam * Real.sinh t) ^ 2 : ℝ) : ℂ) ^ ((m : ℂ)⁻¹))⁻¹ := by
    rw [Complex.ofReal_inv, Complex.inv_cpow _ _ (by
      rw [Complex.arg_ofReal_of_nonneg hpos.le]; exact Real.pi_pos.ne)]
  rw [h1, Complex.ofReal_mul]
  simp only [div_eq_mul_inv, mul_pow, mul_inv, inv_pow, inv_inv]
  ring

/-- relation between schemes -/
structure RelDe (R : A → ℂ → Prop) (g : DeInt A) (g' : DeInt ℂ) : Prop where
  n : g.n = g'.n
  factor : R g.factor g'.factor
  x : RelV R g.x g'.x
  dx : RelV R g.dx g'.dx
  ch2m : RelV R g.ch2m g'.ch2m

/-- related tables -/
def RelTab (R : A → ℂ → Prop) (s : (Nat → A) × (Nat → A) × (Nat → A)) (t : (Nat → ℂ) × (Nat → ℂ) × (Nat → ℂ)) : Prop :=
  RelV R s.1 t.1 ∧ RelV R s.2.1 t.2.1 ∧ RelV R s.2.2 t.2.2

theorem deIntInit_rel (E : Encloses X exact R) {F : Fns A} (H : EnclosesFns F exactFns R) {h lam : A} {h' lam' : ℂ}
    (hh : R h h') (hl : R lam lam') (n : Nat) (err : A → A) (err' : ℂ → ℂ) (m : Nat) :
    RelRes (RelDe R) (deIntInit X F h lam n err m) (deIntInit exact exactFns h' lam' n err' m) := by
  unfold deIntInit
  split
  · refine (wrV_rel (R := R) (fun _ => E.zero) E.zero).bind fun _ _ h1 =>
      (wrV_rel (R := R) (fun _ => E.zero) E.one).bind fun _ _ h2 =>
      (wrV_rel (R := R) (fun _ => E.zero) E.one).bind fun _ _ h3 => ?_
    refine RelRes.bind (loopUp_rel (RS := RelTab R) (fun k s t g => ?_) _ _ _ _ ⟨h1, h2, h3⟩)
      fun s t g => .ok ⟨rfl, E.mul hl hh, g.1, g.2.1, g.2.2⟩
    unfold deIntStep
    have hk := E.mul hh (E.ofInt k)
    have hs := E.mul (H.sinh hk) hl
    have hc := E.mul (H.cosh hs) (H.cosh hs)
    exact (wrV_rel g.1 (E.div (H.sinh hs) (H.cosh hs))).bind fun _ _ g1 =>
      (wrV_rel g.2.1 (E.div (H.cosh hk) hc)).bind fun _ _ g2 =>
      (wrV_rel g.2.2 (E.root m hc)).bind fun _ _ g3 => .ok ⟨g1, g2, g3⟩
  · exact .ok ⟨rfl, E.zero, fun _ => E.zero, fun _ => E.zero, fun _ => E.zero⟩

theorem deBlocks_rel (E : Encloses X exact R) {G : Nat → Nat → A → A → (Nat → A) → Res ((Nat → A) × A)}
    {G' : Nat → Nat → ℂ → ℂ → (Nat → ℂ) → Res ((Nat → ℂ) × ℂ)} {y x : A} {y' x' : ℂ} (hy : R y y') (hx : R x x')
    (hG : ∀ off len c0 c0' v v', R c0 c0' → RelV R v v' → RelRes (RelVP R) (G off len c0 x v) (G' off len c0' x' v')) :
    ∀ (ni : List Nat) (j off : Nat) (wy : A) (wy' : ℂ) (v : Nat → A) (v' : Nat → ℂ), R wy wy' → RelV R v v' →
      RelRes (RelV R) (deBlocks X G y x j ni off wy v) (deBlocks exact G' y' x' j ni off wy' v')
  | [], _, _, _, _, _, _, _, h => .ok h
  | nij :: rest, j, off, wy, wy', v, v', hw, h => by
    have hw1 : R (if j ≠ 0 then X.mul wy y else wy) (if j ≠ 0 then exact.mul wy' y' else wy') := by
      split
      · exact E.mul hw hy
      · exact hw
    exact (hG off nij _ _ v v' hw1 h).bind fun _ _ h1 =>
      deBlocks_rel E hy hx hG rest (j + 1) (off + nij) _ _ _ _ hw1 h1.1

theorem dePoint_rel (E : Encloses X exact R) (c : Shape) {G : Nat → Nat → A → A → (Nat → A) → Res ((Nat → A) × A)}
    {G' : Nat → Nat → ℂ → ℂ → (Nat → ℂ) → Res ((Nat → ℂ) × ℂ)} {S : A → Res A} {S' : ℂ → Res ℂ} {x xg dx ch : A}
    {x' xg' dx' ch' : ℂ} (hS : RelRes R (S x) (S' x')) (hx : R xg xg') (hd : R dx dx') (hch : R ch ch')
    (hG : ∀ off len c0 c0' v v', R c0 c0' → RelV R v v' → RelRes (RelVP R) (G off len c0 xg v) (G' off len c0' xg' v'))
    {v : Nat → A} {v' : Nat → ℂ} (h : RelV R v v') :
    RelRes (RelV R) (dePoint X c S G x xg dx ch v) (dePoint exact c S' G' x' xg' dx' ch' v') := by
  unfold dePoint
  refine hS.bind fun y0 y0' h0 => ?_
  dsimp only
  refine deBlocks_rel E (E.div hch h0) hx hG _ _ _ _ _ _ _ ?_ h
  split
  · exact E.mul (E.pow _ (E.div hch h0)) hd
  · exact E.mul (E.div hch h0) hd

theorem deSumWith_rel (E : Encloses X exact R) (c : Shape) {S : A → Res A} {S' : ℂ → Res ℂ} {de : DeInt A} {de' : DeInt ℂ}
    (hde : RelDe R de de')
    (hS : ∀ l < de.n, RelRes R (S (de.x l)) (S' (de'.x l)) ∧ RelRes R (S (X.neg (de.x l))) (S' (exact.neg (de'.x l)))) :
    RelRes (RelV R) (deSumWith X S c de) (deSumWith exact S' c de') := by
  unfold deSumWith
  rw [← hde.n]
  by_cases h0 : de.n = 0
  · rw [if_pos h0, if_pos h0]; exact .ub _
  rw [if_neg h0, if_neg h0]
  refine RelRes.bind (loopUp_rel_range (RS := RelV R) _ _ _ _ (fun l s t _ hl h => ?_) fun _ => E.zero) fun r r' h =>
    scalarMul_rel E hde.factor h
  have hl' : l < de.n := by omega
  unfold deStep
  rw [← hde.n]
  rw [rdV_ok hl', rdV_ok hl', rdV_ok hl', rdV_ok hl', rdV_ok hl', rdV_ok hl']
  simp only [Res.ok_bind]
  refine (dePoint_rel E c (G := fun off len => addGeom X c.g off len) (G' := fun off len => addGeom exact c.g off len)
    (hS l hl').1 (hde.x l) (hde.dx l) (hde.ch2m l) (fun off len c0 c0' v v' h1 h2 => addGeom_rel E h1 (hde.x l) h2) h).bind fun r1 r1' h1 => ?_
  split
  · exact .ok h1
  · exact dePoint_rel E c (G := fun off len => subGeom X c.g off len) (G' := fun off len => subGeom exact c.g off len)
      (hS l hl').2 (hde.x l) (hde.dx l) (hde.ch2m l)
      (fun off len c0 c0' v v' h1 h2 => subGeom_rel E h1 (hde.x l) h2) h1

end Hcp
