import Verif.Proofs.Riemann
import Verif.Props.LeadingCoeff
import Mathlib.Data.Nat.Bitwise

/-!
# C61: the matrix `tau` is a Riemann matrix
-/

namespace Hcp
open Spec

variable {A B C W : Type} {O : MatOps} {R : A → ℂ → Prop}

/-- a sum over the terms of a loop, from the coefficients -/
theorem sum_by_coeff {S : Type} [CommRing S] {len m1 : Nat} (f : Nat → Nat → S) : ∀ (l : List Gamma), (∀ t ∈ l, t.index < len ∧ t.shift < m1) →
    (l.map fun t => (t.coeff : S) * f t.index t.shift).sum = ∑ a : Fin (len * m1), ((toChain l).coeff (a.val / m1) (a.val % m1) : S) * f (a.val / m1) (a.val % m1)
  | [], _ => by simp [toChain, Chain.coeff]
  | t :: l, h => by
    have ht := h t (List.mem_cons_self ..)
    have hlt : t.index * m1 + t.shift < len * m1 := by
      have : (t.index + 1) * m1 ≤ len * m1 := Nat.mul_le_mul_right _ ht.1
      rw [Nat.add_mul, Nat.one_mul] at this
      omega
    have hd : (t.index * m1 + t.shift) / m1 = t.index := by
      rw [Nat.mul_comm, Nat.mul_add_div (by omega), Nat.div_eq_of_lt ht.2, Nat.add_zero]
    have hmod : (t.index * m1 + t.shift) % m1 = t.shift := by
      rw [Nat.mul_comm, Nat.mul_add_mod, Nat.mod_eq_of_lt ht.2]
    have hc : ∀ k s : Nat, (toChain (t :: l)).coeff k s = (if (t.index, t.shift) = (k, s) then t.coeff else 0) + (toChain l).coeff k s := by
      intro k s
      simp [toChain, Chain.coeff]
    rw [List.map_cons, List.sum_cons, sum_by_coeff f l fun t' ht' => h t' (List.mem_cons_of_mem _ ht')]
    simp only [hc, Int.cast_add, add_mul, Finset.sum_add_distrib]
    congr 1
    rw [Finset.sum_eq_single (⟨t.index * m1 + t.shift, hlt⟩ : Fin (len * m1))]
    · simp only [hd, hmod, if_true]
    · intro a _ ha
      rw [if_neg]
      · simp
      · intro e
        apply ha
        apply Fin.ext
        obtain ⟨e1, e2⟩ := Prod.mk.inj e
        simp only
        rw [e1, e2]
        exact (Nat.div_add_mod' _ _).symm
    · intro h; exact absurd (Finset.mem_univ _) h

theorem pair_by_coeff {len m1 : Nat} (I : Nat × Nat → Nat × Nat → Int) {x y : List Gamma} (hx : ∀ t ∈ x, t.index < len ∧ t.shift < m1) (hy : ∀ t ∈ y, t.index < len ∧ t.shift < m1) :
    Chain.pair I (toChain x) (toChain y) = ∑ a : Fin (len * m1), ∑ b : Fin (len * m1), (toChain x).coeff (a.val / m1) (a.val % m1) * I (a.val / m1, a.val % m1) (b.val / m1, b.val % m1) * (toChain y).coeff (b.val / m1) (b.val % m1) := by
  have e : Chain.pair I (toChain x) (toChain y) = (x.map fun t => (t.coeff : Int) * (y.map fun u => (u.coeff : Int) * I (t.index, t.shift) (u.index, u.shift)).sum).sum := by
    simp only [Chain.pair, toChain, List.map_map]
    congr 1
    refine List.map_congr_left fun t _ => ?_
    simp only [Function.comp_apply]
    rw [← List.sum_map_mul_left]
    congr 1
    refine List.map_congr_left fun u _ => ?_
    simp only [Function.comp_apply]
    ring
  rw [e]
  have h1 := sum_by_coeff (S := Int) (len := len) (m1 := m1) (fun k s => (y.map fun u => (u.coeff : Int) * I (k, s) (u.index, u.shift)).sum) x hx
  simp only [Int.cast_id] at h1
  rw [h1]
  refine Finset.sum_congr rfl fun a _ => ?_
  have h2 := sum_by_coeff (S := Int) (len := len) (m1 := m1) (fun k s => I (a.val / m1, a.val % m1) (k, s)) y hy
  simp only [Int.cast_id] at h2
  rw [h2, Finset.mul_sum]
  exact Finset.sum_congr rfl fun b _ => by ring

section
variable {m n : Nat} {x : Nat → ℂ} {V : AjEnv A B C W O} {RC : {n m : Nat} → O.C n m → Matrix (Fin n) (Fin m) ℂ → Prop} {c : Sec} {out : AjOut A W O c.shape.g}
  {Y : Nat → ℝ → ℂ} {ca cb : Nat → ℂ} {cc : IMat} {Q : Mat (out.tree.e.length * (m - 1))}

/-- the coefficients of the loops are the first rows of `Q` -/
theorem loops_rows (h : AjRight V R RC m n x c out Y ca cb cc Q) (hm : 2 ≤ m) (i : Fin c.shape.g) :
    ∃ u v, out.loopA[i.val]? = some u ∧ out.loopB[i.val]? = some v ∧
      (∀ t ∈ u, t.index < out.tree.e.length ∧ t.shift < m - 1) ∧ (∀ t ∈ v, t.index < out.tree.e.length ∧ t.shift < m - 1) ∧
      (∀ a : Fin (out.tree.e.length * (m - 1)), (toChain u).coeff (a.val / (m - 1)) (a.val % (m - 1)) = Q ⟨2 * i, by have := h.whole.2.2.1; omega⟩ a) ∧
      (∀ a : Fin (out.tree.e.length * (m - 1)), (toChain v).coeff (a.val / (m - 1)) (a.val % (m - 1)) = Q ⟨2 * i + 1, by have := h.whole.2.2.1; omega⟩ a) := by
  obtain ⟨hal, hbe⟩ := h.basis.lengths
  have hi := i.isLt
  have e1 : out.loopA[i.val]? = some (out.loopA[i.val]'(by omega)) := List.getElem?_eq_getElem _
  have e2 : out.loopB[i.val]? = some (out.loopB[i.val]'(by omega)) := List.getElem?_eq_getElem _
  refine ⟨_, _, e1, e2, fun t ht => ?_, fun t ht => ?_, fun a => ?_, fun a => ?_⟩
  · exact ((h.basis.terms _ (List.mem_append_left _ (List.getElem_mem _))).1 t ht).2
  · exact ((h.basis.terms _ (List.mem_append_right _ (List.getElem_mem _))).1 t ht).2
  all_goals
    have hs : a.val % (m - 1) < m - 1 := Nat.mod_lt _ (by omega)
    have hk : a.val / (m - 1) < out.tree.e.length := Nat.div_lt_of_lt_mul (lt_of_lt_of_eq a.isLt (Nat.mul_comm _ _))
    obtain ⟨p, q, j, h1, h2, h3, h4, h5⟩ := h.basis.rows i.val _ _ _ _ e1 e2 hk hs
    have hj : j = a := Fin.ext (by rw [h3, Nat.div_add_mod'])
    subst hj
  · rw [h4]; congr 1; exact Fin.ext h1
  · rw [h5]; congr 1; exact Fin.ext h2

/-- the intersection form in the basis of the loops, from the numbers of the dual loops -/
theorem form_entries (h : AjRight V R RC m n x c out Y ca cb cc Q) (hm : 2 ≤ m) {ε : Nat → ℤ}
    (hpos : ∀ (i : Nat) (u v : List Gamma), out.loopA[i]? = some u → out.loopB[i]? = some v → Chain.pair (fun s t => cc (s.1 * (m - 1) + s.2) (t.1 * (m - 1) + t.2)) (toChain u) (toChain v) = ε i)
    (p q : Fin (out.tree.e.length * (m - 1))) :
    (Q * cc.toMat (out.tree.e.length * (m - 1)) * Q.transpose) p q = ε (p.val / 2) * stdJ (out.tree.e.length * (m - 1)) c.shape.g p q := by
  obtain ⟨hanti, hU, hg, hz⟩ := h.whole
  have hT : Antisymm (Q * cc.toMat (out.tree.e.length * (m - 1)) * Q.transpose) := by
    intro a b
    have e : (cc.toMat (out.tree.e.length * (m - 1))).transpose = -cc.toMat (out.tree.e.length * (m - 1)) := by
      funext a b
      exact hanti b a
    have : (Q * cc.toMat (out.tree.e.length * (m - 1)) * Q.transpose).transpose = -(Q * cc.toMat (out.tree.e.length * (m - 1)) * Q.transpose) := by
      simp only [Matrix.transpose_mul, Matrix.transpose_transpose, e, Matrix.mul_neg, Matrix.neg_mul, Matrix.mul_assoc]
    exact congrFun (congrFun this b) a
  have hpair : ∀ (u v : List Gamma) (p q : Fin (out.tree.e.length * (m - 1))), (∀ t ∈ u, t.index < out.tree.e.length ∧ t.shift < m - 1) → (∀ t ∈ v, t.index < out.tree.e.length ∧ t.shift < m - 1) →
      (∀ a : Fin (out.tree.e.length * (m - 1)), (toChain u).coeff (a.val / (m - 1)) (a.val % (m - 1)) = Q p a) →
      (∀ a : Fin (out.tree.e.length * (m - 1)), (toChain v).coeff (a.val / (m - 1)) (a.val % (m - 1)) = Q q a) →
      (Q * cc.toMat (out.tree.e.length * (m - 1)) * Q.transpose) p q = Chain.pair (fun s t => cc (s.1 * (m - 1) + s.2) (t.1 * (m - 1) + t.2)) (toChain u) (toChain v) := by
    intro u v p q hu hv eu ev
    rw [pair_by_coeff _ hu hv, Finset.sum_comm]
    simp only [eu, ev, Matrix.mul_apply, Matrix.transpose_apply, Finset.sum_mul]
    refine Finset.sum_congr rfl fun b _ => Finset.sum_congr rfl fun a _ => ?_
    simp only [Nat.mul_comm _ (m - 1), Nat.div_add_mod]
    rfl
  by_cases hp : 2 * c.shape.g ≤ p.val
  · rw [hz p q hp]
    unfold stdJ
    rw [if_neg (by omega), if_neg (by omega), mul_zero]
  by_cases hq : 2 * c.shape.g ≤ q.val
  · rw [hT, hz q p hq]
    unfold stdJ
    rw [if_neg (by omega), if_neg (by omega), mul_zero]
    rfl
  obtain ⟨u, v, e1, e2, e3, e4, e5, e6⟩ := loops_rows h hm ⟨p.val / 2, by omega⟩
  obtain ⟨u', v', f1, f2, f3, f4, f5, f6⟩ := loops_rows h hm ⟨q.val / 2, by omega⟩
  rcases Nat.mod_two_eq_zero_or_one p.val with hp2 | hp2 <;> rcases Nat.mod_two_eq_zero_or_one q.val with hq2 | hq2
  · rw [hpair u u' p q e3 f3 (fun a => by rw [e5]; congr 1; exact Fin.ext (by dsimp only; omega)) (fun a => by rw [f5]; congr 1; exact Fin.ext (by dsimp only; omega)), h.basis.isotropic _ _ _ _ (Or.inl ⟨e1, f1⟩)]
    unfold stdJ
    rw [if_neg (by omega), if_neg (by omega), mul_zero]
  · rw [hpair u v' p q e3 f4 (fun a => by rw [e5]; congr 1; exact Fin.ext (by dsimp only; omega)) (fun a => by rw [f6]; congr 1; exact Fin.ext (by dsimp only; omega))]
    by_cases hpq : p.val / 2 = q.val / 2
    · have f2' : out.loopB[p.val / 2]? = some v' := by rw [hpq]; exact f2
      rw [hpos _ _ _ e1 f2']
      unfold stdJ
      rw [if_pos (by omega), mul_one]
    · have := (h.basis.dual _ _ _ _ e1 f2).not.2 hpq
      rw [not_not.1 this]
      unfold stdJ
      rw [if_neg (by omega), if_neg (by omega), mul_zero]
  · rw [hT, hpair u' v q p f3 e4 (fun a => by rw [f5]; congr 1; exact Fin.ext (by dsimp only; omega)) (fun a => by rw [e6]; congr 1; exact Fin.ext (by dsimp only; omega))]
    by_cases hpq : p.val / 2 = q.val / 2
    · have e2' : out.loopB[q.val / 2]? = some v := by rw [← hpq]; exact e2
      rw [hpos _ _ _ f1 e2']
      unfold stdJ
      rw [if_neg (by omega), if_pos (by omega), mul_neg, mul_one, hpq]
    · have := (h.basis.dual _ _ _ _ f1 e2).not.2 (Ne.symm hpq)
      rw [not_not.1 this]
      unfold stdJ
      rw [if_neg (by omega), if_neg (by omega), mul_zero]
      rfl
  · rw [hpair v v' p q e4 f4 (fun a => by rw [e6]; congr 1; exact Fin.ext (by dsimp only; omega)) (fun a => by rw [f6]; congr 1; exact Fin.ext (by dsimp only; omega)), h.basis.isotropic _ _ _ _ (Or.inr ⟨e2, f2⟩)]
    unfold stdJ
    rw [if_neg (by omega), if_neg (by omega), mul_zero]

/-- the intersection form in the basis of the loops -/
theorem form_std (h : AjRight V R RC m n x c out Y ca cb cc Q) (hm : 2 ≤ m) (hpos : PositiveDual (fun s t => cc (s.1 * (m - 1) + s.2) (t.1 * (m - 1) + t.2)) out.loopA out.loopB) :
    Q * cc.toMat (out.tree.e.length * (m - 1)) * Q.transpose = stdJ (out.tree.e.length * (m - 1)) c.shape.g := by
  funext p q
  rw [form_entries h hm (ε := fun _ => 1) (fun i u v h1 h2 => hpos i u v h1 h2), one_mul]

/-- the integrals of the differentials over the elementary closed paths, edge after edge and sheet after sheet -/
noncomputable def cyclePeriods (m : Nat) (x : Nat → ℂ) (es : List (Edge W)) (Y : Nat → ℝ → ℂ) (c : Shape) : Matrix (Fin c.g) (Fin (es.length * (m - 1))) ℂ :=
  Matrix.of fun r a => match es[a.val / (m - 1)]? with
    | some ed => cycleIntM m (x ed.a) (x ed.b) (diffOf c.ni c.j1 r).1 (diffOf c.ni c.j1 r).2 (Y (a.val / (m - 1))) (a.val % (m - 1))
    | none => 0

/-- the matrices of periods from the integrals over the elementary closed paths -/
theorem periodsOf_rows (h : AjRight V R RC m n x c out Y ca cb cc Q) (hm : 2 ≤ m) (r i : Fin c.shape.g) :
    periodsOf m x out.tree.e Y c.shape out.loopA r i = (cyclePeriods m x out.tree.e Y c.shape * (Q.map (Int.cast : ℤ → ℂ)).transpose) r ⟨2 * i, by have := h.whole.2.2.1; omega⟩ ∧
      periodsOf m x out.tree.e Y c.shape out.loopB r i = (cyclePeriods m x out.tree.e Y c.shape * (Q.map (Int.cast : ℤ → ℂ)).transpose) r ⟨2 * i + 1, by have := h.whole.2.2.1; omega⟩ := by
  obtain ⟨u, v, e1, e2, e3, e4, e5, e6⟩ := loops_rows h hm i
  have key : ∀ (l : List Gamma) (p : Fin (out.tree.e.length * (m - 1))), (∀ t ∈ l, t.index < out.tree.e.length ∧ t.shift < m - 1) →
      (∀ a : Fin (out.tree.e.length * (m - 1)), (toChain l).coeff (a.val / (m - 1)) (a.val % (m - 1)) = Q p a) →
      loopPeriodM m x out.tree.e Y (diffOf c.shape.ni c.shape.j1 r).1 (diffOf c.shape.ni c.shape.j1 r).2 l = (cyclePeriods m x out.tree.e Y c.shape * (Q.map (Int.cast : ℤ → ℂ)).transpose) r p := by
    intro l p hl hq
    have := sum_by_coeff (S := ℂ) (len := out.tree.e.length) (m1 := m - 1) (fun k s => match out.tree.e[k]? with
      | some ed => cycleIntM m (x ed.a) (x ed.b) (diffOf c.shape.ni c.shape.j1 r).1 (diffOf c.shape.ni c.shape.j1 r).2 (Y k) s
      | none => 0) l hl
    refine Eq.trans this ?_
    rw [Matrix.mul_apply]
    refine Finset.sum_congr rfl fun a _ => ?_
    rw [hq, mul_comm]
    rfl
  constructor
  · simp only [periodsOf, Matrix.of_apply, List.getD_eq_getElem?_getD, e1, Option.getD_some]
    exact key u _ e3 e5
  · simp only [periodsOf, Matrix.of_apply, List.getD_eq_getElem?_getD, e2, Option.getD_some]
    exact key v _ e4 e6

end

/-- the sum giving the form of two characters -/
theorem sum_chars {m : Nat} (hm : 0 < m) {z w : ℂ} (hz : z ^ m = 1) (hw : w ^ m = 1) (hz1 : z ≠ 1) :
    ∑ b ∈ Finset.range (m - 1), (z ^ b)⁻¹ * ((w ^ b)⁻¹ - w) = if z * w = 1 then (m : ℂ) else 0 := by
  have hw0 : w ≠ 0 := by rintro rfl; rw [zero_pow hm.ne'] at hw; exact zero_ne_one hw
  have hlast : (w ^ (m - 1))⁻¹ - w = 0 := by
    rw [sub_eq_zero, inv_eq_iff_eq_inv]
    refine eq_inv_of_mul_eq_one_left ?_
    rw [← pow_succ, Nat.sub_add_cancel hm, hw]
  have e : ∑ b ∈ Finset.range (m - 1), (z ^ b)⁻¹ * ((w ^ b)⁻¹ - w) = ∑ b ∈ Finset.range m, (z ^ b)⁻¹ * ((w ^ b)⁻¹ - w) := by
    conv_rhs => rw [← Nat.sub_add_cancel hm, Finset.sum_range_succ, hlast, mul_zero, add_zero]
  have geom : ∀ y : ℂ, y ^ m = 1 → y ≠ 1 → ∑ b ∈ Finset.range m, (y ^ b)⁻¹ = 0 := by
    intro y hy hy1
    have h1 : (y⁻¹) ≠ 1 := fun h => hy1 (inv_eq_one.1 h)
    simp only [← inv_pow]
    rw [geom_sum_eq h1, inv_pow, hy]
    simp
  rw [e]
  have e2 : ∀ b, (z ^ b)⁻¹ * ((w ^ b)⁻¹ - w) = ((z * w) ^ b)⁻¹ - w * (z ^ b)⁻¹ := by
    intro b
    rw [mul_pow, mul_inv]
    ring
  simp only [e2]
  rw [Finset.sum_sub_distrib, ← Finset.mul_sum, geom z hz hz1, mul_zero, sub_zero]
  split
  · rename_i h
    simp [h]
  · rename_i h
    exact geom _ (by rw [mul_pow, hz, hw, one_mul]) h

/-- the vector giving a character as a linear form -/
theorem char_form {m : Nat} (hm : 2 ≤ m) {z : ℂ} (hz : z ^ m = 1) (hz2 : z ^ 2 ≠ 1) {b : Nat} (hb : b < m - 1) :
    ∑ a ∈ Finset.range (m - 1), (z - z⁻¹)⁻¹ * ((z ^ a)⁻¹ - z) * ((selfNumber a b : ℤ) : ℂ) = (z ^ b)⁻¹ := by
  have hz0 : z ≠ 0 := by rintro rfl; rw [zero_pow (by omega)] at hz; exact zero_ne_one hz
  have hd : z - z⁻¹ ≠ 0 := by
    intro h
    apply hz2
    have h1 : z = z⁻¹ := sub_eq_zero.1 h
    rw [pow_two]
    nth_rw 2 [h1]
    exact mul_inv_cancel₀ hz0
  have hsplit : ∀ a : Nat, (z - z⁻¹)⁻¹ * ((z ^ a)⁻¹ - z) * ((selfNumber a b : ℤ) : ℂ) =
      (if a + 1 = b then (z - z⁻¹)⁻¹ * ((z ^ a)⁻¹ - z) else 0) - if a = b + 1 then (z - z⁻¹)⁻¹ * ((z ^ a)⁻¹ - z) else 0 := by
    intro a
    unfold selfNumber
    by_cases h1 : a + 1 = b
    · have : (b : Int) = a + 1 := by omega
      rw [if_pos this, if_pos h1, if_neg (by omega)]
      simp
    · by_cases h2 : a = b + 1
      · rw [if_neg (by omega), if_pos (by omega), if_neg h1, if_pos h2]
        simp
      · rw [if_neg (by omega), if_neg (by omega), if_neg h1, if_neg h2]
        simp
  simp only [hsplit]
  rw [Finset.sum_sub_distrib]
  have s1 : ∑ a ∈ Finset.range (m - 1), (if a + 1 = b then (z - z⁻¹)⁻¹ * ((z ^ a)⁻¹ - z) else 0) = (z - z⁻¹)⁻¹ * ((z ^ b)⁻¹ * z - z) := by
    rcases Nat.eq_zero_or_pos b with rfl | hb0
    · rw [Finset.sum_eq_zero (fun a _ => if_neg (by omega))]
      simp
    · rw [Finset.sum_eq_single (b - 1)]
      · rw [if_pos (by omega)]
        have : z ^ b = z ^ (b - 1) * z := by rw [← pow_succ, Nat.sub_add_cancel hb0]
        rw [this, mul_inv, inv_mul_cancel_right₀ hz0]
      · intro a _ ha
        exact if_neg (by omega)
      · intro h
        exact absurd (Finset.mem_range.2 (by omega)) h
  have s2 : ∑ a ∈ Finset.range (m - 1), (if a = b + 1 then (z - z⁻¹)⁻¹ * ((z ^ a)⁻¹ - z) else 0) = (z - z⁻¹)⁻¹ * ((z ^ b)⁻¹ * z⁻¹ - z) := by
    by_cases hb1 : b + 1 < m - 1
    · rw [Finset.sum_eq_single (b + 1)]
      · rw [if_pos rfl, pow_succ, mul_inv]
      · intro a _ ha
        exact if_neg ha
      · intro h
        exact absurd (Finset.mem_range.2 hb1) h
    · rw [Finset.sum_eq_zero (fun a ha => if_neg (by rw [Finset.mem_range] at ha; omega))]
      have h1 : z ^ b * z * z = 1 := by
        rw [← pow_succ, ← pow_succ, show b + 1 + 1 = m by omega, hz]
      have h2 : (z ^ b)⁻¹ * z⁻¹ = z := by
        rw [← mul_inv]
        exact inv_eq_of_mul_eq_one_right h1
      rw [h2, sub_self, mul_zero]
  rw [s1, s2, ← mul_sub]
  have : (z ^ b)⁻¹ * z - z - ((z ^ b)⁻¹ * z⁻¹ - z) = (z - z⁻¹) * (z ^ b)⁻¹ := by ring
  rw [this, inv_mul_cancel_left₀ hd]

/-- the powers of `zeta m` with exponent between `m / 2` and `m` are in the lower half plane -/
theorem zeta_pow_im {m j : Nat} (h1 : m < 2 * j) (h2 : j < m) : (zeta m ^ j).im < 0 := by
  have hm : (0 : ℝ) < m := by exact_mod_cast (by omega : 0 < m)
  have e : zeta m ^ j = Complex.exp (((2 * Real.pi * j / m : ℝ) : ℂ) * Complex.I) := by
    unfold zeta
    rw [← Complex.exp_nat_mul]
    congr 1
    push_cast
    ring
  rw [e, Complex.exp_ofReal_mul_I_im]
  have h3 : (m : ℝ) < 2 * j := by exact_mod_cast h1
  have h4 : (j : ℝ) < m := by exact_mod_cast h2
  have h5 : Real.pi < 2 * Real.pi * j / m := by
    rw [lt_div_iff₀ hm]
    nlinarith [Real.pi_pos]
  have h6 : 2 * Real.pi * j / m < 2 * Real.pi := by
    rw [div_lt_iff₀ hm]
    nlinarith [Real.pi_pos]
  have := Real.sin_pos_of_pos_of_lt_pi (x := 2 * Real.pi * j / m - Real.pi) (by linarith) (by linarith)
  rw [Real.sin_sub_pi] at this
  linarith

/-- the integrals between two branch points do not vanish -/
theorem segInt_ne {m : Nat} {x : Nat → ℂ} {a b : Nat} (ha : a < 2) (hb : b < 2) (hab : a ≠ b) (hx : x a ≠ x b) {Y : ℝ → ℂ} (hY : IsBranchM m 2 x (x a) (x b) Y) {j : Nat} (hj : j < m) :
    segIntM (x a) (x b) 0 j Y ≠ 0 := by
  obtain ⟨κ, hκ⟩ := IsAlgClosed.exists_pow_nat_eq (-((x b - x a) / 2) ^ 2) (n := m) (by omega)
  have hκ0 : κ ≠ 0 := by
    rintro rfl
    rw [zero_pow (by omega)] at hκ
    exact neg_ne_zero.2 (pow_ne_zero 2 (div_ne_zero (sub_ne_zero.2 hx.symm) two_ne_zero)) hκ.symm
  have hprod : ∀ t : ℝ, ∏ k ∈ Finset.range 2, (edgePt (x a) (x b) t - x k) = -((x b - x a) / 2) ^ 2 * (1 - t ^ 2 : ℝ) := by
    intro t
    have : ∏ k ∈ Finset.range 2, (edgePt (x a) (x b) t - x k) = (edgePt (x a) (x b) t - x a) * (edgePt (x a) (x b) t - x b) := by
      rw [Finset.prod_range_succ, Finset.prod_range_one]
      rcases (by omega : a = 0 ∧ b = 1 ∨ a = 1 ∧ b = 0) with ⟨rfl, rfl⟩ | ⟨rfl, rfl⟩
      · rfl
      · rw [mul_comm]
    rw [this]
    unfold edgePt
    push_cast
    ring
  let u : Nat → ℂ := fun _ => κ
  have hB : ∀ t : ℝ, branchY m 2 0 u t = κ * (((1 - t ^ 2) ^ ((m : ℝ)⁻¹) : ℝ) : ℂ) := by
    intro t
    simp [branchY, edgeY, u]
  have hBr : IsBranchM m 2 x (x a) (x b) (branchY m 2 0 u) := by
    constructor
    · have e : branchY m 2 0 u = fun t : ℝ => κ * (((1 - t ^ 2) ^ ((m : ℝ)⁻¹) : ℝ) : ℂ) := funext hB
      rw [e]
      have hc : Continuous fun t : ℝ => (1 - t ^ 2) ^ ((m : ℝ)⁻¹) := (by fun_prop : Continuous fun t : ℝ => 1 - t ^ 2).rpow_const fun t => Or.inr (by positivity)
      exact (continuous_const.mul (Complex.continuous_ofReal.comp hc)).continuousOn
    · intro t ht
      have h0 : (0 : ℝ) ≤ 1 - t ^ 2 := by nlinarith [ht.1, ht.2]
      rw [hB, mul_pow, hκ, hprod, ← Complex.ofReal_pow, Real.rpow_inv_natCast_pow h0 (by omega)]
  have hne : ∀ t ∈ Set.Ioo (-1 : ℝ) 1, branchY m 2 0 u t ≠ 0 := by
    intro t ht
    rw [hB]
    refine mul_ne_zero hκ0 (Complex.ofReal_ne_zero.2 (Real.rpow_pos_of_pos ?_ _).ne')
    nlinarith [ht.1, ht.2]
  obtain ⟨z, hz, hYZ⟩ := branch_unique (by omega) hY hBr hne
  have hz0 : z ≠ 0 := by rintro rfl; rw [zero_pow (by omega)] at hz; exact zero_ne_one hz
  rw [segIntM_of_branch hYZ]
  exact mul_ne_zero (inv_ne_zero (pow_ne_zero _ hz0)) (segInt_two_ne hj hx hκ0)

/-- **C61 (partial).** Curve `y^m = (x - x_0) (x - x_1)`, `m > 2`.  If the output is right in the sense of C56, then the exact matrix of the periods over the loops `alpha` is invertible, and the matrix `tau` with
`omega0 tau = omega1` is a Riemann matrix.
Missing: curves with more than two branch points, where the relations between the periods need the bilinear relations of Riemann on the surface. -/
theorem C61_riemann_partial {m : Nat} (hm : 2 < m) {c : Sec} (h : secInit m 2 = .ok c) {x : Nat → ℂ} (hx : x 0 ≠ x 1) {V : AjEnv A B C W O} {RC : {n m : Nat} → O.C n m → Matrix (Fin n) (Fin m) ℂ → Prop}
    {out : AjOut A W O c.shape.g} {Y : Nat → ℝ → ℂ} {ca cb : Nat → ℂ} {cc : IMat} {Q : Mat (out.tree.e.length * (m - 1))} (hr : AjRight V R RC m 2 x c out Y ca cb cc Q) :
    (periodsOf m x out.tree.e Y c.shape out.loopA).det ≠ 0 ∧
      ∀ tau, periodsOf m x out.tree.e Y c.shape out.loopA * tau = periodsOf m x out.tree.e Y c.shape out.loopB → IsRiemannMatrix tau := by
  have hmZ : (2 : Int) < m := by exact_mod_cast hm
  have hm2 : 2 ≤ m := hm.le
  have hzm : zeta m ^ m = 1 := (Complex.isPrimitiveRoot_exp m (by omega)).pow_eq_one
  have hprim : IsPrimitiveRoot (zeta m) m := Complex.isPrimitiveRoot_exp m (by omega)
  -- the tree has one edge
  have hlen : out.tree.e.length = 1 := by
    have := hr.tree.2.1.2 fun hd => by have := Nat.le_of_dvd (by norm_num) hd; omega
    omega
  obtain ⟨ed, hed⟩ := List.length_eq_one_iff.1 hlen
  have hk0 : out.tree.e[0]? = some ed := by rw [hed]; rfl
  obtain ⟨hea, heb⟩ := hr.tree.2.2 ed (by rw [hed]; exact List.mem_singleton_self _)
  have hab : ed.a ≠ ed.b := by
    have := (hr.tree.1 0 (by rw [hed]; simp)).1
    simpa [hed] using this
  have hxab : x ed.a ≠ x ed.b := by
    rcases (by omega : ed.a = 0 ∧ ed.b = 1 ∨ ed.a = 1 ∧ ed.b = 0) with ⟨e1, e2⟩ | ⟨e1, e2⟩ <;> rw [e1, e2]
    · exact hx
    · exact hx.symm
  obtain ⟨hY, hca, hcb⟩ := hr.branches 0 ed hk0
  have hlt : ∀ a : Fin (out.tree.e.length * (m - 1)), a.val < m - 1 := fun a => lt_of_lt_of_eq a.isLt (by rw [hlen, Nat.one_mul])
  have hnum : ∀ a b : Fin (out.tree.e.length * (m - 1)), cc.toMat (out.tree.e.length * (m - 1)) a b = selfNumber a.val b.val := by
    intro a b
    have := hr.numbers 0 0 ed ed a.val b.val hk0 hk0 (hlt a) (hlt b)
    rw [pathNumber_eq, if_pos rfl, if_neg hab, if_neg hab.symm, if_pos rfl, add_zero, zero_add, crossing_self hm2 hca.1 hcb.1 (hlt a) (hlt b)] at this
    rw [Nat.zero_mul, Nat.zero_add, Nat.zero_add] at this
    exact_mod_cast this
  -- the exponents
  have hg : 2 * c.shape.g < m := by
    have := hr.whole.2.2.1
    rw [hlen] at this
    omega
  let jj : Fin c.shape.g → Nat := fun r => m - c.shape.g + r
  have hjj : ∀ r, m < 2 * jj r ∧ jj r < m := by
    intro r
    have := r.isLt
    show m < 2 * (m - c.shape.g + r) ∧ m - c.shape.g + r < m
    omega
  have hdiff : ∀ r : Fin c.shape.g, diffOf c.shape.ni c.shape.j1 r = (0, jj r) := by
    intro r
    obtain ⟨q1, -, q3⟩ := C28_exponents hmZ h r.isLt
    rw [q1, q3]
    rfl
  let z : Fin c.shape.g → ℂ := fun r => zeta m ^ jj r
  have hz : ∀ r, z r ^ m = 1 := fun r => by
    show (zeta m ^ jj r) ^ m = 1
    rw [← pow_mul, mul_comm, pow_mul, hzm, one_pow]
  have hzim : ∀ r, (z r).im < 0 := fun r => zeta_pow_im (hjj r).1 (hjj r).2
  have hz1 : ∀ r, z r ≠ 1 := fun r h0 => by
    have := hzim r
    rw [h0] at this
    simp at this
  have hznorm : ∀ r, ‖z r‖ = 1 := fun r => by
    have : ‖z r‖ ^ m = 1 := by rw [← norm_pow, hz, norm_one]
    exact (pow_eq_one_iff_of_nonneg (norm_nonneg _) (by omega)).1 this
  have hzconj : ∀ r, (starRingEnd ℂ) (z r) = (z r)⁻¹ := fun r => (Complex.inv_eq_conj (hznorm r)).symm
  have hz2 : ∀ r, z r ^ 2 ≠ 1 := by
    intro r h0
    rcases sq_eq_sq_iff_eq_or_eq_neg.1 (h0.trans (one_pow 2).symm) with h1 | h1
    · exact hz1 r h1
    · have := hzim r
      rw [h1] at this
      simp at this
  have hzz : ∀ r s, z r * z s ≠ 1 := by
    intro r s h0
    have h1 : zeta m ^ (jj r + jj s) = 1 := by rw [pow_add]; exact h0
    obtain ⟨q, hq⟩ := hprim.dvd_of_pow_eq_one _ h1
    obtain ⟨a1, a2⟩ := hjj r
    obtain ⟨b1, b2⟩ := hjj s
    have h3 : 1 < q := by
      by_contra h3
      have : m * q ≤ m * 1 := Nat.mul_le_mul_left _ (by omega)
      omega
    have h4 : q < 2 := by
      by_contra h4
      have : m * 2 ≤ m * q := Nat.mul_le_mul_left _ (by omega)
      omega
    omega
  have hzinj : ∀ r s, z r = z s → r = s := by
    intro r s h0
    have := hprim.pow_inj (hjj r).2 (hjj s).2 h0
    apply Fin.ext
    have h1 : m - c.shape.g + r.val = m - c.shape.g + s.val := this
    omega
  -- the integrals
  let C0 : Fin c.shape.g → ℂ := fun r => (1 - (z r)⁻¹) * segIntM (x ed.a) (x ed.b) 0 (jj r) (Y 0)
  have hC0 : ∀ r, C0 r ≠ 0 := by
    intro r
    refine mul_ne_zero ?_ (segInt_ne hea heb hab hxab hY (hjj r).2)
    rw [sub_ne_zero]
    intro h0
    exact hz1 r (inv_eq_one.1 h0.symm)
  have hPi : ∀ (r : Fin c.shape.g) (a : Fin (out.tree.e.length * (m - 1))), cyclePeriods m x out.tree.e Y c.shape r a = C0 r * (z r ^ a.val)⁻¹ := by
    intro r a
    have e1 : a.val / (m - 1) = 0 := Nat.div_eq_of_lt (hlt a)
    have e2 : a.val % (m - 1) = a.val := Nat.mod_eq_of_lt (hlt a)
    simp only [cyclePeriods, Matrix.of_apply, e1, e2, hk0, hdiff]
    rw [cycleIntM_eq, Nat.mul_comm, pow_mul]
    exact mul_comm _ _
  -- the vectors
  have hsumfin : ∀ f : Nat → ℂ, ∑ a : Fin (out.tree.e.length * (m - 1)), f a.val = ∑ a ∈ Finset.range (m - 1), f a := by
    intro f
    rw [← Finset.sum_range f, hlen, Nat.one_mul]
  let w : Matrix (Fin c.shape.g) (Fin (out.tree.e.length * (m - 1))) ℂ := Matrix.of fun r a => C0 r * ((z r - (z r)⁻¹)⁻¹ * ((z r ^ a.val)⁻¹ - z r))
  have hw : w * (cc.toMat (out.tree.e.length * (m - 1))).map (Int.cast : ℤ → ℂ) = cyclePeriods m x out.tree.e Y c.shape := by
    funext r b
    rw [Matrix.mul_apply, hPi]
    have : ∀ a, w r a * (cc.toMat (out.tree.e.length * (m - 1))).map (Int.cast : ℤ → ℂ) a b = C0 r * ((z r - (z r)⁻¹)⁻¹ * ((z r ^ a.val)⁻¹ - z r) * ((selfNumber a.val b.val : ℤ) : ℂ)) := by
      intro a
      rw [Matrix.map_apply, hnum]
      simp only [w, Matrix.of_apply]
      ring
    simp only [this]
    rw [← Finset.mul_sum, hsumfin (fun a => (z r - (z r)⁻¹)⁻¹ * ((z r ^ a)⁻¹ - z r) * ((selfNumber a b.val : ℤ) : ℂ)), char_form hm2 (hz r) (hz2 r) (hlt b)]
  let w' : Matrix (Fin c.shape.g) (Fin (out.tree.e.length * (m - 1))) ℂ := w.map (starRingEnd ℂ)
  have hw' : w' * (cc.toMat (out.tree.e.length * (m - 1))).map (Int.cast : ℤ → ℂ) = (cyclePeriods m x out.tree.e Y c.shape).map (starRingEnd ℂ) := by
    rw [← hw]
    funext r b
    simp only [Matrix.mul_apply, Matrix.map_apply, map_sum, map_mul, w', map_intCast]
  have hJ := form_std hr hm2 hr.positive
  obtain ⟨-, hU, hg2, -⟩ := hr.whole
  have hb1 := bilinear hg2 hU hJ w w
  have hb2 := bilinear hg2 hU hJ w w'
  rw [hw] at hb1
  rw [hw, hw'] at hb2
  have hconj : ∀ (s : Fin c.shape.g) (a : Fin (out.tree.e.length * (m - 1))), ((cyclePeriods m x out.tree.e Y c.shape).map (starRingEnd ℂ) * (Q.map (Int.cast : ℤ → ℂ)).transpose) s a =
      (starRingEnd ℂ) ((cyclePeriods m x out.tree.e Y c.shape * (Q.map (Int.cast : ℤ → ℂ)).transpose) s a) := by
    intro s a
    simp only [Matrix.mul_apply, Matrix.map_apply, Matrix.transpose_apply, map_sum, map_mul, map_intCast]
  simp only [hconj] at hb2
  -- the values of the form
  have hv1 : ∀ r s, (cyclePeriods m x out.tree.e Y c.shape * w.transpose) r s = 0 := by
    intro r s
    rw [Matrix.mul_apply]
    have : ∀ a : Fin (out.tree.e.length * (m - 1)), cyclePeriods m x out.tree.e Y c.shape r a * w.transpose a s = C0 r * C0 s * (z s - (z s)⁻¹)⁻¹ * ((z r ^ a.val)⁻¹ * ((z s ^ a.val)⁻¹ - z s)) := by
      intro a
      rw [hPi, Matrix.transpose_apply]
      simp only [w, Matrix.of_apply]
      ring
    simp only [this]
    rw [← Finset.mul_sum, hsumfin (fun a => (z r ^ a)⁻¹ * ((z s ^ a)⁻¹ - z s)), sum_chars (by omega) (hz r) (hz s) (hz1 r), if_neg (hzz r s), mul_zero]
  have hv2 : ∀ r s, (cyclePeriods m x out.tree.e Y c.shape * w'.transpose) r s = if r = s then -Complex.I * ((-(m * Complex.normSq (C0 r)) / (2 * (z r).im) : ℝ) : ℂ) else 0 := by
    intro r s
    rw [Matrix.mul_apply]
    have : ∀ a : Fin (out.tree.e.length * (m - 1)), cyclePeriods m x out.tree.e Y c.shape r a * w'.transpose a s =
        C0 r * (starRingEnd ℂ) (C0 s) * ((z s)⁻¹ - z s)⁻¹ * ((z r ^ a.val)⁻¹ * ((((z s)⁻¹) ^ a.val)⁻¹ - (z s)⁻¹)) := by
      intro a
      rw [hPi, Matrix.transpose_apply]
      simp only [w', w, Matrix.map_apply, Matrix.of_apply, map_mul, map_sub, map_inv₀, map_pow, hzconj, inv_inv]
      ring
    simp only [this]
    have hzs : ((z s)⁻¹) ^ m = 1 := by rw [inv_pow, hz, inv_one]
    rw [← Finset.mul_sum, hsumfin (fun a => (z r ^ a)⁻¹ * ((((z s)⁻¹) ^ a)⁻¹ - (z s)⁻¹)), sum_chars (by omega) (hz r) hzs (hz1 r)]
    have hs0 : z s ≠ 0 := fun h0 => by have := hznorm s; rw [h0, norm_zero] at this; exact zero_ne_one this
    by_cases hrs : r = s
    · subst hrs
      rw [if_pos rfl, if_pos (mul_inv_cancel₀ hs0), Complex.mul_conj]
      have hd : (z r)⁻¹ - z r = -(2 * (z r).im : ℝ) * Complex.I := by
        rw [← hzconj]
        apply Complex.ext
        · simp
        · simp; ring
      have him : ((z r).im : ℂ) ≠ 0 := Complex.ofReal_ne_zero.2 (hzim r).ne
      rw [hd]
      push_cast
      field_simp
      rw [Complex.I_sq]
      ring
    · rw [if_neg hrs, if_neg, mul_zero]
      intro h0
      apply hrs
      apply hzinj
      exact (mul_inv_eq_one₀ hs0).1 h0
  refine riemann_of_bilinear (e := fun r => -(m * Complex.normSq (C0 r)) / (2 * (z r).im)) (fun r => ?_) ?_ fun r s => ?_
  · refine div_pos_of_neg_of_neg ?_ (by have := hzim r; linarith)
    have h1 : (0 : ℝ) < m := by exact_mod_cast (by omega : 0 < m)
    have h2 := Complex.normSq_pos.2 (hC0 r)
    nlinarith
  · funext r s
    have := hb1 r s
    rw [hv1] at this
    rw [Matrix.sub_apply, Matrix.mul_apply, Matrix.mul_apply, ← Finset.sum_sub_distrib, Matrix.zero_apply, ← this]
    refine Finset.sum_congr rfl fun i _ => ?_
    rw [Matrix.transpose_apply, Matrix.transpose_apply, (periodsOf_rows hr hm2 r i).1, (periodsOf_rows hr hm2 r i).2, (periodsOf_rows hr hm2 s i).1, (periodsOf_rows hr hm2 s i).2]
  · rw [← hv2, ← hb2]
    refine Finset.sum_congr rfl fun i _ => ?_
    rw [(periodsOf_rows hr hm2 r i).1, (periodsOf_rows hr hm2 r i).2, (periodsOf_rows hr hm2 s i).1, (periodsOf_rows hr hm2 s i).2]

/-- the last step of a run: `tau` from the matrices of periods -/
noncomputable def tauStep (V : AjEnv A B C W O) {g : Nat} (flag : Nat) (out : AjOut A W O g) : Res (AjOut A W O g) :=
  match out.omega with
  | none => .ok out
  | some (om0, om1) => tauMatrix O (n := g) (m := g) (V.mat om0) (V.mat om1) >>= fun t => .ok { out with tau := some (if flag &&& ajTrim ≠ 0 then V.trimTau t else t) }

/-- the run with `tau`, from the run without it -/
theorem ajRun_tau (V : AjEnv A B C W O) (fuel : Nat) {c : Sec} {flag flag' : Nat} (hty : intType flag c.m c.n = .d2) (hty' : intType flag' c.m c.n = .d2) (f1 : flag &&& ajNoInt = 0) (f2 : flag &&& ajNoAb = 0) (f3 : flag &&& ajNoTau = 0)
    (g1 : flag' &&& ajNoInt = 0) (g2 : flag' &&& ajNoAb = 0) (g3 : flag' &&& ajNoTau ≠ 0) (g4 : flag' &&& ajTrim = flag &&& ajTrim) (prec : Int) (tr0 : Tree W) :
    ajRun V fuel c flag prec tr0 = ajRun V fuel c flag' prec tr0 >>= tauStep V flag := by
  have e1 : ajTree V c flag' prec tr0 = ajTree V c flag prec tr0 := by
    unfold ajTree
    rw [hty, hty']
  have e3 : ∀ om, trimIf V flag' om = trimIf V flag om := by
    intro om
    unfold trimIf
    rw [g4]
  unfold ajRun
  rw [e1]
  rcases ajTree V c flag prec tr0 with ⟨tr, intprec, data⟩ | _ | _ | _ <;> try rfl
  simp only [Res.ok_bind, hty, hty']
  rcases symplecticBasis V.xgcd fuel (shiftOracle (V.ar 64) (V.tests 64) data c.shape.m) tr.e c.shape.m c.shape.g with ⟨al, be⟩ | _ | _ | _ <;> try rfl
  simp only [Res.ok_bind]
  rw [if_neg (not_not.2 f1), if_neg (not_not.2 g1)]
  rcases arbPrec intprec with _ | _ | _ | _ <;> try rfl
  simp only [Res.ok_bind]
  have e2 : ajIntegrals V fuel c.shape flag' intprec .d2 tr.e data = ajIntegrals V fuel c.shape flag intprec .d2 tr.e data := rfl
  rw [e2]
  rcases ajIntegrals V fuel c.shape flag intprec .d2 tr.e data with I | _ | _ | _ <;> try rfl
  simp only [Res.ok_bind]
  rw [if_neg (not_not.2 f2), if_neg (not_not.2 g2)]
  rcases periodMatrix (V.ar intprec) c.shape al tr.n I with om0 | _ | _ | _ <;> try rfl
  simp only [Res.ok_bind]
  rcases periodMatrix (V.ar intprec) c.shape be tr.n I with om1 | _ | _ | _ <;> try rfl
  simp only [Res.ok_bind]
  rw [if_neg (not_not.2 f3), if_pos g3, e3, e3]
  rfl

/-- an option asking for the same trimming but no `tau` -/
theorem flag_noTau (flag : Nat) : ∃ flag' : Nat, flag' &&& ajUseDe = 0 ∧ flag' &&& ajNoInt = 0 ∧ flag' &&& ajNoAb = 0 ∧ flag' &&& ajNoTau ≠ 0 ∧ flag' &&& ajTrim = flag &&& ajTrim := by
  have h : flag &&& ajTrim = 2 ^ 4 * (flag.testBit 4).toNat := (Nat.and_comm _ _).trans (Nat.two_pow_and flag 4)
  rw [h]
  cases flag.testBit 4
  · exact ⟨2, by decide, by decide, by decide, by decide, by decide⟩
  · exact ⟨18, by decide, by decide, by decide, by decide, by decide⟩

/-- **C61 (runs with two branch points).** In the situation of `C56_quadratic`, when `tau` is wanted: `abel_jacobi_compute` aborts because the ball of the constant of the edge, which is not zero, contains zero; or aborts because the
ball of the determinant contains zero although the exact matrix of periods contained in the matrix of balls is invertible; or returns a matrix of balls containing a Riemann matrix, or, when all solvers but the last fail, the opposite of a Riemann matrix (C30). -/
theorem C61_quadratic {RB : B → ℝ → Prop} {RM : {n m : Nat} → O.M n m → Matrix (Fin n) (Fin m) ℝ → Prop} {RC : {n m : Nat} → O.C n m → Matrix (Fin n) (Fin m) ℂ → Prop} {RK : O.K → ℂ → Prop} (M : MatEncl O RM RC RK)
    {V : AjEnv A B C W O} (S : V.Sound R RB RC) {m : Nat} (hm : 2 < m) {c : Sec} (h : secInit m 2 = .ok c) {tr0 : Tree W} (ht : (tr0.n : Int) = treeEdges c)
    {fuel flag : Nat} (hfuel : 1 ≤ fuel) (hflag : flag &&& ajUseDe = 0) (f1 : flag &&& ajNoInt = 0) (f2 : flag &&& ajNoAb = 0) (f3 : flag &&& ajNoTau = 0) {prec : Int}
    (hprec : ∀ ed : Edge W, ed.a < 2 → ed.b < 2 → ed.a ≠ ed.b → ∃ e, extraprecTree (V.ar 64) V.mag [ed] (V.roots 64) c.shape = .ok e ∧ 2 ≤ prec + e ∧ FitsSlong (prec + e) ∧ FitsSlong (prec + e + 10))
    {x' : Int → Nat → ℂ} (hx : ∀ p, x' p 0 ≠ x' p 1) (hR : ∀ p k, 2 ≤ p → R (V.roots p k) (x' p k)) :
    (ajRun V fuel c flag prec tr0 = .abort "Cab contains 0" ∧ ∃ (p : Int) (v : A) (z : ℂ), R v z ∧ z ≠ 0 ∧ (V.tests p).hasZero v = true) ∨
      (ajRun V fuel c flag prec tr0 = .abort "matrix is not invertible" ∧ ∃ (om : Nat → Nat → A) (P : Matrix (Fin c.shape.g) (Fin c.shape.g) ℂ), (∀ r k : Fin c.shape.g, R (om r k) (P r k)) ∧ P.det ≠ 0 ∧
        O.detHasZero (V.mat (g := c.shape.g) om) = true) ∨
      ∃ out t tau, ajRun V fuel c flag prec tr0 = .ok out ∧ out.tau = some t ∧ RC t tau ∧ (IsRiemannMatrix tau ∨
        (∃ om0 om1, out.omega = some (om0, om1) ∧ O.solve (V.mat om0) (V.mat (g := c.shape.g) om1) = none ∧ solveReal O (V.mat om0) (V.mat (g := c.shape.g) om1) = none ∧ solveReal O (O.mulI (V.mat om0)) (O.mulI (V.mat (g := c.shape.g) om1)) = none) ∧
          IsRiemannMatrix (-tau)) := by
  obtain ⟨hm1, e1, e2, -⟩ := secInit_fields h le_rfl
  have hty : ∀ fl, fl &&& ajUseDe = 0 → intType fl c.m c.n = .d2 := by
    intro fl hfl
    unfold intType
    rw [if_neg, if_neg]
    · omega
    · rw [e2]
      push Not
      exact ⟨hfl, fun _ => le_rfl⟩
  rcases C56_quadratic M S hm h ht hfuel hflag hprec hx hR with ⟨q1, p, a, b, -, -, -, -, v, z, q2, q3, q4⟩ | ⟨q1, -⟩ | ⟨out, q1, Y, ca, cb, cc, Q, hr⟩
  · exact Or.inl ⟨q1, p, v, z, q2, q3, q4⟩
  · right; left
    refine ⟨q1, ?_⟩
    obtain ⟨flag', g0, g1, g2, g3, g4⟩ := flag_noTau flag
    have hrun := ajRun_tau V fuel (hty _ hflag) (hty _ g0) f1 f2 f3 g1 g2 g3 g4 prec tr0
    rcases C56_quadratic M S hm h ht hfuel g0 hprec hx hR with ⟨w1, -, a, b, -, -, -, w2, -⟩ | ⟨-, -, -, w1, -⟩ | ⟨out, w1, Y, ca, cb, cc, Q, hr⟩
    · rw [hrun, w1] at q1
      exact absurd (Res.abort.inj q1) (by decide)
    · exact absurd w1 g3
    · obtain ⟨⟨om0, om1⟩, k1⟩ := Option.isSome_iff_exists.1 ((C56_fields w1).2.1.2 ⟨g1, g2⟩)
      refine ⟨om0, periodsOf m (x' (out.intprec + 10)) out.tree.e Y c.shape out.loopA, fun r k => (hr.omega om0 om1 k1 r k).1, (C61_riemann_partial hm h (hx _) hr).1, ?_⟩
      rcases C29_outcomes O (n := c.shape.g) (m := c.shape.g) (V.mat om0) (V.mat om1) with ⟨t, e⟩ | ⟨-, e', -⟩
      · rw [hrun, w1, Res.ok_bind, tauStep] at q1
        simp only [k1, e, Res.ok_bind] at q1
        cases q1
      · exact e'
  · right; right
    obtain ⟨-, k2, k3⟩ := C56_fields q1
    obtain ⟨⟨om0, om1⟩, ho⟩ := Option.isSome_iff_exists.1 (k2.2 ⟨f1, f2⟩)
    obtain ⟨t, hto⟩ := Option.isSome_iff_exists.1 (k3.2 ⟨f1, f2, f3⟩)
    obtain ⟨tau, t1, t2⟩ := hr.tau om0 om1 t ho hto
    obtain ⟨-, hrm⟩ := C61_riemann_partial hm h (hx _) hr
    refine ⟨out, t, tau, q1, hto, t1, ?_⟩
    rcases t2 with t2 | ⟨s1, s2, s3, s4⟩
    · exact Or.inl (hrm tau ((t2 tau).2 rfl))
    · refine Or.inr ⟨⟨om0, om1, ho, s1, s2, s3⟩, hrm (-tau) ?_⟩
      rw [Matrix.mul_neg, s4, neg_neg]

end Hcp
