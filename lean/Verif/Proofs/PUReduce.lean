import Verif.Proofs.SympOutcome
import Mathlib.LinearAlgebra.Matrix.SchurComplement
import Mathlib.Tactic.FinCases

/-!
# The reduction of a principally unimodular form

All principal minors being `0` or `±1`, every pivot is a unit, each block is done in one pass, and the coefficients of the base change are `0` or `±1`.
-/

namespace Hcp
open Spec

/-- all principal minors (of families of indices) are at most 1 in absolute value -/
def PrincipallyUnimodular {ι : Type} (A : Matrix ι ι ℤ) : Prop :=
  ∀ (κ : Type) [Fintype κ] [DecidableEq κ] (f : κ → ι), (A.submatrix f f).det.natAbs ≤ 1

/-- a minor containing a hyperbolic pair -/
theorem pivot_det {ι κ : Type} [Fintype κ] [DecidableEq κ] (A : Matrix ι ι ℤ) {s t : ι} (hss : A s s = 0) (htt : A t t = 0) (hst : A s t = 1) (hts : A t s = -1)
    (f : κ → ι) : (A.submatrix (Sum.elim ![s, t] f) (Sum.elim ![s, t] f)).det =
      (Matrix.of fun x y => A (f x) (f y) - A (f x) t * A s (f y) + A (f x) s * A t (f y)).det := by
  let D : Matrix (Fin 2) (Fin 2) ℤ := !![0, 1; -1, 0]
  let D' : Matrix (Fin 2) (Fin 2) ℤ := !![0, -1; 1, 0]
  let _ : Invertible D := ⟨D', by decide, by decide⟩
  let B : Matrix (Fin 2) κ ℤ := fun a y => A (![s, t] a) (f y)
  let C : Matrix κ (Fin 2) ℤ := fun x b => A (f x) (![s, t] b)
  have e : A.submatrix (Sum.elim ![s, t] f) (Sum.elim ![s, t] f) = Matrix.fromBlocks D B C (A.submatrix f f) := by
    ext (a | a) (b | b)
    · fin_cases a <;> fin_cases b <;> simp [D, hss, htt, hst, hts]
    · rfl
    · rfl
    · rfl
  rw [e, Matrix.det_fromBlocks₁₁]
  have hD : D.det = 1 := by decide
  rw [hD, one_mul]
  congr 1
  ext x y
  have hinv : ⅟D = D' := rfl
  rw [hinv]
  rw [Matrix.sub_apply, Matrix.submatrix_apply, Matrix.mul_apply, Fin.sum_univ_two, Matrix.mul_apply, Matrix.mul_apply, Fin.sum_univ_two,
    Fin.sum_univ_two, Matrix.of_apply]
  have b0 : B 0 y = A s (f y) := rfl
  have b1 : B 1 y = A t (f y) := rfl
  have c0 : C x 0 = A (f x) s := rfl
  have c1 : C x 1 = A (f x) t := rfl
  have d00 : D' 0 0 = 0 := rfl
  have d01 : D' 0 1 = -1 := rfl
  have d10 : D' 1 0 = 1 := rfl
  have d11 : D' 1 1 = 0 := rfl
  rw [b0, b1, c0, c1, d00, d01, d10, d11]
  ring

variable {r : Nat}

/-- the form together with the base change -/
def extM (st : St r) (Z : Mat r) : Matrix (Fin r ⊕ Fin r) (Fin r ⊕ Fin r) ℤ := Matrix.fromBlocks st.M st.P (-st.P.transpose) Z

/-- minors avoiding the finished rows -/
def TailPU (d : Nat) (st : St r) : Prop :=
  ∃ Z : Mat r, ∀ (κ : Type) [Fintype κ] [DecidableEq κ] (f : κ → Fin r ⊕ Fin r),
    (∀ x k, f x = Sum.inl k → 2 * d ≤ k.val) → ((extM st Z).submatrix f f).det.natAbs ≤ 1

theorem det2 (a b c d : ℤ) : (!![a, b; c, d] : Matrix (Fin 2) (Fin 2) ℤ).det = a * d - b * c := Matrix.det_fin_two_of a b c d

theorem natAbs_le_one_of_sq {x : ℤ} (h : (x * x).natAbs ≤ 1) : x.natAbs ≤ 1 := by
  rw [Int.natAbs_mul] at h
  by_contra hc
  have : 2 ≤ x.natAbs := by omega
  nlinarith

theorem TailPU.entry {d : Nat} {st : St r} (h : TailPU d st) (ha : Antisymm st.M) {k l : Fin r} (hk : 2 * d ≤ k.val) (hl : 2 * d ≤ l.val) :
    (st.M k l).natAbs ≤ 1 := by
  obtain ⟨Z, h⟩ := h
  have := h (Fin 2) ![Sum.inl k, Sum.inl l] (by
    intro x y hx
    fin_cases x
    · obtain rfl := Sum.inl.inj hx; exact hk
    · obtain rfl := Sum.inl.inj hx; exact hl)
  rw [Matrix.det_fin_two] at this
  simp [extM, antisymm_diag ha] at this
  rw [ha l k] at this
  apply natAbs_le_one_of_sq
  simpa [Int.natAbs_mul] using this

theorem TailPU.coeff {d : Nat} {st : St r} (h : TailPU d st) (ha : Antisymm st.M) {k : Fin r} (hk : 2 * d ≤ k.val) (l : Fin r) :
    (st.P k l).natAbs ≤ 1 := by
  obtain ⟨Z, h⟩ := h
  have := h (Fin 2) ![Sum.inl k, Sum.inr l] (by
    intro x y hx
    fin_cases x
    · obtain rfl := Sum.inl.inj hx; exact hk
    · exact absurd hx (by simp))
  rw [Matrix.det_fin_two] at this
  simp [extM, antisymm_diag ha] at this
  apply natAbs_le_one_of_sq
  simpa [Int.natAbs_mul] using this

theorem TailPU.swap {d : Nat} {st : St r} (h : TailPU d st) {x y : Fin r} (hx : 2 * d ≤ x.val) (hy : 2 * d ≤ y.val) :
    TailPU d (cong2 st x y 0 1 1 0) := by
  obtain ⟨Z, h⟩ := h
  let σ : Fin r ⊕ Fin r → Fin r ⊕ Fin r := Sum.map (Equiv.swap x y) id
  have e : extM (cong2 st x y 0 1 1 0) Z = (extM st Z).submatrix σ σ := by
    have hs : ∀ a, Equiv.swap x y a = if a = y then x else if a = x then y else a := by
      intro a
      rw [Equiv.swap_comm, Equiv.swap_apply_def]
    ext (a | a) (b | b)
    · simp only [extM, σ, Matrix.fromBlocks_apply₁₁, Matrix.submatrix_apply, Sum.map_inl, hs, cong2, colBezout, rowBezout]
      split_ifs <;> ring
    · simp only [extM, σ, Matrix.fromBlocks_apply₁₂, Matrix.submatrix_apply, Sum.map_inl, Sum.map_inr, hs, cong2, rowBezout, id]
      split_ifs <;> ring
    · simp only [extM, σ, Matrix.fromBlocks_apply₂₁, Matrix.submatrix_apply, Sum.map_inl, Sum.map_inr, hs, cong2, rowBezout, id,
        Matrix.neg_apply, Matrix.transpose_apply]
      split_ifs <;> ring
    · rfl
  refine ⟨Z, fun κ _ _ f hf => ?_⟩
  rw [e, Matrix.submatrix_submatrix]
  refine h κ (σ ∘ f) ?_
  intro z k hz
  cases hfz : f z with
  | inl a =>
    have ha := hf z a hfz
    simp only [Function.comp_apply, hfz, σ, Sum.map_inl, Sum.inl.injEq] at hz
    rw [← hz, Equiv.swap_apply_def]
    split_ifs <;> assumption
  | inr a => simp [hfz, σ] at hz

theorem TailPU.neg {d : Nat} {st : St r} (h : TailPU d st) (x : Fin r) : TailPU d (negStep st x) := by
  obtain ⟨Z, h⟩ := h
  let v : Fin r ⊕ Fin r → ℤ := fun a => if a = Sum.inl x then -1 else 1
  have hv : ∀ a, v a * v a = 1 := by intro a; simp only [v]; split_ifs <;> rfl
  have e : ∀ a b, extM (negStep st x) Z a b = v a * extM st Z a b * v b := by
    rintro (a | a) (b | b)
    · simp only [extM, v, Matrix.fromBlocks_apply₁₁, negStep, colNeg, rowNeg, Sum.inl.injEq]
      split_ifs <;> ring
    · simp only [extM, v, Matrix.fromBlocks_apply₁₂, negStep, rowNeg, Sum.inl.injEq, reduceCtorEq, if_false]
      split_ifs <;> ring
    · simp only [extM, v, Matrix.fromBlocks_apply₂₁, negStep, rowNeg, Sum.inl.injEq, reduceCtorEq, if_false, Matrix.neg_apply, Matrix.transpose_apply]
      split_ifs <;> ring
    · simp [extM, v]
  refine ⟨Z, fun κ _ _ f hf => ?_⟩
  have e2 : (extM (negStep st x) Z).submatrix f f = Matrix.diagonal (fun z => v (f z)) * (extM st Z).submatrix f f * Matrix.diagonal (fun z => v (f z)) := by
    ext a b
    rw [Matrix.mul_diagonal, Matrix.diagonal_mul]
    exact e _ _
  rw [e2, Matrix.det_mul, Matrix.det_mul, Matrix.det_diagonal, mul_comm, ← mul_assoc, ← Finset.prod_mul_distrib]
  simp only [hv, Finset.prod_const_one, one_mul]
  exact h κ f hf

/-! ### the clearing loops with a unit pivot -/

theorem transvect_M (st : St r) {k c : Fin r} (q : ℤ) {a b : Fin r} (ha : a ≠ k) (hb : b ≠ k) : (transvectStep st k c q).M a b = st.M a b := by
  unfold transvectStep colAddmul rowAddmul
  simp [ha, hb]

theorem transvect_M_col (st : St r) {k c : Fin r} (q : ℤ) {a : Fin r} (ha : a ≠ k) : (transvectStep st k c q).M a k = st.M a k + q * st.M a c := by
  unfold transvectStep colAddmul rowAddmul
  simp [ha]

theorem transvect_P (st : St r) {k c : Fin r} (q : ℤ) (a b : Fin r) :
    (transvectStep st k c q).P a b = if a = k then st.P k b + q * st.P c b else st.P a b := rfl

theorem clearRowI_unit (xg : XGcd) {i j : Fin r} (hij : i ≠ j) : ∀ (ks : List (Fin r)) (st : St r), ks.Nodup → i ∉ ks → j ∉ ks → st.M i j = 1 → st.M j j = 0 →
    (∀ k b, (clearRowI xg i j ks st).P k b = if k ∈ ks then st.P k b - st.M i k * st.P j b else st.P k b) ∧
    (∀ k, (clearRowI xg i j ks st).M j k = st.M j k) ∧ (clearRowI xg i j ks st).M i j = 1
  | [], st, _, _, _, h, _ => by simp [clearRowI, h]
  | k :: ks, st, hnd, hi, hj, h, hjj => by
    obtain ⟨hk, hnd'⟩ := List.nodup_cons.1 hnd
    have hik : i ≠ k := fun e => hi (by simp [e])
    have hjk : j ≠ k := fun e => hj (by simp [e])
    have hi' : i ∉ ks := fun e => hi (List.mem_cons_of_mem _ e)
    have hj' : j ∉ ks := fun e => hj (List.mem_cons_of_mem _ e)
    unfold clearRowI
    split
    · rename_i h0
      obtain ⟨p1, p2, p3⟩ := clearRowI_unit xg hij ks st hnd' hi' hj' h hjj
      refine ⟨fun k' b => ?_, p2, p3⟩
      rw [p1]
      by_cases e : k' = k
      · subst e
        rw [if_neg hk, if_pos (by simp), h0]; ring
      · simp [e]
    · rw [if_pos (by rw [h]; exact one_dvd _)]
      have hq : st.M i k / st.M i j = st.M i k := by rw [h, Int.ediv_one]
      rw [hq]
      obtain ⟨p1, p2, p3⟩ := clearRowI_unit xg hij ks (transvectStep st k j (-st.M i k)) hnd' hi' hj'
        (by rw [transvect_M st _ hik hjk]; exact h) (by rw [transvect_M st _ hjk hjk]; exact hjj)
      refine ⟨fun k' b => ?_, fun k' => ?_, p3⟩
      · rw [p1, transvect_P, transvect_P, if_neg hjk]
        by_cases e : k' = k
        · subst e
          rw [if_neg hk, if_pos rfl, if_pos (by simp)]; ring
        · rw [if_neg e]
          simp only [List.mem_cons, e, false_or]
          by_cases g : k' ∈ ks
          · rw [if_pos g, if_pos g, transvect_M st _ hik e]
          · rw [if_neg g, if_neg g]
      · rw [p2]
        by_cases e : k' = k
        · subst e
          rw [transvect_M_col st _ hjk, hjj]; ring
        · exact transvect_M st _ hjk e

theorem clearRowJ_unit (xg : XGcd) {i j : Fin r} (hij : i ≠ j) : ∀ (ks : List (Fin r)) (st : St r) (cl : Bool), ks.Nodup → i ∉ ks → j ∉ ks → st.M i j = 1 →
    (clearRowJ xg i j ks st cl).2 = cl ∧
    (∀ k b, (clearRowJ xg i j ks st cl).1.P k b = if k ∈ ks then st.P k b + st.M j k * st.P i b else st.P k b)
  | [], st, cl, _, _, _, h => by simp [clearRowJ]
  | k :: ks, st, cl, hnd, hi, hj, h => by
    obtain ⟨hk, hnd'⟩ := List.nodup_cons.1 hnd
    have hik : i ≠ k := fun e => hi (by simp [e])
    have hjk : j ≠ k := fun e => hj (by simp [e])
    have hi' : i ∉ ks := fun e => hi (List.mem_cons_of_mem _ e)
    have hj' : j ∉ ks := fun e => hj (List.mem_cons_of_mem _ e)
    unfold clearRowJ
    split
    · rename_i h0
      obtain ⟨p1, p2⟩ := clearRowJ_unit xg hij ks st cl hnd' hi' hj' h
      refine ⟨p1, fun k' b => ?_⟩
      rw [p2]
      by_cases e : k' = k
      · subst e
        rw [if_neg hk, if_pos (by simp), h0]; ring
      · simp [e]
    · rw [if_pos (by rw [h]; exact one_dvd _)]
      have hq : st.M j k / st.M i j = st.M j k := by rw [h, Int.ediv_one]
      rw [hq]
      obtain ⟨p1, p2⟩ := clearRowJ_unit xg hij ks (transvectStep st k i (st.M j k)) cl hnd' hi' hj'
        (by rw [transvect_M st _ hik hjk]; exact h)
      refine ⟨p1, fun k' b => ?_⟩
      rw [p2, transvect_P, transvect_P, if_neg hik]
      by_cases e : k' = k
      · subst e
        rw [if_neg hk, if_pos rfl, if_pos (by simp)]
      · rw [if_neg e]
        simp only [List.mem_cons, e, false_or]
        by_cases g : k' ∈ ks
        · rw [if_pos g, if_pos g, transvect_M st _ hjk e]
        · rw [if_neg g, if_neg g]

theorem idxRange_nodup (lo hi : Nat) : (idxRange r lo hi).Nodup := (List.nodup_finRange r).filter _

/-- with a unit pivot one pass is enough -/
theorem sweep_unit (xg : XGcd) {M0 : Mat r} {d len : Nat} {i j : Fin r} (hi : i.val = 2 * d) (hj : j.val = 2 * d + 1) (hjl : j.val < len)
    {st : St r} (hfr : Fr M0 d len st) (h1 : st.M i j = 1) :
    ∃ st', (∀ fuel, sweep xg i j (idxRange r (2 * d + 2) len) (fuel + 1) st = .ok st') ∧ Fr M0 d len st' ∧ Keep d st st' ∧ st'.M i j = 1 ∧
      (∀ k : Fin r, 2 * d + 2 ≤ k.val → st'.M i k = 0 ∧ st'.M j k = 0) ∧
      (∀ k b, k.val < 2 * d + 2 → st'.P k b = st.P k b) ∧
      (∀ k b, 2 * d + 2 ≤ k.val → st'.P k b = st.P k b - st.M i k * st.P j b + st.M j k * st.P i b) := by
  have hij : i ≠ j := by rintro rfl; omega
  have hiks : i ∉ idxRange r (2 * d + 2) len := by rw [mem_idxRange]; omega
  have hjks : j ∉ idxRange r (2 * d + 2) len := by rw [mem_idxRange]; omega
  have hks : ∀ k ∈ idxRange r (2 * d + 2) len, 2 * d + 2 ≤ k.val ∧ k.val < len := fun k hk => mem_idxRange.1 hk
  obtain ⟨p1, p2, p3, p4, p5, p6⟩ := clearRowI_spec xg hi hj hjl _ st hks hfr (by rw [h1]; decide)
  obtain ⟨q1, q2, q3, q4, q5, q6⟩ := clearRowJ_spec xg hi hj hjl _ _ true hks p1 p3
  obtain ⟨u1, u2, u3⟩ := clearRowI_unit xg hij _ st (idxRange_nodup _ _) hiks hjks h1 (antisymm_diag hfr.inv.anti j)
  obtain ⟨v1, v2⟩ := clearRowJ_unit xg hij _ _ true (idxRange_nodup (2 * d + 2) len) hiks hjks u3
  obtain ⟨-, r2, r3⟩ := q5 v1
  refine ⟨(clearRowJ xg i j (idxRange r (2 * d + 2) len) (clearRowI xg i j (idxRange r (2 * d + 2) len) st) true).1, ?_, q1, p2.trans q2, ?_, ?_, ?_, ?_⟩
  · intro fuel
    unfold sweep
    dsimp only
    rw [v1]; rfl
  · rw [r2 j, u3]
  · intro k hk
    refine ⟨?_, ?_⟩
    · rw [r2 k]
      by_cases hkl : k.val < len
      · exact p6 k hk (Or.inl (mem_idxRange.2 ⟨hk, hkl⟩))
      · exact p1.tail' (by omega)
    · by_cases hkl : k.val < len
      · exact r3 k hk (Or.inl (mem_idxRange.2 ⟨hk, hkl⟩))
      · exact q1.tail' (by omega)
  · intro k b hk
    have : k ∉ idxRange r (2 * d + 2) len := by rw [mem_idxRange]; omega
    rw [v2, if_neg this, u1, if_neg this]
  · intro k b hk
    by_cases hkl : k.val < len
    · have : k ∈ idxRange r (2 * d + 2) len := by rw [mem_idxRange]; omega
      rw [v2, if_pos this, u1, if_pos this, u2, u1, if_neg hiks]
    · have : k ∉ idxRange r (2 * d + 2) len := by rw [mem_idxRange]; omega
      rw [v2, if_neg this, u1, if_neg this, hfr.tail' (by omega), hfr.tail' (by omega)]; ring

theorem Inv.form {M0 : Mat r} {st : St r} (h : Inv M0 st) (a b : Fin r) : st.M a b = ∑ x, ∑ y, st.P a x * M0 x y * st.P b y := by
  rw [h.cong]
  simp only [Matrix.mul_apply, Matrix.transpose_apply, Finset.sum_mul]
  rw [Finset.sum_comm]

/-- the form after the sweep -/
theorem form_after {M0 : Mat r} {st st' : St r} (h : Inv M0 st) (h' : Inv M0 st') {i j k l : Fin r} (h1 : st.M i j = 1)
    (hk : ∀ b, st'.P k b = st.P k b - st.M i k * st.P j b + st.M j k * st.P i b)
    (hl : ∀ b, st'.P l b = st.P l b - st.M i l * st.P j b + st.M j l * st.P i b) :
    st'.M k l = st.M k l - st.M k j * st.M i l + st.M k i * st.M j l := by
  let B : (Fin r → ℤ) → (Fin r → ℤ) → ℤ := fun u v => ∑ x, ∑ y, u x * M0 x y * v y
  have hB : ∀ a b, st.M a b = B (st.P a) (st.P b) := h.form
  have add1 : ∀ u u' v, B (u + u') v = B u v + B u' v := by
    intro u u' v
    simp only [B, Pi.add_apply, ← Finset.sum_add_distrib]
    exact Finset.sum_congr rfl fun x _ => Finset.sum_congr rfl fun y _ => by ring
  have add2 : ∀ u v v', B u (v + v') = B u v + B u v' := by
    intro u v v'
    simp only [B, Pi.add_apply, ← Finset.sum_add_distrib]
    exact Finset.sum_congr rfl fun x _ => Finset.sum_congr rfl fun y _ => by ring
  have smul1 : ∀ (c : ℤ) u v, B (c • u) v = c * B u v := by
    intro c u v
    simp only [B, Pi.smul_apply, smul_eq_mul, Finset.mul_sum]
    exact Finset.sum_congr rfl fun x _ => Finset.sum_congr rfl fun y _ => by ring
  have smul2 : ∀ (c : ℤ) u v, B u (c • v) = c * B u v := by
    intro c u v
    simp only [B, Pi.smul_apply, smul_eq_mul, Finset.mul_sum]
    exact Finset.sum_congr rfl fun x _ => Finset.sum_congr rfl fun y _ => by ring
  have ek : st'.P k = st.P k + ((-st.M i k) • st.P j + st.M j k • st.P i) := by
    funext b; rw [hk]; simp only [Pi.add_apply, Pi.smul_apply, smul_eq_mul]; ring
  have el : st'.P l = st.P l + ((-st.M i l) • st.P j + st.M j l • st.P i) := by
    funext b; rw [hl]; simp only [Pi.add_apply, Pi.smul_apply, smul_eq_mul]; ring
  have e0 : st'.M k l = B (st'.P k) (st'.P l) := h'.form k l
  rw [e0, ek, el]
  simp only [add1, add2, smul1, smul2, ← hB]
  rw [antisymm_diag h.anti i, antisymm_diag h.anti j, h1, h.anti j i, h1, h.anti i k, h.anti j k]
  ring

theorem TailPU.sweep {M0 : Mat r} {d : Nat} {i j : Fin r} (hi : i.val = 2 * d) (hj : j.val = 2 * d + 1) {st st' : St r} (h : TailPU d st)
    (hv : Inv M0 st) (hv' : Inv M0 st') (h1 : st.M i j = 1)
    (hP : ∀ k b, 2 * d + 2 ≤ k.val → st'.P k b = st.P k b - st.M i k * st.P j b + st.M j k * st.P i b) : TailPU (d + 1) st' := by
  obtain ⟨Z, h⟩ := h
  refine ⟨fun a b => Z a b + st.P j a * st.P i b - st.P i a * st.P j b, fun κ _ _ f hf => ?_⟩
  have hA := h (Fin 2 ⊕ κ) (Sum.elim ![Sum.inl i, Sum.inl j] f) (by
    rintro (x | x) k hx
    · fin_cases x
      · obtain rfl := Sum.inl.inj hx; omega
      · obtain rfl := Sum.inl.inj hx; omega
    · have := hf x k hx; omega)
  rw [pivot_det (extM st Z) (s := Sum.inl i) (t := Sum.inl j) (antisymm_diag hv.anti i) (antisymm_diag hv.anti j) h1
    (by change st.M j i = -1; rw [hv.anti, h1])] at hA
  have e : (extM st' (fun a b => Z a b + st.P j a * st.P i b - st.P i a * st.P j b)).submatrix f f =
      Matrix.of fun x y => extM st Z (f x) (f y) - extM st Z (f x) (Sum.inl j) * extM st Z (Sum.inl i) (f y) +
        extM st Z (f x) (Sum.inl i) * extM st Z (Sum.inl j) (f y) := by
    ext x y
    rw [Matrix.submatrix_apply, Matrix.of_apply]
    have hx := hf x
    have hy := hf y
    cases hfx : f x with
    | inl k =>
      have hk := hx k hfx
      cases hfy : f y with
      | inl l =>
        have hl := hy l hfy
        exact form_after hv hv' h1 (fun b => hP k b (by omega)) (fun b => hP l b (by omega))
      | inr l =>
        change st'.P k l = st.P k l - st.M k j * st.P i l + st.M k i * st.P j l
        rw [hP k l (by omega), hv.anti k j, hv.anti k i]; ring
    | inr k =>
      cases hfy : f y with
      | inl l =>
        have hl := hy l hfy
        change -st'.P l k = -st.P l k - -st.P j k * st.M i l + -st.P i k * st.M j l
        rw [hP l k (by omega)]; ring
      | inr l =>
        change Z k l + st.P j k * st.P i l - st.P i k * st.P j l = Z k l - -st.P j k * st.P i l + -st.P i k * st.P j l
        ring
  rw [e]; exact hA

theorem TailPU.init {M : Mat r} (ha : Antisymm M) (h : PrincipallyUnimodular M) : TailPU 0 ({ P := 1, M := M } : St r) := by
  refine ⟨0, ?_⟩
  have main : ∀ (n : Nat) (κ : Type) [Fintype κ] [DecidableEq κ] (f : κ → Fin r ⊕ Fin r), Fintype.card κ = n →
      ((extM ({ P := 1, M := M } : St r) 0).submatrix f f).det.natAbs ≤ 1 := by
    intro n
    induction n using Nat.strong_induction_on with
    | _ n ih =>
      intro κ _ _ f hn
      by_cases hall : ∀ x, ∃ k, f x = Sum.inl k
      · choose g hg using hall
        have : (extM ({ P := 1, M := M } : St r) 0).submatrix f f = M.submatrix g g := by
          ext x y
          rw [Matrix.submatrix_apply, hg x, hg y]; rfl
        rw [this]; exact h κ g
      · push Not at hall
        obtain ⟨x, hx⟩ := hall
        obtain ⟨t, ht⟩ : ∃ t, f x = Sum.inr t := by
          cases e : f x with
          | inl k => exact absurd e (hx k)
          | inr t => exact ⟨t, rfl⟩
        by_cases hinj : Function.Injective f
        · by_cases hy : ∃ y, f y = Sum.inl t
          · obtain ⟨y, hy⟩ := hy
            have hyx : y ≠ x := by rintro rfl; rw [ht] at hy; cases hy
            let κ' := {z // z ≠ y ∧ z ≠ x}
            let φ : Fin 2 ⊕ κ' → κ := Sum.elim ![y, x] Subtype.val
            have hφ : Function.Bijective φ := by
              constructor
              · rintro (a | a) (b | b) hab
                · fin_cases a <;> fin_cases b <;> simp_all [φ]
                · exfalso
                  fin_cases a
                  · exact b.2.1 hab.symm
                  · exact b.2.2 hab.symm
                · exfalso
                  fin_cases b
                  · exact a.2.1 hab
                  · exact a.2.2 hab
                · exact congrArg Sum.inr (Subtype.ext hab)
              · intro z
                by_cases h1 : z = y
                · exact ⟨Sum.inl 0, by simp [φ, h1]⟩
                · by_cases h2 : z = x
                  · exact ⟨Sum.inl 1, by simp [φ, h2]⟩
                  · exact ⟨Sum.inr ⟨z, h1, h2⟩, rfl⟩
            let e : Fin 2 ⊕ κ' ≃ κ := Equiv.ofBijective φ hφ
            have hcard : Fintype.card κ' < n := by
              have := Fintype.card_congr e
              rw [Fintype.card_sum, Fintype.card_fin, hn] at this
              omega
            rw [← Matrix.det_submatrix_equiv_self e, Matrix.submatrix_submatrix]
            have hfe : f ∘ e = Sum.elim ![f y, f x] (fun z : κ' => f z) := by
              funext z
              rcases z with z | z
              · fin_cases z <;> rfl
              · rfl
            rw [hfe, hy, ht]
            rw [pivot_det (extM ({ P := 1, M := M } : St r) 0) (s := Sum.inl t) (t := Sum.inr t) (antisymm_diag ha t) rfl (by simp [extM])
              (by simp [extM])]
            have hz : ∀ z : κ', extM ({ P := 1, M := M } : St r) 0 (f z) (Sum.inr t) = 0 ∧ extM ({ P := 1, M := M } : St r) 0 (Sum.inr t) (f z) = 0 := by
              intro z
              cases hfz : f z with
              | inl k =>
                have hkt : k ≠ t := fun e => z.2.1 (hinj (by rw [hfz, hy, e]))
                simp [extM, hkt, Matrix.one_apply_ne hkt.symm]
              | inr k => simp [extM]
            have e2 : (Matrix.of fun a b : κ' => extM ({ P := 1, M := M } : St r) 0 (f a) (f b) -
                extM ({ P := 1, M := M } : St r) 0 (f a) (Sum.inr t) * extM ({ P := 1, M := M } : St r) 0 (Sum.inl t) (f b) +
                extM ({ P := 1, M := M } : St r) 0 (f a) (Sum.inl t) * extM ({ P := 1, M := M } : St r) 0 (Sum.inr t) (f b)) =
                (extM ({ P := 1, M := M } : St r) 0).submatrix (fun z : κ' => f z) (fun z : κ' => f z) := by
              ext a b
              rw [Matrix.of_apply, (hz a).1, (hz b).2]
              simp
            rw [e2]
            exact ih _ hcard κ' _ rfl
          · rw [Matrix.det_eq_zero_of_row_eq_zero x]
            · decide
            · intro y
              rw [Matrix.submatrix_apply, ht]
              cases hfy : f y with
              | inl k =>
                have : k ≠ t := fun e => hy ⟨y, by rw [hfy, e]⟩
                simp [extM, Matrix.one_apply_ne this.symm]
              | inr k => simp [extM]
        · unfold Function.Injective at hinj
          push Not at hinj
          obtain ⟨a, b, hab, hne⟩ := hinj
          rw [Matrix.det_zero_of_row_eq hne]
          · decide
          · funext y
            simp only [Matrix.submatrix_apply, hab]
  intro κ _ _ f _
  exact main _ κ f rfl

/-! ### the swaps -/

/-- what the swaps and the sign change preserve -/
structure Good (d : Nat) (st0 st : St r) : Prop where
  pu : TailPU d st
  rows : ∀ a b : Fin r, a.val < 2 * d → st.P a b = st0.P a b

theorem Good.swapStep {d : Nat} {st0 st st' : St r} (h : Good d st0 st) {x y : Nat} (hx : 2 * d ≤ x) (hy : 2 * d ≤ y)
    (hs : Hcp.swapStep st x y = .ok st') : Good d st0 st' := by
  by_cases he : x = y
  · unfold Hcp.swapStep at hs
    rw [if_pos he] at hs
    obtain rfl := Res.ok.inj hs
    exact h
  · by_cases hr : x < r ∧ y < r
    · have hne : (⟨x, hr.1⟩ : Fin r) ≠ ⟨y, hr.2⟩ := fun e => he (congrArg Fin.val e)
      have e := swapStep_eq st hne
      dsimp only at e
      rw [e] at hs
      obtain rfl := Res.ok.inj hs
      refine ⟨h.pu.swap hx hy, fun a b ha => ?_⟩
      rw [← h.rows a b ha]
      have h1 : a ≠ ⟨x, hr.1⟩ := by rintro rfl; dsimp only at ha; omega
      have h2 : a ≠ ⟨y, hr.2⟩ := by rintro rfl; dsimp only at ha; omega
      simp [cong2, rowBezout, h1, h2]
    · unfold Hcp.swapStep at hs
      rw [if_neg he, dif_neg hr] at hs
      cases hs

theorem Good.findPivot {d : Nat} {st0 : St r} : ∀ (len : Nat) (st st' : St r) (len' : Nat) (o : Option Nat), Good d st0 st → 2 * d < len →
    Hcp.findPivot d len st = .ok (st', len', o) → Good d st0 st'
  | 0, _, _, _, _, _, h, _ => absurd h (Nat.not_lt_zero _)
  | len + 1, st, st', len', o, h, hlt, hs => by
    unfold Hcp.findPivot at hs
    dsimp only at hs
    split at hs
    · rw [Res.bind_eq_ok] at hs
      obtain ⟨s1, h1, h2⟩ := hs
      have g := h.swapStep (le_refl _) (by omega) h1
      split at h2
      · obtain ⟨rfl, -⟩ := Prod.mk.inj (Res.ok.inj h2)
        exact g
      · exact Good.findPivot len s1 st' len' o g (by omega) h2
    · obtain ⟨rfl, -⟩ := Prod.mk.inj (Res.ok.inj hs)
      exact h

theorem Good.negStep {d : Nat} {st0 st : St r} (h : Good d st0 st) {x : Fin r} (hx : 2 * d ≤ x.val) : Good d st0 (Hcp.negStep st x) := by
  refine ⟨h.pu.neg x, fun a b ha => ?_⟩
  rw [← h.rows a b ha]
  have : a ≠ x := by rintro rfl; omega
  simp [Hcp.negStep, rowNeg, this]

/-- all finished blocks are units -/
def UnitBlk (d : Nat) (st : St r) : Prop :=
  ∀ a b : Fin r, a.val < 2 * d → a.val % 2 = 0 → b.val = a.val + 1 → st.M a b = 1

/-- the finished rows of the base change have coefficients 0 and ±1 -/
def SmallRows (d : Nat) (st : St r) : Prop :=
  ∀ a b : Fin r, a.val < 2 * d → (st.P a b).natAbs ≤ 1

theorem reduceLoop_pu (xg : XGcd) {M0 : Mat r} : ∀ (todo d len : Nat) (st : St r), Fr M0 d len st → TailPU d st → UnitBlk d st → SmallRows d st →
    2 * (d + todo) ≤ rankQ M0 →
    ∃ st' len', (∀ fuel, reduceLoop xg (fuel + 1) todo d len st = .ok st') ∧ Fr M0 (d + todo) len' st' ∧ UnitBlk (d + todo) st' ∧
      SmallRows (d + todo) st' ∧ TailPU (d + todo) st'
  | 0, d, len, st, hfr, hp, hu, hs, _ => ⟨st, len, fun _ => rfl, hfr, hu, hs, hp⟩
  | todo + 1, d, len, st, hfr, hp, hu, hsm, hrk => by
    have hlt : 2 * d < len := by
      rcases lt_or_eq_of_le hfr.hd with h | h
      · exact h
      · have := (h ▸ hfr : Fr M0 d (2 * d) st).rank_le
        omega
    rcases findPivot_spec len st hfr hlt with
      ⟨s1, l, j0, g1, g2, g3, g4, g5, g6, i, g7, g8⟩ | ⟨s1, g1, g2, g3⟩
    · have hl := g2.hl
      let j : Fin r := ⟨2 * d + 1, by omega⟩
      have hjv : j.val = 2 * d + 1 := rfl
      have G0 : Good d st st := ⟨hp, fun _ _ _ => rfl⟩
      have G1 := G0.findPivot len st s1 l _ hlt g1
      obtain ⟨st2, f2, k2, pos, hjl, e, sm, hm, hn⟩ := reduceBlock_prefix' xg g2 (j := j) g7 rfl g5 g6 g8
      have Gm : Good d st sm := by
        unfold movePivot at hm
        split at hm
        · exact G1.swapStep (by omega) (by omega) hm
        · obtain rfl := Res.ok.inj hm
          exact G1
      have G2 : Good d st st2 := by
        rw [← hn]
        split
        · exact Gm.negStep (by omega)
        · exact Gm
      have h1 : st2.M i j = 1 := by
        have := G2.pu.entry f2.inv.anti (k := i) (l := j) (by omega) (by omega)
        omega
      obtain ⟨st', w1, w2, w3, w4, w5, w6, w7⟩ := sweep_unit xg g7 hjv hjl f2 h1
      have hfr' := block_extend g7 hjv hjl w2 (by rw [w4]; decide) w5
      have hpu' := G2.pu.sweep g7 hjv f2.inv w2.inv h1 w7
      have hu' : UnitBlk (d + 1) st' := by
        intro a b ha h0 hb
        by_cases ha' : a.val < 2 * d
        · rw [w3 a b ha', k2 a b ha', g3 a b ha']; exact hu a b ha' h0 hb
        · have e1 : a = i := Fin.ext (by omega)
          have e2 : b = j := Fin.ext (by omega)
          rw [e1, e2]; exact w4
      have hs' : SmallRows (d + 1) st' := by
        intro a b ha
        rw [w6 a b (by omega)]
        by_cases ha' : a.val < 2 * d
        · rw [G2.rows a b ha']; exact hsm a b ha'
        · exact G2.pu.coeff f2.inv.anti (by omega) b
      obtain ⟨s', l', z1, z2, z3, z4, z5⟩ := reduceLoop_pu xg todo (d + 1) l st' hfr' hpu' hu' hs' (by
        have : d + 1 + todo = d + (todo + 1) := by omega
        rw [this]; exact hrk)
      have ed : d + 1 + todo = d + (todo + 1) := by omega
      rw [ed] at z2 z3 z4 z5
      refine ⟨s', l', fun fuel => ?_, z2, z3, z4, z5⟩
      unfold reduceLoop
      rw [g1, Res.ok_bind]
      dsimp only
      rw [e, w1, Res.ok_bind]
      exact z1 fuel
    · have := g2.rank_le
      omega

end Hcp
