import Verif.Model.Constants
import Verif.Proofs.Loops
import Mathlib.Algebra.BigOperators.Intervals
import Mathlib.Data.Nat.Choose.Basic
import Mathlib.Tactic.Ring
import Mathlib.Tactic.LinearCombination

/-! # `arb/constants.c` over exact arithmetic -/

namespace Hcp

/-- `binomial sum` of order `k` at `l` -/
noncomputable def bsum (c : ℂ) (f : Nat → ℂ) (k l : Nat) : ℂ :=
  ∑ i ∈ Finset.range (k + 1), (k.choose i : ℂ) * c ^ i * f (l - i)

theorem bsum_zero (c : ℂ) (f : Nat → ℂ) (l : Nat) : bsum c f 0 l = f l := by simp [bsum]

theorem bsum_succ (c : ℂ) (f : Nat → ℂ) (k l : Nat) :
    bsum c f (k + 1) l = bsum c f k l + c * bsum c f k (l - 1) := by
  unfold bsum
  rw [Finset.sum_range_succ' _ (k + 1)]
  have h1 : ∀ i, ((k + 1).choose (i + 1) : ℂ) * c ^ (i + 1) * f (l - (i + 1))
      = c * ((k.choose i : ℂ) * c ^ i * f (l - 1 - i))
        + (k.choose (i + 1) : ℂ) * c ^ (i + 1) * f (l - (i + 1)) := by
    intro i
    rw [Nat.choose_succ_succ, show l - 1 - i = l - (i + 1) by omega]
    push_cast; ring
  simp only [h1, Finset.sum_add_distrib, ← Finset.mul_sum]
  have h2 : ∑ i ∈ Finset.range (k + 1), (k.choose (i + 1) : ℂ) * c ^ (i + 1) * f (l - (i + 1))
      + ((k + 1).choose 0 : ℂ) * c ^ 0 * f (l - 0)
      = ∑ i ∈ Finset.range (k + 1), (k.choose i : ℂ) * c ^ i * f (l - i) := by
    rw [Finset.sum_range_succ, Nat.choose_succ_self, Finset.sum_range_succ' _ k]
    simp
  rw [← h2]; ring

theorem addmulCell_ok {sz i j : Nat} {c : ℂ} {x : Nat → ℂ} (hi : i < sz) (hj : j < sz) :
    addmulCell exact sz i j c x = .ok fun y => if y = i then x i + x j * c else x y := by
  simp [addmulCell, rdV_ok hi, rdV_ok hj, wrV_ok hi, exact]

theorem mulCell_ok {sz i : Nat} {c : ℂ} {x : Nat → ℂ} (hi : i < sz) :
    mulCell exact sz i c x = .ok fun y => if y = i then x i * c else x y := by
  simp [mulCell, rdV_ok hi, wrV_ok hi, exact]

theorem addCell_ok {sz i : Nat} {c : ℂ} {x : Nat → ℂ} (hi : i < sz) :
    addCell exact sz i c x = .ok fun y => if y = i then x i + c else x y := by
  simp [addCell, rdV_ok hi, wrV_ok hi, exact]

theorem subCell_ok {sz i : Nat} {c : ℂ} {x : Nat → ℂ} (hi : i < sz) :
    subCell exact sz i c x = .ok fun y => if y = i then x i - c else x y := by
  simp [subCell, rdV_ok hi, wrV_ok hi, exact]

/-- cells outside `[off, off + len)` -/
def Frame (off len : Nat) (x y : Nat → ℂ) : Prop := ∀ i, (i < off ∨ off + len ≤ i) → y i = x i

theorem polyShift_pass {sz off len : Nat} (h : off + len ≤ sz) (c : ℂ) (s : Nat → ℂ) (k : Nat)
    (hk1 : 1 ≤ k) (hk2 : k < len) :
    ∃ y, loopDown (fun l x => addmulCell exact sz (off + l) (off + l - 1) c x) (len - k) k s = .ok y ∧
      Frame off len s y ∧ ∀ l < len, y (off + l) =
        if k ≤ l then s (off + l) + s (off + (l - 1)) * c else s (off + l) := by
  refine loopDown_inv
      (body := fun l x => addmulCell exact sz (off + l) (off + l - 1) c x)
      (fun i y => Frame off len s y ∧ ∀ l < len, y (off + l) =
        if i ≤ l then s (off + l) + s (off + (l - 1)) * c else s (off + l))
      (len - k) k s ⟨fun _ _ => rfl, ?_⟩ ?_
  · intro l hl
    rw [if_neg (by omega)]
  · rintro i y hi1 hi2 ⟨hF, hy⟩
    refine ⟨_, addmulCell_ok (by omega) (by omega), ?_, ?_⟩
    · intro j hj
      have : j ≠ off + i := by omega
      simp only [this, if_false]
      exact hF j hj
    · intro l hl
      simp only [Nat.add_left_cancel_iff]
      split
      · rename_i h; subst h
        rw [if_pos le_rfl, hy l hl, if_neg (by omega), show off + l - 1 = off + (l - 1) by omega,
          hy (l - 1) (by omega), if_neg (by omega)]
      · rw [hy l hl]
        by_cases h1 : i ≤ l
        · rw [if_pos h1, if_pos (by omega)]
        · rw [if_neg h1, if_neg (by omega)]

theorem polyShift_spec {sz off len : Nat} (h : off + len ≤ sz) (c : ℂ) (x : Nat → ℂ) :
    ∃ y, polyShift exact sz off len c x = .ok y ∧ Frame off len x y ∧
      ∀ k < len, y (off + k) = bsum c (fun l => x (off + l)) k k := by
  unfold polyShift
  rcases Nat.eq_zero_or_pos len with rfl | hlen
  · exact ⟨x, rfl, fun i _ => rfl, by simp⟩
  have key := loopUp_inv
    (body := fun k x => loopDown (fun l x => addmulCell exact sz (off + l) (off + l - 1) c x)
      (len - k) k x)
    (fun k y => Frame off len x y ∧
      ∀ l < len, y (off + l) = bsum c (fun l => x (off + l)) (min (k - 1) l) l)
    (len - 1) 1 x ⟨fun i _ => rfl, by intro l _; simp [bsum_zero]⟩ (by
      rintro k s hk1 hk2 ⟨hF, hs⟩
      obtain ⟨y, e, hy⟩ := polyShift_pass h c s k hk1 (by omega)
      refine ⟨y, e, fun i hi => (hy.1 i hi).trans (hF i hi), fun l hl => ?_⟩
      rw [hy.2 l hl]
      split
      · rename_i hkl
        rw [hs l hl, hs (l - 1) (by omega), show min (k + 1 - 1) l = (k - 1) + 1 by omega,
          bsum_succ, show min (k - 1) l = k - 1 by omega, show min (k - 1) (l - 1) = k - 1 by omega]
        ring
      · rw [hs l hl, show min (k - 1) l = min (k + 1 - 1) l by omega])
  obtain ⟨y, e, hy⟩ := key
  refine ⟨y, e, hy.1, fun k hk => ?_⟩
  rw [hy.2 k hk, show min (1 + (len - 1) - 1) k = k by omega]

theorem scalarMul_spec {sz off len : Nat} (h : off + len ≤ sz) (c : ℂ) (x : Nat → ℂ) :
    ∃ y, scalarMul exact sz off len c x = .ok y ∧ Frame off len x y ∧
      ∀ k < len, y (off + k) = x (off + k) * c := by
  unfold scalarMul
  have key := loopUp_inv (body := fun k x => mulCell exact sz (off + k) c x)
    (fun k y => Frame off len x y ∧
      ∀ l < len, y (off + l) = if l < k then x (off + l) * c else x (off + l))
    len 0 x ⟨fun i _ => rfl, by simp⟩ (by
      rintro k s _ hk2 ⟨hF, hs⟩
      refine ⟨_, mulCell_ok (by omega), ?_, ?_⟩
      · intro j hj
        have : j ≠ off + k := by omega
        simp only [this, if_false]
        exact hF j hj
      · intro l hl
        simp only [Nat.add_left_cancel_iff]
        split
        · rename_i h; subst h
          rw [if_pos (by omega), hs l hl, if_neg (by omega)]
        · rw [hs l hl]
          by_cases h1 : l < k
          · rw [if_pos h1, if_pos (by omega)]
          · rw [if_neg h1, if_neg (by omega)])
  obtain ⟨y, e, hy⟩ := key
  exact ⟨y, e, hy.1, fun k hk => by rw [hy.2 k hk, if_pos (by omega)]⟩

/-- common part of the three `geom` routines -/
theorem geom_spec {sz off len : Nat} (hlen : 0 < len) (_h : off + len ≤ sz) (c0 c : ℂ) (x : Nat → ℂ)
    (op : Nat → ℂ → ℂ → ℂ) (first : ℂ → (Nat → ℂ) → Res (Nat → ℂ))
    (step : Nat → ℂ → (Nat → ℂ) → Res (Nat → ℂ))
    (hfirst : first c0 x = .ok fun y => if y = off then op 0 (x off) c0 else x y)
    (hstep : ∀ k < len, ∀ (d : ℂ) (z : Nat → ℂ),
      step k d z = .ok fun y => if y = off + k then op k (z (off + k)) d else z y) :
    ∃ y, (first c0 x >>= fun x0 => loopUp (fun k s => do
        let c0 := exact.mul s.2 c
        let x ← step k c0 s.1
        .ok (x, c0)) (len - 1) 1 (x0, c0)) = .ok (y, c0 * c ^ (len - 1)) ∧ Frame off len x y ∧
      ∀ k < len, y (off + k) = op k (x (off + k)) (c0 * c ^ k) := by
  rw [hfirst, Res.ok_bind]
  have key := loopUp_inv
    (body := fun k s => do
        let c0 := exact.mul s.2 c
        let x ← step k c0 s.1
        .ok (x, c0))
    (fun k (s : (Nat → ℂ) × ℂ) => Frame off len x s.1 ∧ s.2 = c0 * c ^ (k - 1) ∧
      ∀ l < len, s.1 (off + l) = if l < k then op l (x (off + l)) (c0 * c ^ l) else x (off + l))
    (len - 1) 1 (fun y => if y = off then op 0 (x off) c0 else x y, c0) (by
      refine ⟨?_, by simp, ?_⟩
      · intro j hj
        have : j ≠ off := by omega
        simp only [this, if_false]
      · intro l hl
        by_cases h0 : l = 0
        · subst h0; simp
        · rw [if_neg (by omega)]
          have : off + l ≠ off := by omega
          simp only [this, if_false]) (by
      rintro k ⟨z, d⟩ hk1 hk2 ⟨hF, hd, hz⟩
      refine ⟨(_, _), by simp only [hstep k (by omega), Res.ok_bind]; rfl, ?_, ?_, ?_⟩
      · intro j hj
        have : j ≠ off + k := by omega
        simp only [this, if_false]
        exact hF j hj
      · simp only at hd
        simp only [exact, hd]
        rw [show k + 1 - 1 = (k - 1) + 1 by omega, pow_succ]; ring
      · intro l hl
        simp only [Nat.add_left_cancel_iff]
        simp only at hd hz
        split
        · rename_i h; subst h
          rw [if_pos (by omega), hz l hl, if_neg (by omega)]
          simp only [exact, hd]
          rw [mul_assoc, ← pow_succ, show l - 1 + 1 = l by omega]
        · simp only [hz l hl]
          by_cases h1 : l < k
          · rw [if_pos h1, if_pos (by omega)]
          · rw [if_neg h1, if_neg (by omega)])
  obtain ⟨⟨y, d⟩, e, hF, hd, hy⟩ := key
  simp only at hd hy
  rw [show 1 + (len - 1) - 1 = len - 1 by omega] at hd
  refine ⟨y, ?_, hF, fun k hk => by rw [hy k hk, if_pos (by omega)]⟩
  rw [e, hd]

theorem mulGeom_spec {sz off len : Nat} (hlen : 0 < len) (h : off + len ≤ sz) (c0 c : ℂ)
    (x : Nat → ℂ) :
    ∃ y, mulGeom exact sz off len c0 c x = .ok (y, c0 * c ^ (len - 1)) ∧ Frame off len x y ∧
      ∀ k < len, y (off + k) = x (off + k) * (c0 * c ^ k) := by
  unfold mulGeom
  exact geom_spec hlen h c0 c x (fun _ a d => a * d) (fun d z => mulCell exact sz off d z)
    (fun k d z => mulCell exact sz (off + k) d z) (mulCell_ok (by omega))
    (fun k hk d z => mulCell_ok (by omega))

theorem addGeom_spec {sz off len : Nat} (hlen : 0 < len) (h : off + len ≤ sz) (c0 c : ℂ)
    (x : Nat → ℂ) :
    ∃ y, addGeom exact sz off len c0 c x = .ok (y, c0 * c ^ (len - 1)) ∧ Frame off len x y ∧
      ∀ k < len, y (off + k) = x (off + k) + c0 * c ^ k := by
  unfold addGeom
  exact geom_spec hlen h c0 c x (fun _ a d => a + d) (fun d z => addCell exact sz off d z)
    (fun k d z => addCell exact sz (off + k) d z) (addCell_ok (by omega))
    (fun k hk d z => addCell_ok (by omega))

theorem subGeom_spec {sz off len : Nat} (hlen : 0 < len) (h : off + len ≤ sz) (c0 c : ℂ)
    (x : Nat → ℂ) :
    ∃ y, subGeom exact sz off len c0 c x = .ok (y, c0 * c ^ (len - 1)) ∧ Frame off len x y ∧
      ∀ k < len, y (off + k) = x (off + k) + c0 * (-c) ^ k := by
  unfold subGeom
  obtain ⟨y, e, hF, hy⟩ := geom_spec hlen h c0 c x (fun k a d => if k % 2 ≠ 0 then a - d else a + d)
    (fun d z => addCell exact sz off d z)
    (fun k d z => altCell exact sz off k d z)
    (addCell_ok (by omega))
    (fun k hk d z => by
      unfold altCell
      by_cases hp : k % 2 ≠ 0
      · simp only [if_pos hp]; exact subCell_ok (by omega)
      · simp only [if_neg hp]; exact addCell_ok (by omega))
  refine ⟨y, e, hF, fun k hk => ?_⟩
  rw [hy k hk]
  rcases Nat.even_or_odd k with he | ho
  · rw [if_neg (by have := Nat.even_iff.mp he; omega), he.neg_pow]
  · rw [if_pos (by have := Nat.odd_iff.mp ho; omega), ho.neg_pow]; ring

end Hcp
