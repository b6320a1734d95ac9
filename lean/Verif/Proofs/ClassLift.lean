import Mathlib.Data.ZMod.Basic
import Mathlib.Data.ZMod.Units
import Mathlib.Algebra.BigOperators.Ring.Finset
import Mathlib.Data.Fintype.BigOperators

/-!
# Classes modulo a divisor, and their first and last representatives
-/

namespace Hcp.PlaneTree

variable {m d : Nat} [NeZero m] [NeZero d]

/-- class modulo a divisor -/
abbrev cl (hd : d ∣ m) : ZMod m →+* ZMod d := ZMod.castHom hd (ZMod d)

variable (m) in
/-- first representative -/
def lo (s : ZMod d) : ZMod m := (s.val : Nat)

variable (m) in
/-- last representative -/
def hi (s : ZMod d) : ZMod m := lo m s - (d : Nat)

variable (hd : d ∣ m)
include hd

omit [NeZero d] in
theorem d_le : d ≤ m := Nat.le_of_dvd (Nat.pos_of_ne_zero (NeZero.ne m)) hd

theorem val_lo (s : ZMod d) : (lo m s).val = s.val := ZMod.val_cast_of_lt (lt_of_lt_of_le (ZMod.val_lt s) (d_le hd))

omit [NeZero m] in
theorem cl_lo (s : ZMod d) : cl hd (lo m s) = s := by
  unfold lo cl
  rw [map_natCast, ZMod.natCast_zmod_val]

omit [NeZero m] in
theorem cl_hi (s : ZMod d) : cl hd (hi m s) = s := by
  unfold hi
  rw [map_sub, cl_lo, map_natCast, ZMod.natCast_self, sub_zero]

omit [NeZero d] in
theorem cl_val (α : ZMod m) : (cl hd α).val = α.val % d := by
  have h : cl hd α = ((α.val : Nat) : ZMod d) := by
    conv_lhs => rw [← ZMod.natCast_zmod_val α]
    exact map_natCast _ _
  rw [h, ZMod.val_natCast]

omit [NeZero d] in
theorem lo_of_lt {α : ZMod m} (h : α.val < d) : lo m (cl hd α) = α := by
  unfold lo
  rw [cl_val, Nat.mod_eq_of_lt h, ZMod.natCast_zmod_val]

theorem val_hi (s : ZMod d) : (hi m s).val = m - d + s.val := by
  have hdm := d_le hd
  have e : hi m s = ((m - d + s.val : Nat) : ZMod m) := by
    unfold hi lo
    rw [Nat.cast_add, Nat.cast_sub hdm, ZMod.natCast_self]
    ring
  have := ZMod.val_lt s
  rw [e]
  exact ZMod.val_cast_of_lt (by omega)

theorem hi_of_le {α : ZMod m} (h : m - d ≤ α.val) : hi m (cl hd α) = α := by
  apply ZMod.val_injective m
  rw [val_hi hd, cl_val]
  have hlt := ZMod.val_lt α
  obtain ⟨t, ht⟩ := hd
  have ht0 : t ≠ 0 := by
    rintro rfl
    exact NeZero.ne m (by rw [ht, Nat.mul_zero])
  obtain ⟨t, rfl⟩ := Nat.exists_eq_succ_of_ne_zero ht0
  rw [Nat.mul_succ] at ht
  obtain ⟨r, hr⟩ := Nat.exists_eq_add_of_le h
  have e : m - d = d * t := by omega
  rw [e] at hr ⊢
  rw [hr, Nat.mul_add_mod, Nat.mod_eq_of_lt]
  omega

theorem hi_iff {α : ZMod m} : α = hi m (cl hd α) ↔ m - d ≤ α.val := by
  constructor
  · intro h
    rw [h, val_hi hd]
    omega
  · exact fun h => (hi_of_le hd h).symm

omit [NeZero d] in
theorem val_neg_one' : (-1 : ZMod m).val = m - 1 := by
  obtain ⟨k, rfl⟩ : ∃ k, m = k + 1 := ⟨m - 1, by have := NeZero.ne m; omega⟩
  rw [ZMod.val_neg_one]
  rfl

theorem hi_neg_one : hi m (-1 : ZMod d) = -1 := by
  have := hi_of_le hd (α := -1) (by have := NeZero.ne d; rw [val_neg_one' hd]; omega)
  rwa [map_neg, map_one] at this

omit [NeZero d] in
theorem per_lo {G : Type*} {Z : ZMod m → G} (h : ∀ α, Z (α + (d : Nat)) = Z α) (α : ZMod m) : Z α = Z (lo m (cl hd α)) := by
  have key : ∀ (i : Nat) (β : ZMod m), Z (β + (d * i : Nat)) = Z β := by
    intro i
    induction i with
    | zero => simp
    | succ i ih =>
      intro β
      have : β + ((d * (i + 1) : Nat) : ZMod m) = β + (d * i : Nat) + (d : Nat) := by push_cast; ring
      rw [this, h, ih]
  have e : α = lo m (cl hd α) + (d * (α.val / d) : Nat) := by
    unfold lo
    rw [cl_val, ← Nat.cast_add, Nat.mod_add_div, ZMod.natCast_zmod_val]
  conv_lhs => rw [e]
  exact key _ _

omit [NeZero d] in
theorem per_hi {G : Type*} {Z : ZMod m → G} (h : ∀ α, Z (α + (d : Nat)) = Z α) (α : ZMod m) : Z α = Z (hi m (cl hd α)) := by
  rw [per_lo hd h α, ← h (hi m _)]
  unfold hi
  rw [sub_add_cancel]

omit hd [NeZero d] in
theorem val_succ_of_lt {α : ZMod m} (h : α.val + 1 < m) : (α + 1).val = α.val + 1 := by
  have e : α + 1 = ((α.val + 1 : Nat) : ZMod m) := by
    rw [Nat.cast_add, ZMod.natCast_zmod_val, Nat.cast_one]
  rw [e]
  exact ZMod.val_cast_of_lt h

omit hd [NeZero d] in
theorem val_pred_of_pos {α : ZMod m} (h : 0 < α.val) : (α - 1).val + 1 = α.val := by
  have e : α - 1 = ((α.val - 1 : Nat) : ZMod m) := by
    rw [Nat.cast_sub h, ZMod.natCast_zmod_val, Nat.cast_one]
  have := ZMod.val_lt α
  rw [e, ZMod.val_cast_of_lt (by omega)]
  omega

omit hd [NeZero d] in
/-- summation by parts -/
theorem sum_parts {F : Type*} [CommRing F] (X w : ZMod m → F) : ∑ α, X α * (w α - w (α + 1)) = ∑ α, (X α - X (α - 1)) * w α := by
  have e : ∑ α, X α * w (α + 1) = ∑ α, X (α - 1) * w α :=
    Fintype.sum_equiv (Equiv.addRight (1 : ZMod m)) _ _ fun α => by simp
  simp only [mul_sub, sub_mul, Finset.sum_sub_distrib, e]

/-- the only jumps are at the first representatives -/
theorem sum_class {F : Type*} [CommRing F] {X : ZMod m → F} (hX : ∀ α : ZMod m, d - 1 ≤ α.val → X α = 0) (j : ZMod m) (s : ZMod d) :
    ∑ α, (X α - X (α - 1)) * (if cl hd (α + j) = s then 1 else 0) = X (lo m (s - cl hd j)) - X (lo m (s - cl hd j) - 1) := by
  rw [Finset.sum_eq_single (lo m (s - cl hd j))]
  · rw [if_pos, mul_one]
    rw [map_add, cl_lo, sub_add_cancel]
  · intro α _ hα
    by_cases h : cl hd (α + j) = s
    · have hc : cl hd α = s - cl hd j := by rw [← h, map_add, add_sub_cancel_right]
      have hge : d ≤ α.val := by
        by_contra hlt
        exact hα (by rw [← hc, lo_of_lt hd (not_le.1 hlt)])
      have h1 := hX α (by omega)
      have hd0 := Nat.pos_of_ne_zero (NeZero.ne d)
      have h2 := hX (α - 1) (by have := val_pred_of_pos (α := α) (by omega); omega)
      rw [h1, h2, sub_self, zero_mul]
    · rw [if_neg h, mul_zero]
  · exact fun h => absurd (Finset.mem_univ _) h

end Hcp.PlaneTree
