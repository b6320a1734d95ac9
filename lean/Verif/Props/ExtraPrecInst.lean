import Verif.Props.ExtraPrec
import Verif.Props.CurveInst
import Mathlib.Analysis.SpecialFunctions.Log.Base

/-!
# Instances of C58: sets of numbers
-/

namespace Hcp

open Set Spec

open Classical in
/-- the operations of `extraprec_tree` on sets; the logarithm is exact before the truncation towards zero. -/
noncomputable def setMag : MagOps (Set ℂ) RSet where
  abs := setPar.abs
  div := RSet.map2 (· / ·)
  mul := RSet.map2 (· * ·)
  mul2exp b k := RSet.map (fun x => x * 2 ^ k) b
  pow b k := RSet.map (fun x => x ^ k) b
  root b k := RSet.map (fun x => x ^ (1 / k : ℝ)) b
  inv := RSet.map fun x => x⁻¹
  bin i l := RSet.pt (i.choose l)
  mag := setPar.mag
  log2 s := s.elim (2 ^ 62) fun t => if 0 ≤ Real.logb 2 t then ⌊Real.logb 2 t⌋ else ⌈Real.logb 2 t⌉

theorem setMag_sound : MagSound setMag (fun s z => z ∈ s) (fun b x => x ∈ b.1) where
  abs h := setPar_sound.abs h
  div h1 h2 _ := mem_image2_of_mem h1 h2
  mul h1 h2 := mem_image2_of_mem h1 h2
  mul2exp k h := mem_image_of_mem _ h
  pow k h := mem_image_of_mem _ h
  root k _ _ h := mem_image_of_mem _ h
  inv _ h := mem_image_of_mem _ h
  bin i l := mem_singleton _
  mag := by
    intro v s t h1 h2
    simp only [setMag, setPar] at h2
    split at h2
    · rename_i h
      obtain rfl := Option.some.inj h2
      exact le_csSup h (mem_image_of_mem _ h1)
    · cases h2
  log2 := by
    intro s h
    cases s with
    | none =>
      simp only [setMag, Option.elim] at h
      omega
    | some t =>
      refine ⟨t, rfl, ?_⟩
      by_cases ht : t ≤ 0
      · exact ht.trans (by positivity)
      push Not at ht
      have key : Real.logb 2 t ≤ ((setMag.log2 (some t) + 1 : Int) : ℝ) := by
        simp only [setMag, Option.elim]
        split
        · push_cast
          exact (Int.lt_floor_add_one _).le
        · push_cast
          exact (Int.le_ceil _).trans (by linarith)
      rw [← Real.rpow_intCast]
      exact (Real.logb_le_iff_le_rpow (by norm_num) ht).1 key

theorem RSet.map_pt (f : ℝ → ℝ) (a : ℝ) : RSet.map f (RSet.pt a) = RSet.pt (f a) := Subtype.ext (image_singleton ..)
theorem RSet.map2_pt (f : ℝ → ℝ → ℝ) (a b : ℝ) : RSet.map2 f (RSet.pt a) (RSet.pt b) = RSet.pt (f a b) := Subtype.ext (image2_singleton ..)

theorem setMag_abs (z : ℂ) : setMag.abs {z} = RSet.pt ‖z‖ := by
  have : setMag.abs {z} = ⟨norm '' {z}, (singleton_nonempty z).image _⟩ := dif_pos (singleton_nonempty z)
  rw [this]
  exact Subtype.ext (image_singleton ..)

theorem setMag_mag (t : ℝ) : setMag.mag (RSet.pt t) = some |t| := by
  have : (fun x => |x|) '' (RSet.pt t).1 = {|t|} := image_singleton ..
  simp only [setMag, setPar, this, bddAbove_singleton, if_true, csSup_singleton]

/-- the constant of an edge with `(b-a)/2` of modulus `t`, on the curves all of whose differentials are `dx/y^j` -/
theorem setMag_edge {x : Nat → ℂ} {a b : Nat} {t : ℝ} (ht : ‖x b - x a‖ = 2 * t) {m n j1 : Nat} {s : Option ℝ} : ∀ (k j : Nat),
    magJ setMag (setMag.div (setMag.abs {x b + x a}) (setMag.abs {x b - x a})) (setMag.mul2exp (setMag.abs {x b - x a}) (-1))
      (setMag.inv (setMag.root (setMag.pow (setMag.mul2exp (setMag.abs {x b - x a}) (-1)) n) m)) j1 j (List.replicate (k + 1) 1) s =
    magJ setMag (setMag.div (setMag.abs {x b + x a}) (setMag.abs {x b - x a})) (setMag.mul2exp (setMag.abs {x b - x a}) (-1))
      (setMag.inv (setMag.root (setMag.pow (setMag.mul2exp (setMag.abs {x b - x a}) (-1)) n) m)) j1 (j + 1) (List.replicate k 1)
      (magMax s (some |((t ^ n) ^ (1 / m : ℝ))⁻¹ ^ (j + j1) * t|)) := by
  intro k j
  have e : ‖x b - x a‖ * 2 ^ (-1 : Int) = t := by rw [ht, zpow_neg_one]; ring
  have h1 : setMag.mul2exp (setMag.abs {x b - x a}) (-1) = RSet.pt t := by
    rw [setMag_abs]
    exact (RSet.map_pt ..).trans (by rw [e])
  have h2 : setMag.inv (setMag.root (setMag.pow (setMag.mul2exp (setMag.abs {x b - x a}) (-1)) n) m) = RSet.pt ((t ^ n) ^ (1 / m : ℝ))⁻¹ := by
    rw [h1]
    simp only [setMag, RSet.map_pt]
  rw [h2, h1, List.replicate_succ]
  simp only [magJ, List.range'_one, magI, List.range_one, magL]
  congr 2
  rw [← setMag_mag]
  congr 1
  rw [setMag_abs, setMag_abs]
  simp [setMag, RSet.map_pt, RSet.map2_pt]

/-- every differential is `dx/y^j`, every edge has length 2: the constants are 1. -/
theorem setMag_unit {x : Nat → ℂ} {a b : Nat} (ht : ‖x b - x a‖ = 2) {c : Shape} {k : Nat} (hni : c.ni = List.replicate (k + 1) 1) : magEdge setArith setMag (fun k => {x k}) a b c = some 1 := by
  have e1 : setArith.add {x b} {x a} = {x b + x a} := image2_singleton ..
  have e2 : setArith.sub {x b} {x a} = {x b - x a} := image2_singleton ..
  unfold magEdge
  simp only [e1, e2, hni]
  have key : ∀ (k j : Nat) (s : Option ℝ), s = some 0 ∨ s = some 1 → magJ setMag (setMag.div (setMag.abs {x b + x a}) (setMag.abs {x b - x a})) (setMag.mul2exp (setMag.abs {x b - x a}) (-1))
      (setMag.inv (setMag.root (setMag.pow (setMag.mul2exp (setMag.abs {x b - x a}) (-1)) c.n) c.m)) c.j1 j (List.replicate (k + 1) 1) s = some 1 := by
    intro k
    induction k with
    | zero =>
      intro j s hs
      rw [setMag_edge (t := 1) (by rw [ht]; norm_num)]
      rcases hs with rfl | rfl <;> simp [magJ, magMax]
    | succ k ih =>
      intro j s hs
      rw [setMag_edge (t := 1) (by rw [ht]; norm_num)]
      refine ih _ _ (Or.inr ?_)
      rcases hs with rfl | rfl <;> simp [magMax]
  exact key k 0 _ (Or.inl rfl)

theorem setMag_log2_zpow (k : Int) : setMag.log2 (some (2 ^ k)) = k := by
  have h : Real.logb 2 (2 ^ k) = k := by rw [← Real.rpow_intCast, Real.logb_rpow (by norm_num) (by norm_num)]
  simp [setMag, h]

/-- one bit of extra precision for trees with edges of length 2 -/
theorem setMag_extra {x : Nat → ℂ} {W : Type} {es : List (Edge W)} (hes : es ≠ []) (ht : ∀ e ∈ es, ‖x e.b - x e.a‖ = 2) {c : Shape} {k : Nat} (hni : c.ni = List.replicate (k + 1) 1) :
    extraprecTree setArith setMag es (fun k => {x k}) c = .ok 1 := by
  have key : ∀ (es : List (Edge W)) (s : Option ℝ), s = some 0 ∧ es ≠ [] ∨ s = some 1 → (∀ e ∈ es, ‖x e.b - x e.a‖ = 2) → magTree setArith setMag (fun k => {x k}) c es s = some 1 := by
    intro es
    induction es with
    | nil => intro s hs _; rcases hs with ⟨-, h⟩ | h <;> simp_all [magTree]
    | cons e es ih =>
      intro s hs h
      rw [magTree, setMag_unit (h e (List.mem_cons_self ..)) hni]
      refine ih _ (Or.inr ?_) fun e' he' => h e' (List.mem_cons_of_mem _ he')
      rcases hs with ⟨rfl, -⟩ | rfl <;> simp [magMax]
  unfold extraprecTree
  rw [key es _ (Or.inl ⟨rfl, hes⟩) ht]
  have := setMag_log2_zpow 0
  rw [zpow_zero] at this
  rw [this]
  exact chk_ok (by decide)

/-- the branch points `2 4^k, 0, -2 4^k` -/
noncomputable def far (k : Nat) (i : Nat) : ℂ := if i = 0 then 2 * 4 ^ k else if i = 1 then 0 else -(2 * 4 ^ k)

/-- the curve `y^2 = x^3 - 4^(2k+1) x`: the extra precision is `1 - k`. -/
theorem far_extra {c : Sec} (h : secInit 2 3 = .ok c) {k : Nat} (hk : (k : Int) < 2 ^ 60) :
    extraprecTree setArith setMag triEdges (fun i => {far k i}) c.shape = .ok (1 - k) := by
  obtain rfl : c = ⟨2, 3, 1, 1, 1, 1, [1]⟩ := Res.ok.inj (h.symm.trans (by decide))
  have hedge : ∀ a b, ‖far k b - far k a‖ = 2 * 4 ^ k → magEdge setArith setMag (fun i => {far k i}) a b (Sec.shape ⟨2, 3, 1, 1, 1, 1, [1]⟩) = some (2 ^ (-(k : Int))) := by
    intro a b hab
    have e1 : setArith.add {far k b} {far k a} = {far k b + far k a} := image2_singleton ..
    have e2 : setArith.sub {far k b} {far k a} = {far k b - far k a} := image2_singleton ..
    have e3 : Sec.shape ⟨2, 3, 1, 1, 1, 1, [1]⟩ = ⟨2, 3, 1, 1, List.replicate 1 1⟩ := rfl
    have e4 : (((4 ^ k : ℝ) ^ 3) ^ (1 / (2 : Nat) : ℝ))⁻¹ ^ (0 + 1) * 4 ^ k = 2 ^ (-(k : Int)) := by
      have : ((4 : ℝ) ^ k) ^ 3 = (2 ^ (3 * k)) ^ 2 := by
        rw [show (4 : ℝ) = 2 ^ 2 by norm_num, ← pow_mul, ← pow_mul, ← pow_mul]
        congr 1
        ring
      rw [this, one_div, Real.pow_rpow_inv_natCast (by positivity) (by norm_num), zpow_neg, zpow_natCast, show (4 : ℝ) = 2 ^ 2 by norm_num, ← pow_mul, zero_add, pow_one]
      have e : (2 : ℝ) ^ (3 * k) = 2 ^ k * 2 ^ (2 * k) := by rw [← pow_add]; congr 1; ring
      rw [e, mul_inv, inv_mul_cancel_right₀ (by positivity)]
    unfold magEdge
    simp only [e1, e2, e3]
    rw [setMag_edge (t := 4 ^ k) hab, e4, abs_of_nonneg (by positivity)]
    simp only [magJ, List.replicate_zero, magMax]
    rw [max_eq_right (by positivity)]
  unfold extraprecTree triEdges
  simp only [magTree]
  rw [hedge 0 1 (by simp [far]), hedge 1 2 (by simp [far])]
  simp only [magMax]
  rw [max_eq_right (by positivity : (0 : ℝ) ≤ 2 ^ (-(k : Int))), max_self, setMag_log2_zpow]
  rw [show -(k : Int) + 1 = 1 - k by ring]
  refine chk_ok ?_
  unfold FitsSlong slongMin slongMax
  omega

end Hcp
