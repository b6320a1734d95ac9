import Verif.Proofs.PlaneForm
import Mathlib.Algebra.MonoidAlgebra.Basic
import Mathlib.Algebra.MonoidAlgebra.Lift
import Mathlib.Data.ZMod.Basic
import Mathlib.LinearAlgebra.Matrix.Rank
import Mathlib.LinearAlgebra.FiniteDimensional.Lemmas

/-!
# Rank of the intersection form of a plane tree

The lifts of the edges are functions on `ZMod m`, on which the covering group acts by translation.
-/

namespace Hcp.PlaneTree

section
variable (m : Nat) (F : Type*) [Field F]

/-- functions on the sheets -/
def Fn := ZMod m → F

instance : AddCommGroup (Fn m F) := inferInstanceAs (AddCommGroup (ZMod m → F))
instance : Module F (Fn m F) := inferInstanceAs (Module F (ZMod m → F))

/-- translations -/
def shiftHom : Multiplicative (ZMod m) →* Module.End F (Fn m F) where
  toFun i :=
    { toFun := fun w α => w (α + i.toAdd)
      map_add' := fun _ _ => rfl
      map_smul' := fun _ _ => rfl }
  map_one' := by
    ext w; funext α
    change w (α + 0) = w α
    rw [add_zero]
  map_mul' i j := by
    ext w; funext α
    change w (α + (i.toAdd + j.toAdd)) = w (α + i.toAdd + j.toAdd)
    rw [add_assoc]

/-- the group algebra -/
abbrev GA := AddMonoidAlgebra F (ZMod m)

/-- its action on functions -/
noncomputable def act : GA m F →ₐ[F] Module.End F (Fn m F) := AddMonoidAlgebra.lift F (Module.End F (Fn m F)) (ZMod m) (shiftHom m F)

noncomputable instance : Module (GA m F) (Fn m F) := Module.compHom (Fn m F) (act m F).toRingHom

theorem ga_smul (a : GA m F) (w : Fn m F) : a • w = act m F a w := rfl

instance : IsScalarTower F (GA m F) (Fn m F) := ⟨fun f a w => by
  rw [ga_smul, ga_smul, map_smul]; rfl⟩

/-- the generator of the covering group -/
noncomputable def gen : (GA m F)ˣ where
  val := AddMonoidAlgebra.single 1 1
  inv := AddMonoidAlgebra.single (-1) 1
  val_inv := by rw [AddMonoidAlgebra.single_mul_single]; simp [AddMonoidAlgebra.one_def]
  inv_val := by rw [AddMonoidAlgebra.single_mul_single]; simp [AddMonoidAlgebra.one_def]

variable {m F}

theorem gen_smul (w : Fn m F) (α : ZMod m) : (((gen m F : (GA m F)ˣ) : GA m F) • w) α = w (α + 1) := by
  rw [ga_smul]
  have : act m F (gen m F : GA m F) = shiftHom m F (Multiplicative.ofAdd 1) := by
    unfold act gen
    simp [AddMonoidAlgebra.lift_single]
  rw [this]
  rfl

theorem gen_inv_smul (w : Fn m F) (α : ZMod m) : ((((gen m F)⁻¹ : (GA m F)ˣ) : GA m F) • w) α = w (α - 1) := by
  rw [ga_smul]
  have : act m F (((gen m F)⁻¹ : (GA m F)ˣ) : GA m F) = shiftHom m F (Multiplicative.ofAdd (-1)) := by
    unfold act gen
    simp [AddMonoidAlgebra.lift_single]
  rw [this]
  change w (α + -1) = _
  rw [sub_eq_add_neg]

theorem gen_zpow_smul (i : ℤ) (w : Fn m F) : ∀ α : ZMod m, (((gen m F ^ i : (GA m F)ˣ) : GA m F) • w) α = w (α + i) := by
  induction i using Int.induction_on generalizing w with
  | zero => intro α; simp
  | succ i ih =>
    intro α
    rw [zpow_add_one, Units.val_mul, mul_smul, ih, gen_smul]
    push_cast
    rw [add_assoc]
  | pred i ih =>
    intro α
    rw [zpow_sub_one, Units.val_mul, mul_smul, ih, gen_inv_smul]
    push_cast
    congr 1; ring

/-- `x - 1` on functions -/
noncomputable def dif : Fn m F →ₗ[GA m F] Fn m F := LinearMap.lsmul (GA m F) (Fn m F) ((gen m F : GA m F) - 1)

theorem dif_eq (w : Fn m F) : dif w = ((gen m F : GA m F) - 1) • w := rfl

theorem dif_apply (w : Fn m F) (α : ZMod m) : dif w α = w (α + 1) - w α := by
  rw [dif_eq, sub_smul, one_smul]
  change (((gen m F : (GA m F)ˣ) : GA m F) • w) α - w α = _
  rw [gen_smul]

/-- its image -/
noncomputable def Vd (m : Nat) (F : Type*) [Field F] : Submodule (GA m F) (Fn m F) := LinearMap.range (dif (m := m) (F := F))

theorem dif_qn (n : Nat) (w : Fn m F) (α : ZMod m) : (qn (gen m F) n • dif w) α = w (α + n) - w α := by
  have : qn (gen m F) n * ((gen m F : GA m F) - 1) = (gen m F : GA m F) ^ n - 1 := by
    unfold qn; exact geom_sum_mul _ _
  rw [dif_eq, smul_smul, this, sub_smul, one_smul]
  change (((gen m F : (GA m F)ˣ) : GA m F) ^ n • w) α - w α = _
  have h := gen_zpow_smul (n : ℤ) w α
  rw [zpow_natCast, Units.val_pow_eq_pow_val] at h
  rw [h]; push_cast; rfl

/-- the operator of kernel `E` -/
def opE [NeZero m] (E : ZMod m → ℤ) (w : Fn m F) : Fn m F := fun α => ∑ β : ZMod m, (E (β - α) : F) * w β

/-- `[d = i + 1] - [d = i]` -/
def Jf (i : ℤ) (d : ZMod m) : ℤ := (if d = i + 1 then 1 else 0) - (if d = i then 1 else 0)

theorem opE_Jf [NeZero m] (i : ℤ) (w : Fn m F) : opE (Jf i) w = ((gen m F ^ i : (GA m F)ˣ) : GA m F) • dif w := by
  funext α
  rw [gen_zpow_smul, dif_apply]
  unfold opE Jf
  have h1 : ∀ β : ZMod m, (((if β - α = (i : ZMod m) + 1 then 1 else 0) - (if β - α = (i : ZMod m) then 1 else 0) : ℤ) : F) * w β =
      (if β = α + i + 1 then w β else 0) - (if β = α + i then w β else 0) := by
    intro β
    have e1 : β - α = (i : ZMod m) + 1 ↔ β = α + i + 1 := by rw [sub_eq_iff_eq_add]; constructor <;> intro h <;> rw [h] <;> ring
    have e2 : β - α = (i : ZMod m) ↔ β = α + i := by rw [sub_eq_iff_eq_add, add_comm]
    simp only [e1, e2]
    split_ifs <;> simp
  have h2 : ∀ (γ : ZMod m) (f : ZMod m → F), ∑ β, (if β = γ then f β else 0) = f γ := by
    intro γ f; simp
  simp only [h1, Finset.sum_sub_distrib]
  exact congrArg₂ (· - ·) (h2 _ w) (h2 _ w)

theorem opE_zero [NeZero m] (w : Fn m F) : opE (fun _ => 0) w = 0 := by
  funext α; unfold opE; simp; rfl

theorem opE_add [NeZero m] (E E' : ZMod m → ℤ) (w : Fn m F) : opE (fun d => E d + E' d) w = opE E w + opE E' w := by
  funext α
  change _ = opE E w α + opE E' w α
  unfold opE
  rw [← Finset.sum_add_distrib]
  exact Finset.sum_congr rfl fun β _ => by push_cast; ring

theorem opE_sub [NeZero m] (E E' : ZMod m → ℤ) (w : Fn m F) : opE (fun d => E d - E' d) w = opE E w - opE E' w := by
  funext α
  change _ = opE E w α - opE E' w α
  unfold opE
  rw [← Finset.sum_sub_distrib]
  exact Finset.sum_congr rfl fun β _ => by push_cast; ring

open scoped Classical in
/-- `1` if the first angle is the smaller -/
noncomputable def lt01 (p q : ℝ) : ℤ := if p < q then 1 else 0

/-- intersection numbers of the lifts of the edges `k` and `l` -/
noncomputable def Ent (pe : Nat → PEdge) (k l : Nat) (d : ZMod m) : ℤ :=
  if k = l then Jf 0 d + Jf (-1) d
  else (if (pe k).a = (pe l).a then Jf ((pe k).sa - (pe l).sa - lt01 (pe k).pa (pe l).pa) d else 0) -
    (if (pe k).b = (pe l).a then Jf ((pe k).sb - (pe l).sa - lt01 (pe k).pb (pe l).pa) d else 0) -
    (if (pe k).a = (pe l).b then Jf ((pe k).sa - (pe l).sb - lt01 (pe k).pa (pe l).pb) d else 0)

theorem zpow_cut (i j : ℤ) (p q : ℝ) : ((gen m F ^ (i - j - lt01 p q) : (GA m F)ˣ) : GA m F) =
    ((gen m F ^ (-j) : (GA m F)ˣ) : GA m F) * (((gen m F ^ i : (GA m F)ˣ) : GA m F) * cut (gen m F) (p < q)) := by
  unfold lt01 cut
  split_ifs with h
  · rw [← Units.val_mul, ← Units.val_mul]
    congr 1
    rw [← zpow_sub_one, ← zpow_add]; congr 1; ring
  · rw [mul_one, ← Units.val_mul, ← zpow_add]; congr 2; ring

theorem Ent_op [NeZero m] {pe : Nat → PEdge} {r0 N : Nat} (h : Grows pe r0 N) {k l : Nat} (hk : k < N) (hl : l < N) (w : Fn m F) :
    opE (Ent pe k l) w = Hm (gen m F) pe k l • dif w := by
  by_cases hkl : k = l
  · subst hkl
    have : (Ent pe k k : ZMod m → ℤ) = fun d => Jf 0 d + Jf (-1) d := by
      funext d; unfold Ent; rw [if_pos rfl]
    rw [this, opE_add, opE_Jf, opE_Jf]
    have hab := h.ab_ne hk
    have hH : Hm (gen m F) pe k k = 1 + (((gen m F)⁻¹ : (GA m F)ˣ) : GA m F) := by
      unfold Hm bco
      rw [if_pos rfl]
      simp only [if_neg hab, if_neg hab.symm, if_true, lt_irrefl, sub_zero, zero_sub, mul_neg, ← mul_assoc, upow_mul', one_mul, sub_neg_eq_add]
      have : cut (gen m F) False = 1 := by simp [cut]
      rw [this]; ring
    rw [hH, add_smul, zpow_zero, zpow_neg_one, Units.val_one]
  · have hbb := h.bb_ne hk hl hkl
    have hH : Hm (gen m F) pe k l =
        (if (pe k).a = (pe l).a then ((gen m F ^ ((pe k).sa - (pe l).sa - lt01 (pe k).pa (pe l).pa) : (GA m F)ˣ) : GA m F) else 0) -
        (if (pe k).b = (pe l).a then ((gen m F ^ ((pe k).sb - (pe l).sa - lt01 (pe k).pb (pe l).pa) : (GA m F)ˣ) : GA m F) else 0) -
        (if (pe k).a = (pe l).b then ((gen m F ^ ((pe k).sa - (pe l).sb - lt01 (pe k).pa (pe l).pb) : (GA m F)ˣ) : GA m F) else 0) := by
      unfold Hm bco
      rw [if_neg hkl, if_neg hbb, add_zero, sub_zero, mul_sub]
      simp only [zpow_cut, mul_ite, mul_zero]
    have hE : (Ent pe k l : ZMod m → ℤ) = fun d =>
        (fun d => (fun d => if (pe k).a = (pe l).a then Jf ((pe k).sa - (pe l).sa - lt01 (pe k).pa (pe l).pa) d else 0) d -
        (fun d => if (pe k).b = (pe l).a then Jf ((pe k).sb - (pe l).sa - lt01 (pe k).pb (pe l).pa) d else 0) d) d -
        (fun d => if (pe k).a = (pe l).b then Jf ((pe k).sa - (pe l).sb - lt01 (pe k).pa (pe l).pb) d else 0) d := by
      funext d; unfold Ent; rw [if_neg hkl]
    have hop : ∀ (P : Prop) [Decidable P] (i : ℤ), opE (fun d => if P then Jf i d else 0) w =
        (if P then ((gen m F ^ i : (GA m F)ˣ) : GA m F) else 0) • dif w := by
      intro P _ i
      by_cases hP : P
      · simp only [if_pos hP]; exact opE_Jf i w
      · simp only [if_neg hP, zero_smul]; exact opE_zero w
    rw [hE, opE_sub, opE_sub, hop, hop, hop, hH, sub_smul, sub_smul]

/-! ### periodic functions -/

variable (m F) in
/-- functions of period `n` -/
def Per (n : Nat) : Submodule F (Fn m F) where
  carrier := {w | ∀ α : ZMod m, w (α + n) = w α}
  add_mem' {a b} ha hb α := by
    change a (α + n) + b (α + n) = a α + b α
    rw [ha, hb]
  zero_mem' _ := rfl
  smul_mem' c w hw α := by
    change c * w (α + n) = c * w α
    rw [hw]

theorem Per.mul {n : Nat} {w : Fn m F} (hw : w ∈ Per m F n) (i : Nat) (α : ZMod m) : w (α + (n * i : Nat)) = w α := by
  induction i with
  | zero => simp
  | succ i ih =>
    have : (α + ((n * (i + 1) : Nat) : ZMod m)) = α + ((n * i : Nat) : ZMod m) + n := by push_cast; ring
    rw [this, hw, ih]

theorem Per.gcd [NeZero m] {n : Nat} {w : Fn m F} (hw : w ∈ Per m F n) (α : ZMod m) : w (α + (Nat.gcd m n : Nat)) = w α := by
  -- gcd = n * i mod m
  have h := Nat.gcd_eq_gcd_ab n m
  have e : ((Nat.gcd m n : Nat) : ZMod m) = ((n * (Int.emod (Nat.gcdA n m) m).toNat : Nat) : ZMod m) := by
    have h2 : ((Nat.gcd m n : Nat) : ZMod m) = (n : ZMod m) * ((Nat.gcdA n m : ℤ) : ZMod m) := by
      have := congrArg (fun z : ℤ => (z : ZMod m)) h
      push_cast at this
      rw [Nat.gcd_comm, this]; simp
    rw [h2]
    push_cast
    congr 1
    have h3 : ((Int.emod (Nat.gcdA n m) m).toNat : ℤ) = Nat.gcdA n m % m := Int.toNat_of_nonneg (Int.emod_nonneg _ (by exact_mod_cast NeZero.ne m))
    have h4 : (((Int.emod (Nat.gcdA n m) m).toNat : ℤ) : ZMod m) = ((Nat.gcdA n m % m : ℤ) : ZMod m) := by rw [h3]
    rw [Int.cast_natCast] at h4
    rw [h4]
    simp
  rw [e, Per.mul hw]

theorem Per.finrank [NeZero m] (n : Nat) : Module.finrank F (Per m F n) = Nat.gcd m n := by
  set d := Nat.gcd m n with hd
  have hdm : d ∣ m := Nat.gcd_dvd_left m n
  have hd0 : 0 < d := Nat.gcd_pos_of_pos_left _ (NeZero.pos m)
  have : NeZero d := ⟨hd0.ne'⟩
  let φ := ZMod.castHom hdm (ZMod d)
  let L : (ZMod d → F) →ₗ[F] Per m F n :=
    { toFun := fun f => ⟨fun α => f (φ α), fun α => by
        have : φ (n : ZMod m) = 0 := by
          rw [map_natCast, ZMod.natCast_eq_zero_iff]; exact Nat.gcd_dvd_right m n
        simp only [map_add, this, add_zero]⟩
      map_add' := fun _ _ => rfl
      map_smul' := fun _ _ => rfl }
  have hL : Function.Bijective L := by
    constructor
    · intro f g hfg
      funext β
      obtain ⟨α, rfl⟩ := ZMod.castHom_surjective hdm β
      exact congrFun (congrArg Subtype.val hfg) α
    · rintro ⟨w, hw⟩
      have hg : w ∈ Per m F d := fun α => Per.gcd hw α
      refine ⟨fun β => w (β.val : ZMod m), ?_⟩
      apply Subtype.ext
      funext α
      change w (((φ α).val : Nat) : ZMod m) = w α
      have h1 : (φ α).val = α.val % d := by
        have : φ α = ((α.val : Nat) : ZMod d) := by
          conv_lhs => rw [← ZMod.natCast_zmod_val α]
          rw [map_natCast]
        rw [this, ZMod.val_natCast]
      have h2 : α = ((α.val % d : Nat) : ZMod m) + ((d * (α.val / d) : Nat) : ZMod m) := by
        conv_lhs => rw [← ZMod.natCast_zmod_val α, ← Nat.mod_add_div α.val d]
        push_cast; rfl
      conv_rhs => rw [h2]
      rw [h1, Per.mul hg]
  rw [← (LinearEquiv.ofBijective L hL).finrank_eq]
  simp

instance [NeZero m] : FiniteDimensional F (Fn m F) := inferInstanceAs (FiniteDimensional F (ZMod m → F))

variable (m F) in
/-- elements of the image of `x - 1` killed by `1 + ... + x^(n-1)` -/
noncomputable def Wn (n : Nat) : Submodule F (Vd m F) :=
  LinearMap.ker ((LinearMap.lsmul (GA m F) (Vd m F) (qn (gen m F) n)).restrictScalars F)

theorem mem_Wn {n : Nat} {z : Vd m F} : z ∈ Wn m F n ↔ qn (gen m F) n • z = 0 := Iff.rfl

theorem dif_eq_zero [NeZero m] {w : Fn m F} (h : dif w = 0) : ∀ α, w α = w 0 := by
  have h1 : ∀ α, w (α + 1) = w α := fun α => by
    have := congrFun h α
    rw [dif_apply] at this
    exact sub_eq_zero.1 this
  have h2 : w ∈ Per m F 1 := fun α => by rw [Nat.cast_one]; exact h1 α
  intro α
  have := Per.mul h2 α.val 0
  rwa [one_mul, zero_add, ZMod.natCast_zmod_val] at this

theorem Wn.finrank [NeZero m] (n : Nat) : Module.finrank F (Wn m F n) + 1 = Nat.gcd m n := by
  -- the map from periodic functions
  let L : Per m F n →ₗ[F] Wn m F n :=
    { toFun := fun w => ⟨⟨dif w.1, ⟨w.1, rfl⟩⟩, by
        rw [mem_Wn]
        apply Subtype.ext
        funext α
        change (qn (gen m F) n • dif w.1) α = 0
        rw [dif_qn, w.2 α, sub_self]⟩
      map_add' := fun a b => by
        apply Subtype.ext; apply Subtype.ext
        change dif (a.1 + b.1) = dif a.1 + dif b.1
        rw [map_add]
      map_smul' := fun c a => by
        apply Subtype.ext; apply Subtype.ext
        change (dif.restrictScalars F) (c • a.1) = c • (dif.restrictScalars F) a.1
        rw [map_smul] }
  have hL : LinearMap.range L = ⊤ := by
    rw [LinearMap.range_eq_top]
    rintro ⟨⟨z, w, rfl⟩, hz⟩
    refine ⟨⟨w, fun α => ?_⟩, rfl⟩
    rw [mem_Wn] at hz
    have h1 := congrFun (congrArg Subtype.val hz) α
    change (qn (gen m F) n • dif w) α = 0 at h1
    rw [dif_qn] at h1
    exact sub_eq_zero.1 h1
  have hker : Module.finrank F (LinearMap.ker L) = 1 := by
    let one : LinearMap.ker L := ⟨⟨fun _ => 1, fun _ => rfl⟩, by
      rw [LinearMap.mem_ker]
      apply Subtype.ext; apply Subtype.ext
      funext α
      exact (dif_apply _ α).trans (sub_self _)⟩
    refine finrank_eq_one one ?_ ?_
    · intro h
      have : ((one : Per m F n) : Fn m F) (0 : ZMod m) = (0 : F) := by rw [h]; rfl
      exact one_ne_zero this
    · rintro ⟨⟨w, hw⟩, hk⟩
      have h0 : dif w = 0 := congrArg (fun z : Wn m F n => z.1.1) (LinearMap.mem_ker.1 hk)
      refine ⟨w 0, ?_⟩
      apply Subtype.ext; apply Subtype.ext
      funext α
      change w 0 * 1 = w α
      rw [mul_one, dif_eq_zero h0 α]
  have := LinearMap.finrank_range_add_finrank_ker (K := F) (V := Per m F n) (V₂ := Wn m F n) L
  rw [hL, finrank_top, hker, Per.finrank] at this
  exact this

/-! ### the matrix -/

variable (m F) in
/-- a function given by its values on the sheets `0, ..., m - 2`, zero on the last one -/
def ext : (Fin (m - 1) → F) →ₗ[F] Fn m F where
  toFun c := fun β => if h : β.val < m - 1 then c ⟨β.val, h⟩ else 0
  map_add' a b := by
    funext β
    change _ = (if h : β.val < m - 1 then a ⟨β.val, h⟩ else 0) + (if h : β.val < m - 1 then b ⟨β.val, h⟩ else 0)
    by_cases h : β.val < m - 1
    · simp only [dif_pos h]; rfl
    · simp only [dif_neg h]; rw [add_zero]
  map_smul' r a := by
    funext β
    change _ = r * (if h : β.val < m - 1 then a ⟨β.val, h⟩ else 0)
    by_cases h : β.val < m - 1
    · simp only [dif_pos h]; rfl
    · simp only [dif_neg h]; rw [mul_zero]

theorem ext_apply (c : Fin (m - 1) → F) (β : ZMod m) : ext m F c β = if h : β.val < m - 1 then c ⟨β.val, h⟩ else 0 := rfl

theorem val_sheet [NeZero m] (i : Fin (m - 1)) : ((i.val : Nat) : ZMod m).val = i.val := by
  rw [ZMod.val_natCast, Nat.mod_eq_of_lt (by omega)]

theorem ext_sheet [NeZero m] (c : Fin (m - 1) → F) (i : Fin (m - 1)) : ext m F c ((i.val : Nat) : ZMod m) = c i := by
  rw [ext_apply, dif_pos (by rw [val_sheet]; exact i.isLt)]
  congr 1
  exact Fin.ext (val_sheet i)

theorem last_val [NeZero m] : ((m - 1 : Nat) : ZMod m).val = m - 1 := by
  rw [ZMod.val_natCast, Nat.mod_eq_of_lt (by have := NeZero.pos m; omega)]

theorem ext_last [NeZero m] (c : Fin (m - 1) → F) : ext m F c ((m - 1 : Nat) : ZMod m) = 0 := by
  rw [ext_apply, dif_neg (by rw [last_val]; omega)]

/-- each sheet is the last one or one of the others -/
theorem sheet_cases [NeZero m] (β : ZMod m) : β = ((m - 1 : Nat) : ZMod m) ∨ ∃ i : Fin (m - 1), β = ((i.val : Nat) : ZMod m) := by
  have h := ZMod.val_lt β
  by_cases hb : β.val < m - 1
  · exact Or.inr ⟨⟨β.val, hb⟩, (ZMod.natCast_zmod_val β).symm⟩
  · left
    have : β.val = m - 1 := by omega
    rw [← this, ZMod.natCast_zmod_val]

theorem sum_sheets [NeZero m] (f : ZMod m → F) : ∑ β, f β = ∑ i : Fin (m - 1), f ((i.val : Nat) : ZMod m) + f ((m - 1 : Nat) : ZMod m) := by
  obtain ⟨k, rfl⟩ : ∃ k, m = k + 1 := ⟨m - 1, by have := NeZero.pos m; omega⟩
  refine (Fin.sum_univ_castSucc (n := k) f).trans ?_
  have h1 : ∀ j : Fin (k + 1), (j : ZMod (k + 1)) = ((j.val : Nat) : ZMod (k + 1)) := fun j => (ZMod.natCast_zmod_val (n := k + 1) j).symm
  refine congrArg₂ (· + ·) (Finset.sum_congr rfl fun i _ => congrArg f (h1 i.castSucc)) (congrArg f (h1 (Fin.last k)))

theorem opE_ext [NeZero m] (E : ZMod m → ℤ) (c : Fin (m - 1) → F) (α : ZMod m) :
    opE E (ext m F c) α = ∑ j : Fin (m - 1), (E (((j.val : Nat) : ZMod m) - α) : F) * c j := by
  unfold opE
  rw [sum_sheets, ext_last, mul_zero, add_zero]
  exact Finset.sum_congr rfl fun j _ => by rw [ext_sheet]

theorem sum_dif [NeZero m] (w : Fn m F) : ∑ α : ZMod m, dif w α = 0 := by
  have h : ∀ f : ZMod m → F, ∑ α, (f (α + 1) - f α) = 0 := by
    intro f
    rw [Finset.sum_sub_distrib, sub_eq_zero]
    exact Fintype.sum_equiv (Equiv.addRight (1 : ZMod m)) _ _ fun _ => rfl
  exact (Finset.sum_congr rfl fun α _ => dif_apply w α).trans (h w)

theorem Vd_eq_zero [NeZero m] {z : Fn m F} (hz : z ∈ Vd m F) (h : ∀ i : Fin (m - 1), z ((i.val : Nat) : ZMod m) = 0) : z = 0 := by
  obtain ⟨w, rfl⟩ := hz
  have h1 := sum_dif w
  have h2 := sum_sheets (m := m) (F := F) (dif w)
  rw [h1, Finset.sum_eq_zero (fun i _ => h i), zero_add] at h2
  funext β
  rcases sheet_cases β with rfl | ⟨i, rfl⟩
  · exact h2.symm
  · exact h i

variable (m F) in
/-- coordinates of the image of `x - 1` -/
noncomputable def coord : (Fin (m - 1) → F) →ₗ[F] Vd m F where
  toFun c := ⟨dif (ext m F c), ⟨_, rfl⟩⟩
  map_add' a b := by
    apply Subtype.ext
    change dif (ext m F (a + b)) = dif (ext m F a) + dif (ext m F b)
    rw [map_add, map_add]
  map_smul' r a := by
    apply Subtype.ext
    change (dif.restrictScalars F) (ext m F (r • a)) = r • (dif.restrictScalars F) (ext m F a)
    rw [map_smul, map_smul]

theorem coord_bij [NeZero m] : Function.Bijective (coord m F) := by
  constructor
  · rw [injective_iff_map_eq_zero]
    intro c hc
    have h0 : dif (ext m F c) = 0 := congrArg Subtype.val hc
    have h1 := dif_eq_zero h0
    funext i
    have h2 := h1 ((i.val : Nat) : ZMod m)
    have h3 := h1 ((m - 1 : Nat) : ZMod m)
    rw [ext_sheet] at h2
    rw [ext_last] at h3
    rw [h2, ← h3]; rfl
  · rintro ⟨z, w, rfl⟩
    refine ⟨fun i => w ((i.val : Nat) : ZMod m) - w ((m - 1 : Nat) : ZMod m), ?_⟩
    apply Subtype.ext
    have : ∀ β, ext m F (fun i => w ((i.val : Nat) : ZMod m) - w ((m - 1 : Nat) : ZMod m)) β = w β - w ((m - 1 : Nat) : ZMod m) := by
      intro β
      rcases sheet_cases β with rfl | ⟨i, rfl⟩
      · rw [ext_last, sub_self]
      · rw [ext_sheet]
    funext α
    change dif (ext m F _) α = dif w α
    rw [dif_apply, dif_apply, this, this]
    ring

/-- the vector of edge `l` -/
noncomputable def vecOf {N : Nat} (c : Fin N × Fin (m - 1) → F) (l : Nat) : Vd m F := if hl : l < N then coord m F (fun j => c (⟨l, hl⟩, j)) else 0

theorem fn_sum_apply {ι : Type*} (s : Finset ι) (f : ι → Fn m F) (α : ZMod m) : (∑ l ∈ s, f l) α = ∑ l ∈ s, f l α := Finset.sum_apply α s f

theorem Grows.mulVec_apply [NeZero m] {pe : Nat → PEdge} {r0 N : Nat} (h : Grows pe r0 N) {M : Matrix (Fin N × Fin (m - 1)) (Fin N × Fin (m - 1)) ℤ}
    (hM : ∀ p q, M p q = Ent pe p.1 q.1 (((q.2.val : Nat) : ZMod m) - ((p.2.val : Nat) : ZMod m))) (c : Fin N × Fin (m - 1) → F) (k : Fin N) (i : Fin (m - 1)) :
    (M.map (Int.cast : ℤ → F)).mulVec c (k, i) = (∑ l ∈ Finset.range N, Hm (gen m F) pe k l • vecOf c l : Vd m F).1 ((i.val : Nat) : ZMod m) := by
  have e1 : (∑ l ∈ Finset.range N, Hm (gen m F) pe k l • vecOf c l : Vd m F) =
      ∑ l : Fin N, Hm (gen m F) pe k l • coord m F (fun j => c (l, j)) := by
    rw [Finset.sum_range]
    exact Finset.sum_congr rfl fun l _ => by rw [vecOf, dif_pos l.isLt]
  rw [e1, AddSubmonoidClass.coe_finsetSum, fn_sum_apply]
  unfold Matrix.mulVec dotProduct
  rw [Fintype.sum_prod_type]
  refine Finset.sum_congr rfl fun l _ => ?_
  change _ = (Hm (gen m F) pe k l • dif (ext m F fun j => c (l, j))) _
  rw [← Ent_op h k.isLt l.isLt, opE_ext]
  refine Finset.sum_congr rfl fun j _ => ?_
  change ((M (k, i) (l, j) : ℤ) : F) * _ = _
  rw [hM]

theorem Grows.mulVec_eq_zero [NeZero m] {pe : Nat → PEdge} {r0 N : Nat} (h : Grows pe r0 N) {M : Matrix (Fin N × Fin (m - 1)) (Fin N × Fin (m - 1)) ℤ}
    (hM : ∀ p q, M p q = Ent pe p.1 q.1 (((q.2.val : Nat) : ZMod m) - ((p.2.val : Nat) : ZMod m))) (c : Fin N × Fin (m - 1) → F) :
    (M.map (Int.cast : ℤ → F)).mulVec c = 0 ↔ ∀ k < N, ∑ l ∈ Finset.range N, Hm (gen m F) pe k l • vecOf c l = 0 := by
  constructor
  · intro hc k hk
    apply Subtype.ext
    refine Vd_eq_zero (Subtype.mem _) fun i => ?_
    rw [← h.mulVec_apply hM c ⟨k, hk⟩ i, hc]; rfl
  · intro hc
    funext ⟨k, i⟩
    rw [h.mulVec_apply hM, hc k k.isLt]; rfl

/-- vectors from a parametrisation -/
noncomputable def unvec [NeZero m] (N n : Nat) (ρ : Vd m F →ₗ[GA m F] (Nat → Vd m F)) : Wn m F n →ₗ[F] (Fin N × Fin (m - 1) → F) where
  toFun := fun z p => (LinearEquiv.ofBijective (coord m F) coord_bij).symm (ρ z.1 p.1) p.2
  map_add' := fun a b => by
    funext p
    change (LinearEquiv.ofBijective (coord m F) coord_bij).symm (ρ (a.1 + b.1) p.1) p.2 =
      (LinearEquiv.ofBijective (coord m F) coord_bij).symm (ρ a.1 p.1) p.2 + (LinearEquiv.ofBijective (coord m F) coord_bij).symm (ρ b.1 p.1) p.2
    rw [map_add, Pi.add_apply, map_add, Pi.add_apply]
  map_smul' := fun r a => by
    funext p
    change (LinearEquiv.ofBijective (coord m F) coord_bij).symm ((ρ.restrictScalars F) (r • a.1) p.1) p.2 =
      r • (LinearEquiv.ofBijective (coord m F) coord_bij).symm ((ρ.restrictScalars F) a.1 p.1) p.2
    rw [map_smul, Pi.smul_apply, map_smul, Pi.smul_apply]

theorem vecOf_unvec [NeZero m] {N n : Nat} (ρ : Vd m F →ₗ[GA m F] (Nat → Vd m F)) (z : Wn m F n) {l : Nat} (hl : l < N) :
    vecOf (unvec N n ρ z) l = ρ z.1 l := by
  rw [vecOf, dif_pos hl]
  change LinearEquiv.ofBijective (coord m F) coord_bij ((LinearEquiv.ofBijective (coord m F) coord_bij).symm (ρ z.1 l)) = _
  rw [LinearEquiv.apply_symm_apply]

theorem unvec_of_vecOf [NeZero m] {N n : Nat} (ρ : Vd m F →ₗ[GA m F] (Nat → Vd m F)) (z : Wn m F n) (c : Fin N × Fin (m - 1) → F)
    (h : ∀ k < N, vecOf c k = ρ z.1 k) : unvec N n ρ z = c := by
  funext ⟨k, i⟩
  have := h k k.isLt
  rw [vecOf, dif_pos k.isLt] at this
  change (LinearEquiv.ofBijective (coord m F) coord_bij).symm (ρ z.1 k) i = c (k, i)
  rw [← this]
  exact congrFun ((LinearEquiv.ofBijective (coord m F) coord_bij).symm_apply_apply _) i

theorem Grows.finrank_ker [NeZero m] {pe : Nat → PEdge} {r0 N : Nat} (h : Grows pe r0 N) {M : Matrix (Fin N × Fin (m - 1)) (Fin N × Fin (m - 1)) ℤ}
    (hM : ∀ p q, M p q = Ent pe p.1 q.1 (((q.2.val : Nat) : ZMod m) - ((p.2.val : Nat) : ZMod m))) :
    Module.finrank F (LinearMap.ker (M.map (Int.cast : ℤ → F)).mulVecLin) + 1 = Nat.gcd m (N + 1) := by
  obtain ⟨ρ, r1, r2⟩ := h.kernel (x := gen m F) (V := Vd m F)
  have hinj : Function.Injective (unvec N (N + 1) ρ) := by
    rw [injective_iff_map_eq_zero]
    intro z hz
    apply Subtype.ext
    refine r2 z.1 (fun k hk => ?_) z.2
    rw [← vecOf_unvec ρ z hk, hz, vecOf, dif_pos hk]
    exact map_zero (coord m F)
  have hrange : LinearMap.range (unvec N (N + 1) ρ) = LinearMap.ker (M.map (Int.cast : ℤ → F)).mulVecLin := by
    ext c
    rw [LinearMap.mem_ker, Matrix.mulVecLin_apply, h.mulVec_eq_zero hM]
    constructor
    · rintro ⟨z, rfl⟩
      exact (r1 _).2 ⟨z.1, z.2, fun k hk => vecOf_unvec ρ z hk⟩
    · intro hc
      obtain ⟨z, z1, z2⟩ := (r1 _).1 hc
      exact ⟨⟨z, z1⟩, unvec_of_vecOf ρ _ c z2⟩
  rw [← hrange, LinearMap.finrank_range_of_inj hinj, Wn.finrank]

/-- **rank of the form of a plane tree** -/
theorem Grows.rank {pe : Nat → PEdge} {r0 N : Nat} (h : Grows pe r0 N) (hm : 2 ≤ m) {M : Matrix (Fin N × Fin (m - 1)) (Fin N × Fin (m - 1)) ℤ}
    (hM : ∀ p q, M p q = Ent pe p.1 q.1 (((q.2.val : Nat) : ZMod m) - ((p.2.val : Nat) : ZMod m))) :
    (M.map (Int.cast : ℤ → F)).rank + Nat.gcd m (N + 1) = N * (m - 1) + 1 := by
  have : NeZero m := ⟨by omega⟩
  have hk := h.finrank_ker (F := F) hM
  generalize M.map (Int.cast : ℤ → F) = K at *
  have hrn := LinearMap.finrank_range_add_finrank_ker K.mulVecLin
  have hd : Module.finrank F (Fin N × Fin (m - 1) → F) = N * (m - 1) := by
    rw [Module.finrank_fintype_fun_eq_card, Fintype.card_prod, Fintype.card_fin, Fintype.card_fin]
  rw [hd] at hrn
  have hr : K.rank = Module.finrank F (LinearMap.range K.mulVecLin) := rfl
  rw [hr]
  omega

end

end Hcp.PlaneTree
