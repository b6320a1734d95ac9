import Verif.Proofs.TurnBall
import Verif.Props.Turn

/-!
# C23 on balls: roots computed with the turning number
-/

namespace Hcp
open Spec

variable {A : Type} {X : Arith A} {R : A → ℂ → Prop} {T : Tests A}

/-- the routine gives up (and the definition is used), or the balls decide the turning number -/
def TurnOk (X : Arith A) (T : Tests A) (sz : Nat) (u : Nat → A) (d1 d : Nat) (x : A) : Prop :=
  (∃ y, prodTurn X T sz u d1 d x = .ok (y, none)) ∨ TurnDecided X T u d1 d x

/-- **C23 (balls, partial).** For all `m ≥ 1`, all balls around `d ≥ 1` points different from the argument: when `acb_prod_turn` gives up or the balls decide the turning number,
`mth_root_pol_turn` returns a ball containing the value of the definition, with no access outside its tables.
Missing: no factor; last product meeting the negative axis (`C23_negative_product_fails`); enclosures of products so coarse that they meet the real axis
(`C23_coarse_product_fails`). -/
theorem C23_turn_balls_partial (E : Encloses X exact R) (hT : SoundTests T R) (hI : RealPoint T R) {sz d d1 m : Nat} (hsz : d ≤ sz) (hd : 1 ≤ d) (h1 : d1 ≤ d) (hm : 0 < m)
    {u : Nat → A} {u' : Nat → ℂ} (hu : ∀ k, R (u k) (u' k)) {x : A} {x' : ℂ} (hx : R x x') (hne : ∀ i < d, u' i ≠ x')
    {z : Nat → A} (hz : ∀ k < m, R (z k) (Complex.exp (2 * Real.pi * Complex.I / m) ^ k)) (hok : TurnOk X T sz u d1 d x) :
    ∃ v, mthRootPolTurn X T sz u d1 d x m z m = .ok v ∧ R v (edgeY m d1 d u' x') := by
  have hdef : ∃ v, mthRootPolDef X sz u d1 d x m = .ok v ∧ R v (edgeY m d1 d u' x') := by
    have h := mthRootPolDef_rel E (sz := sz) hu d1 d hx m
    rw [mthRootPolDef_spec hsz, edgeY_eq u' h1 m] at h
    exact h.ok_left
  have hturn : (∃ y, prodTurn X T sz u d1 d x = .ok (y, none)) ∨
    ∃ y q, prodTurn X T sz u d1 d x = .ok (y, some q) ∧ R y (∏ i ∈ Finset.range d, sgnFactor u' d1 x' i) ∧
      ∑ i ∈ Finset.range d, (sgnFactor u' d1 x' i).arg = (∏ i ∈ Finset.range d, sgnFactor u' d1 x' i).arg + 2 * Real.pi * q := by
    rcases hok with h | h
    · exact Or.inl h
    · exact prodTurn_ball E hT hI hu hx hd hsz hne h
  unfold mthRootPolTurn
  rcases hturn with ⟨y, e⟩ | ⟨y, q, e, hy, hq⟩
  · rw [e, Res.ok_bind]
    exact hdef
  · rw [e, Res.ok_bind]
    have hne' : ∀ i < d, sgnFactor u' d1 x' i ≠ 0 := by
      intro i hi
      unfold sgnFactor
      split
      · exact sub_ne_zero.2 (hne i hi)
      · exact sub_ne_zero.2 (hne i hi).symm
    have hu0 : exact.unitRoot m ≠ 0 := Complex.exp_ne_zero _
    have hone : exact.unitRoot m ^ m = 1 := by
      show Complex.exp _ ^ m = 1
      rw [← Complex.exp_nat_mul, mul_div_cancel₀ _ (by exact_mod_cast hm.ne'), Complex.exp_two_pi_mul_I]
    have hzq : exact.unitRoot m ^ q = exact.unitRoot m ^ (normShift q m) := by
      obtain ⟨k, hk⟩ := normShift_dvd q hm
      rw [show q = (normShift q m : Int) + (m : Int) * k by omega, zpow_add₀ hu0, zpow_mul]
      simp only [zpow_natCast, hone, one_zpow, mul_one]
      congr 1
      rw [show (normShift q m : Int) + (m : Int) * k = q by omega]
    rw [← edgeY_eq u' h1 m, root_prod (m := m) (sgnFactor u' d1 x') hne' rfl hq, hzq]
    simp only
    have hr := E.root m hy
    by_cases h0 : normShift q m = 0
    · rw [if_neg (by simpa using h0), h0, pow_zero, mul_one]
      exact ⟨_, rfl, hr⟩
    · rw [if_pos h0, rdV_ok (normShift_lt q hm), Res.ok_bind]
      exact ⟨_, rfl, E.mul hr (hz _ (normShift_lt q hm))⟩

/-- **C23 (balls, partial), square roots.** -/
theorem C23_sqrt_turn_balls_partial (E : Encloses X exact R) (hT : SoundTests T R) (hI : RealPoint T R) {sz d d1 : Nat} (hsz : d ≤ sz) (hd : 1 ≤ d) (h1 : d1 ≤ d)
    {u : Nat → A} {u' : Nat → ℂ} (hu : ∀ k, R (u k) (u' k)) {x : A} {x' : ℂ} (hx : R x x') (hne : ∀ i < d, u' i ≠ x') (hok : TurnOk X T sz u d1 d x) :
    ∃ v, sqrtPolTurn X T sz u d1 d x = .ok v ∧ R v (edgeY 2 d1 d u' x') := by
  have hturn : (∃ y, prodTurn X T sz u d1 d x = .ok (y, none)) ∨
    ∃ y q, prodTurn X T sz u d1 d x = .ok (y, some q) ∧ R y (∏ i ∈ Finset.range d, sgnFactor u' d1 x' i) ∧
      ∑ i ∈ Finset.range d, (sgnFactor u' d1 x' i).arg = (∏ i ∈ Finset.range d, sgnFactor u' d1 x' i).arg + 2 * Real.pi * q := by
    rcases hok with h | h
    · exact Or.inl h
    · exact prodTurn_ball E hT hI hu hx hd hsz hne h
  unfold sqrtPolTurn
  rcases hturn with ⟨y, e⟩ | ⟨y, q, e, hy, hq⟩
  · rw [e, Res.ok_bind]
    have h := sqrtPolDef_rel E (sz := sz) hu d1 d hx
    rw [sqrtPolDef_spec hsz, edgeY_eq u' h1 2] at h
    exact h.ok_left
  · rw [e, Res.ok_bind]
    have hne' : ∀ i < d, sgnFactor u' d1 x' i ≠ 0 := by
      intro i hi
      unfold sgnFactor
      split
      · exact sub_ne_zero.2 (hne i hi)
      · exact sub_ne_zero.2 (hne i hi).symm
    rw [← edgeY_eq u' h1 2, root_prod (m := 2) (sgnFactor u' d1 x') hne' rfl hq]
    have hu2 : exact.unitRoot 2 = -1 := by
      show Complex.exp (2 * Real.pi * Complex.I / (2 : Nat)) = -1
      rw [← Complex.exp_pi_mul_I]; congr 1; push_cast; ring
    have hs : ∀ z : ℂ, exact.root 2 z = exact.sqrt z := by intro z; simp [exact]
    rw [hu2, hs]
    have hr := E.sqrt hy
    refine ⟨_, rfl, ?_⟩
    by_cases h0 : q.tmod 2 = 0
    · rw [if_neg (by simpa using h0), Even.neg_one_zpow (even_iff_two_dvd.2 (Int.dvd_of_tmod_eq_zero h0)), mul_one]
      exact hr
    · rw [if_pos h0, Odd.neg_one_zpow (Int.not_even_iff_odd.1 fun h => h0 (Int.tmod_eq_zero_of_dvd (even_iff_two_dvd.1 h))), mul_neg, mul_one]
      exact E.neg hr

/-! ## Coarse enclosures -/

/-- A crude kind of balls: a number, the closed right half plane, the whole plane. -/
inductive Crude where
  | pt (z : ℂ)
  | right
  | all

/-- the numbers in a crude ball -/
def Crude.mem : Crude → ℂ → Prop
  | .pt z, w => w = z
  | .right, w => 0 ≤ w.re
  | .all, _ => True

namespace Crude

/-- an operation, exact on numbers -/
def lift (f : ℂ → ℂ) : Crude → Crude
  | .pt z => .pt (f z)
  | _ => .all

/-- an operation with two arguments, exact on numbers -/
def lift2 (f : ℂ → ℂ → ℂ) : Crude → Crude → Crude
  | .pt z, .pt w => .pt (f z w)
  | _, _ => .all

theorem lift_mem (f : ℂ → ℂ) {a : Crude} {z : ℂ} (h : a.mem z) : (lift f a).mem (f z) := by
  cases a with
  | pt w => cases h; rfl
  | right => trivial
  | all => trivial

theorem lift2_mem (f : ℂ → ℂ → ℂ) {a b : Crude} {z w : ℂ} (h : a.mem z) (h' : b.mem w) : (lift2 f a b).mem (f z w) := by
  cases a <;> cases b <;> first | trivial | (cases h; cases h'; rfl)

/-- the factor of the example -/
noncomputable def t0 : ℂ := -1 + Complex.I / 2

open Classical in
/-- all operations are exact on numbers, except that the product `t0 · t0 = 3/4 - i` is enclosed in the right half plane, and square roots of the right half plane stay there -/
noncomputable def arith : Arith Crude where
  zero := .pt 0
  one := .pt 1
  add := lift2 (· + ·)
  sub := lift2 (· - ·)
  mul a b := if a = .pt t0 ∧ b = .pt t0 then .right else lift2 (· * ·) a b
  neg := lift fun z => -z
  div := lift2 (· / ·)
  inv := lift fun z => z⁻¹
  pow a k := lift (fun z => z ^ k) a
  ofInt k := .pt (k : ℂ)
  mul2exp a k := lift (fun z => z * (2 : ℂ) ^ k) a
  root m := lift fun z => z ^ ((m : ℂ)⁻¹)
  sqrt a := if a = .right then .right else lift (fun z => z ^ ((2 : ℂ)⁻¹)) a
  unitRoot n := .pt (Complex.exp (2 * Real.pi * Complex.I / n))
  log := lift Complex.log
  exp := lift Complex.exp
  divI := lift fun z => z / Complex.I
  pi := .pt (Real.pi : ℂ)

theorem t0_sq : t0 * t0 = 3 / 4 - Complex.I := by
  unfold t0
  linear_combination (1 / 4 : ℂ) * Complex.I_sq

theorem sqrt_re (z : ℂ) : 0 ≤ (z ^ ((2 : ℂ)⁻¹)).re := by
  have h := Complex.abs_arg_le_pi_div_two_iff (z := z ^ ((2 : ℂ)⁻¹))
  rcases eq_or_ne z 0 with rfl | hz
  · rw [Complex.zero_cpow (by norm_num)]; simp
  rw [Complex.cpow_def_of_ne_zero hz, Complex.exp_re]
  refine mul_nonneg (Real.exp_pos _).le (Real.cos_nonneg_of_mem_Icc ?_)
  have e : (Complex.log z * (2 : ℂ)⁻¹).im = z.arg / 2 := by
    rw [show (2 : ℂ)⁻¹ = ((2⁻¹ : ℝ) : ℂ) by push_cast; rfl, Complex.im_mul_ofReal, Complex.log_im]
    ring
  rw [e]
  have h1 := Complex.neg_pi_lt_arg z
  have h2 := Complex.arg_le_pi z
  constructor <;> linarith

theorem encloses : Encloses arith exact mem where
  zero := rfl
  one := rfl
  add := lift2_mem _
  sub := lift2_mem _
  mul := by
    intro a z b w h h'
    simp only [arith]
    split
    · rename_i hab
      obtain ⟨rfl, rfl⟩ := hab
      cases h
      cases h'
      show 0 ≤ (t0 * t0).re
      rw [t0_sq]
      norm_num
    · exact lift2_mem _ h h'
  neg := lift_mem _
  div := lift2_mem _
  inv := lift_mem _
  pow k h := lift_mem _ h
  ofInt _ := rfl
  mul2exp k h := lift_mem _ h
  root m h := lift_mem _ h
  sqrt := by
    intro a z h
    simp only [arith]
    split
    · exact sqrt_re z
    · exact lift_mem _ h
  unitRoot _ := rfl
  log := lift_mem _
  exp := lift_mem _
  divI := lift_mem _
  pi := rfl

/-- the tests: exact on numbers, otherwise undecided, except that the right half plane is known to have nonnegative real parts -/
noncomputable def tests : Tests Crude where
  reNeg | .pt z => exactTests.reNeg z | _ => false
  reNonpos | .pt z => exactTests.reNonpos z | _ => false
  reNonneg | .pt z => exactTests.reNonneg z | .right => true | .all => false
  imNonpos | .pt z => exactTests.imNonpos z | _ => false
  imHasZero | .pt z => exactTests.imHasZero z | _ => true
  imSgn | .pt z => exactTests.imSgn z | _ => 0
  hasZero | .pt z => exactTests.hasZero z | _ => true
  finite | .pt _ => true | _ => false
  arg := lift fun z => (Complex.arg z : ℂ)
  uniqueInt | .pt z => exactTests.uniqueInt z | _ => none

theorem sound : SoundTests tests mem where
  reNeg := by
    intro a z h h2
    cases a with
    | pt w => cases h; exact exactTests_sound.reNeg rfl h2
    | right => cases h2
    | all => cases h2
  reNonpos := by
    intro a z h h2
    cases a with
    | pt w => cases h; exact exactTests_sound.reNonpos rfl h2
    | right => cases h2
    | all => cases h2
  reNonneg := by
    intro a z h h2
    cases a with
    | pt w => cases h; exact exactTests_sound.reNonneg rfl h2
    | right => exact h
    | all => cases h2
  imNonpos := by
    intro a z h h2
    cases a with
    | pt w => cases h; exact exactTests_sound.imNonpos rfl h2
    | right => cases h2
    | all => cases h2
  imSgn := by
    intro a z h h2
    cases a with
    | pt w => cases h; exact exactTests_sound.imSgn rfl h2
    | right => cases h2
    | all => cases h2
  hasZero := by
    intro a z h h2
    cases a with
    | pt w => cases h; exact exactTests_sound.hasZero rfl h2
    | right => cases h2
    | all => cases h2
  arg := lift_mem _
  uniqueInt := by
    intro a k j h h2
    cases a with
    | pt w => cases h; exact exactTests_sound.uniqueInt rfl h2
    | right => cases h2
    | all => cases h2

theorem realPoint : RealPoint tests mem := by
  intro a h
  cases a with
  | pt z => exact ⟨z, rfl, by simpa [tests, exactTests] using h⟩
  | right => exact ⟨0, le_refl (0 : ℝ), rfl⟩
  | all => exact ⟨0, trivial, rfl⟩

end Crude

/-- **C23 (negation, coarse products).** Enclosure of all operations and sound tests are not enough for the turning number: with an arithmetic of balls where both hold and where the
product of `-1 + i/2` with itself is enclosed in a set meeting the real axis on the right, `sqrt_pol_turn` loses a turn and returns a
ball not containing the value, `-1 + i/2`; the last product lies in the right half plane. -/
theorem C23_coarse_product_fails : Encloses Crude.arith exact Crude.mem ∧ SoundTests Crude.tests Crude.mem ∧ RealPoint Crude.tests Crude.mem ∧
    ∃ v, sqrtPolTurn Crude.arith Crude.tests 2 (fun _ => .pt Crude.t0) 2 2 (.pt 0) = .ok v ∧
    edgeY 2 2 2 (fun _ => Crude.t0) 0 = -1 + Complex.I / 2 ∧ ¬ v.mem (-1 + Complex.I / 2) := by
  have e0 : Crude.arith.sub (.pt Crude.t0) (.pt 0) = .pt Crude.t0 := by
    show Crude.pt (Crude.t0 - 0) = _
    rw [sub_zero]
  have e1 : Crude.arith.mul (.pt Crude.t0) (.pt Crude.t0) = .right := if_pos ⟨rfl, rfl⟩
  have e2 : sgnImag Crude.tests (.pt Crude.t0) = 1 := by
    have : sgnImag Crude.tests (.pt Crude.t0) = sgnImag exactTests Crude.t0 := rfl
    rw [this, sgnImag_exact]
    simp [Crude.t0]
  have e3 : sgnImag Crude.tests .right = 1 := rfl
  have e4 : Crude.arith.sqrt .right = .right := if_pos rfl
  refine ⟨Crude.encloses, Crude.sound, Crude.realPoint, .right, ?_, ?_, ?_⟩
  · simp [sqrtPolTurn, prodTurn, rdV, turnLoop, factorAt, turnStep, e0, e1, e2, e3, e4]
  · rw [← edgeY_eq _ le_rfl 2, Finset.prod_range_succ, Finset.prod_range_one]
    have : ∀ k < 2, sgnFactor (fun _ => Crude.t0) 2 0 k = Crude.t0 := by
      intro k hk; rw [sgnFactor, if_pos hk, sub_zero]
    rw [this 0 (by norm_num), this 1 (by norm_num)]
    have hne : Crude.t0 ≠ 0 := by
      intro h
      have := congrArg Complex.im h
      simp [Crude.t0] at this
    have h2 : exact.root 2 Crude.t0 * exact.root 2 Crude.t0 = Crude.t0 := by
      show Crude.t0 ^ _ * Crude.t0 ^ _ = _
      rw [← Complex.cpow_add _ _ hne]
      norm_num
    rw [h2]
    rfl
  · show ¬ (0 : ℝ) ≤ _
    norm_num

/-- Instance on exact numbers, with a genuine turn: three factors `-1 + i`, whose product is `2 + 2i`. -/
example : TurnDecided exact exactTests (fun _ => -1 + Complex.I) 3 3 0 := by
  have f : ∀ k, k < 3 → ballFactor exact (fun _ => -1 + Complex.I) 3 0 k = -1 + Complex.I := by
    intro k hk
    unfold ballFactor
    rw [if_pos hk]
    exact sub_zero _
  have p0 : ballProd exact (fun _ => -1 + Complex.I) 3 0 0 = -1 + Complex.I := f 0 (by norm_num)
  have p1 : ballProd exact (fun _ => -1 + Complex.I) 3 0 1 = -2 * Complex.I := by
    show exact.mul (ballProd exact (fun _ => -1 + Complex.I) 3 0 0) _ = _
    rw [p0, f 1 (by norm_num)]
    show (-1 + Complex.I) * (-1 + Complex.I) = _
    linear_combination Complex.I_sq
  have p2 : ballProd exact (fun _ => -1 + Complex.I) 3 0 2 = 2 + 2 * Complex.I := by
    show exact.mul (ballProd exact (fun _ => -1 + Complex.I) 3 0 1) _ = _
    rw [p1, f 2 (by norm_num)]
    show -2 * Complex.I * (-1 + Complex.I) = _
    linear_combination -2 * Complex.I_sq
  refine ⟨Or.inr (Or.inl ?_), fun k hk _ _ _ h => ?_⟩
  · show exactTests.imHasZero (ballProd exact (fun _ => -1 + Complex.I) 3 0 2) = false
    rw [p2]
    simp [exactTests]
  · have : k = 0 ∨ k = 1 := by omega
    rcases this with rfl | rfl
    · rw [p1] at h
      simp [exactTests] at h
    · rw [p2] at h
      simp [exactTests] at h

end Hcp
