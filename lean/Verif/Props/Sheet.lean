import Verif.Proofs.Sheet
import Verif.Props.YData
import Verif.Props.Intersection

/-!
# C14: shift numbers are integers, and they are the right ones
-/

namespace Hcp
open Complex

variable {A : Type} {X : Arith A} {R : A → ℂ → Prop}

theorem fder_ne_zero {x : Nat → ℂ} {n a : Nat} (ha : a < n) (hx : Set.InjOn x (Set.Iio n)) : fder x n a ≠ 0 := by
  unfold fder
  rw [Finset.prod_ne_zero_iff]
  intro k hk h
  rw [Finset.mem_erase, Finset.mem_range] at hk
  exact hk.1 (hx hk.2 ha (sub_eq_zero.1 h).symm)

/-- the value rounded by `shift_number` -/
theorem shift_value (E : Encloses X exact R) {rho psi : A} {φ ψ : ℝ} {m : Nat}
    (h1 : R rho ((φ / (2 * Real.pi) : ℝ) : ℂ)) (h2 : R psi ((ψ / (2 * Real.pi) : ℝ) : ℂ)) :
    R (X.add rho (X.mul psi (X.ofInt m))) (((φ + m * ψ) / (2 * Real.pi) : ℝ) : ℂ) := by
  have h := E.add h1 (E.mul h2 (E.ofInt m))
  have e : exact.add ((φ / (2 * Real.pi) : ℝ) : ℂ) (exact.mul ((ψ / (2 * Real.pi) : ℝ) : ℂ) (exact.ofInt m))
      = (((φ + m * ψ) / (2 * Real.pi) : ℝ) : ℂ) := by
    show ((φ / (2 * Real.pi) : ℝ) : ℂ) + ((ψ / (2 * Real.pi) : ℝ) : ℂ) * ((m : Int) : ℂ) = _
    push_cast
    ring
  rwa [e] at h

theorem arbGetSi_ok {T : Tests A} {a : A} {s : Int} (h : arbGetSi T a = .ok s) : T.uniqueInt a = some s := by
  unfold arbGetSi at h
  split at h
  · cases h
  · split at h
    · cases h; assumption
    · cases h

theorem angle_cases {z : ℂ} {φ : ℝ} {p q : Bool}
    (h : φ = (if p then (if q then (-z).arg - Real.pi else (-z).arg + Real.pi) else z.arg)) :
    φ = z.arg ∨ φ = (-z).arg + Real.pi ∨ φ = (-z).arg - Real.pi := by
  cases p <;> cases q <;> simp_all

theorem pm_shift (m : Nat) (d s : Int) : Spec.pm m d (-(s - 1)) (-1 - (s - 1)) = Spec.pm m d (1 - s) (-s) := by
  congr 1 <;> omega

/-- **C14 (common start).** Edges `(a,b)` and `(a,d)` of the tree whose data, contained in balls, satisfy the local equation
(C20).  Whenever `shift_number` returns on these balls, the integer it returns, with the sign decision of
`is_neg_abad`, gives exactly the intersection numbers prescribed by the sheet gap between the two edges: turning counterclockwise from the second to the first edge around
the common point multiplies the stored branch by `ζ^S`.
The hypotheses on the tests say that the directions are resolved: `h1`: when the real part of the ratio is decided non-positive the sign of the
imaginary part and the sign of the argument of the opposite are decided in the same way (one of the two values `±π` is taken consistently); `h2`: otherwise the sign of the imaginary part is decided. -/
theorem C14_common_start (E : Encloses X exact R) {T : Tests A} (hT : SoundTests T R) {m n a b d n1 n1' : Nat}
    (hm : 0 < m) {x : Nat → ℂ} (hx : Set.InjOn x (Set.Iio n)) (ha : a < n) (hb : b < n) (hd : d < n)
    (hab : a ≠ b) (had : a ≠ d) {yk yl : YData A} {uk ul : Nat → ℂ}
    (hyk : yk.n = n) (hyl : yl.n = n) (hRk : ∀ i, R (yk.u i) (uk i)) (hRl : ∀ i, R (yl.u i) (ul i))
    (hk : Spec.EdgeData m n x a b n1 uk) (hl : Spec.EdgeData m n x a d n1' ul)
    (hover : ¬ ∃ r : ℝ, 0 < r ∧ (x b - x a) / (x d - x a) = r)
    (h1 : T.reNonpos (X.div yk.ba2 yl.ba2) = true →
      (T.reNonneg (T.arg (X.neg (X.div yk.ba2 yl.ba2))) = true ↔ T.imNonpos (X.div yk.ba2 yl.ba2) = true))
    (h2 : T.reNonpos (X.div yk.ba2 yl.ba2) = false →
      (T.imNonpos (X.div yk.ba2 yl.ba2) = true ↔ ((x b - x a) / (x d - x a)).im < 0))
    {s : Int} (hs : shiftAD X T yk yl m = .ok s) :
    ∃ S, Spec.SheetGap m (uk (n - 2)) (ul (n - 2)) (uk (n + 1)) (ul (n + 1)) S ∧
      ∀ α β, (if isNegAbad X T yk.ba2 yl.ba2 then Spec.Meet.startNeg s else Spec.Meet.startPos s).number m α β =
        Spec.localNumber m α β S := by
  have hab' : x b - x a ≠ 0 := sub_ne_zero.2 fun h => hab (hx hb ha h).symm
  have had' : x d - x a ≠ 0 := sub_ne_zero.2 fun h => had (hx hd ha h).symm
  have hdk : uk (n - 2) ≠ 0 := by rw [hk.ba2]; exact div_ne_zero hab' two_ne_zero
  have hdl : ul (n - 2) ≠ 0 := by rw [hl.ba2]; exact div_ne_zero had' two_ne_zero
  have hz : uk (n - 2) / ul (n - 2) = (x b - x a) / (x d - x a) := by rw [hk.ba2, hl.ba2]; field_simp
  have pk := (edgeData_at hm ha hb hab hk).1
  have pl := (edgeData_at hm ha hd had hl).1
  have hYk : uk (n + 1) ≠ 0 := by
    intro h
    rw [h, zero_pow hm.ne'] at pk
    exact mul_ne_zero (div_ne_zero hab' (by norm_num)) (fder_ne_zero ha hx) pk.symm
  have hp : ul (n + 1) ^ m * uk (n - 2) = uk (n + 1) ^ m * ul (n - 2) := by
    rw [pk, pl, hk.ba2, hl.ba2]; ring
  have rk : R yk.ba2 (uk (n - 2)) := by have := hRk (n - 2); rwa [← hyk] at this ⊢
  have rl : R yl.ba2 (ul (n - 2)) := by have := hRl (n - 2); rwa [← hyl] at this ⊢
  have rka : R yk.ya (uk (n + 1)) := by have := hRk (n + 1); rwa [← hyk] at this ⊢
  have rla : R yl.ya (ul (n + 1)) := by have := hRl (n + 1); rwa [← hyl] at this ⊢
  unfold shiftAD at hs
  obtain ⟨rho, e1, hs⟩ := Res.bind_eq_ok.1 hs
  obtain ⟨psi, e2, hs⟩ := Res.bind_eq_ok.1 hs
  obtain ⟨φ, r1, hφ⟩ := arbAngle_spec E hT rk rl e1
  obtain ⟨ψ, r2, hψ⟩ := arbAngle_spec E hT rla rka e2
  have hv := shift_value E (m := m) r1 r2
  have hψ' := angle_turns ψ (angle_cases hψ)
  have hφ' := angle_turns φ (angle_cases hφ)
  have ht : R (X.div yk.ba2 yl.ba2) (uk (n - 2) / ul (n - 2)) := E.div rk rl
  have hpi := Real.pi_pos
  have hz0 : uk (n - 2) / ul (n - 2) ≠ 0 := div_ne_zero hdk hdl
  -- conclude from a determination of the angle in `(0, 2 pi)`
  have done : ∀ j : Int, 0 < φ + 2 * Real.pi * j → φ + 2 * Real.pi * j < 2 * Real.pi →
      (if isNegAbad X T yk.ba2 yl.ba2 then j = 1 else j = 0) →
      ∃ S, Spec.SheetGap m (uk (n - 2)) (ul (n - 2)) (uk (n + 1)) (ul (n + 1)) S ∧
        ∀ α β, (if isNegAbad X T yk.ba2 yl.ba2 then Spec.Meet.startNeg s else Spec.Meet.startPos s).number m α β =
          Spec.localNumber m α β S := by
    intro j j1 j2 j3
    have hturn : Spec.Turns (uk (n - 2)) (ul (n - 2)) (φ + 2 * Real.pi * j) := by
      unfold Spec.Turns
      conv_lhs => rw [hφ']
      congr 1
      rw [exp_eq_exp_iff_exists_int]
      exact ⟨-j, by push_cast; ring⟩
    obtain ⟨S, hS, hcont⟩ := gap_of_angles hm hdk hdl hYk hp hturn hψ'
    refine ⟨S, ⟨_, j1, j2, hturn, hcont⟩, ?_⟩
    have hval : (φ + m * ψ) / (2 * Real.pi) = ((S - j : Int) : ℝ) := by
      rw [div_eq_iff (by positivity)]
      push_cast
      linarith
    rw [hval] at hv
    have hsS : s = S - j := hT.uniqueInt (by exact_mod_cast hv) (arbGetSi_ok hs)
    intro α β
    split
    · rename_i hneg
      rw [if_pos hneg] at j3
      subst j3
      subst hsS
      exact pm_shift m (β - α) S
    · rename_i hneg
      rw [if_neg hneg] at j3
      subst j3
      rw [hsS, sub_zero]
      rfl
  by_cases hnp : T.reNonpos (X.div yk.ba2 yl.ba2) = true
  · rw [if_pos hnp] at hφ
    have hre := hT.reNonpos ht hnp
    have harg : |(-(uk (n - 2) / ul (n - 2))).arg| ≤ Real.pi / 2 := by
      rw [abs_arg_le_pi_div_two_iff, neg_re]; linarith
    rw [abs_le] at harg
    by_cases hq : T.reNonneg (T.arg (X.neg (X.div yk.ba2 yl.ba2))) = true
    · rw [if_pos hq] at hφ
      have h0 : 0 ≤ (-(uk (n - 2) / ul (n - 2))).arg := by
        have := hT.reNonneg (hT.arg (E.neg ht)) hq
        rwa [ofReal_re] at this
      refine done 1 ?_ ?_ ?_
      · rw [hφ]; push_cast; linarith
      · rw [hφ]; push_cast; linarith
      · rw [if_pos (show isNegAbad X T yk.ba2 yl.ba2 = true from (h1 hnp).1 hq)]
    · rw [if_neg hq] at hφ
      refine done 0 ?_ ?_ ?_
      · rw [hφ]; push_cast; linarith
      · rw [hφ]; push_cast; linarith
      · rw [if_neg (show ¬ isNegAbad X T yk.ba2 yl.ba2 = true from fun h => hq ((h1 hnp).2 h))]
  · rw [if_neg hnp] at hφ
    have h2' := h2 (by simpa using hnp)
    rw [← hz] at h2' hover
    by_cases him : (uk (n - 2) / ul (n - 2)).im < 0
    · have h3 := arg_neg_iff.2 him
      have h4 := neg_pi_lt_arg (uk (n - 2) / ul (n - 2))
      refine done 1 ?_ ?_ ?_
      · rw [hφ]; push_cast; linarith
      · rw [hφ]; push_cast; linarith
      · rw [if_pos (show isNegAbad X T yk.ba2 yl.ba2 = true from h2'.2 him)]
    · have h3 : 0 ≤ (uk (n - 2) / ul (n - 2)).arg := by rw [arg_nonneg_iff]; linarith
      have h4 := arg_le_pi (uk (n - 2) / ul (n - 2))
      have h5 : (uk (n - 2) / ul (n - 2)).arg ≠ 0 := by
        intro h
        obtain ⟨h6, h7⟩ := arg_eq_zero_iff.1 h
        refine hover ⟨(uk (n - 2) / ul (n - 2)).re, ?_, Complex.ext rfl (by rw [h7, ofReal_im])⟩
        refine lt_of_le_of_ne h6 fun h8 => hz0 (Complex.ext h8.symm h7)
      have h6 := lt_of_le_of_ne h3 (Ne.symm h5)
      refine done 0 ?_ ?_ ?_
      · rw [hφ]; push_cast; linarith
      · rw [hφ]; push_cast; linarith
      · rw [if_neg (show ¬ isNegAbad X T yk.ba2 yl.ba2 = true from fun h => him (h2'.1 h))]

/-- **C14 (end of the first edge = start of the second).** Edges `(a,b)` and `(b,d)`.  Whenever `shift_number` returns, its value gives the
intersection numbers prescribed by the sheet gap at `b`, with the opposite sign because the first loop arrives at `b`. `h1`: the sign of the argument is decided on the left half plane. -/
theorem C14_end_start (E : Encloses X exact R) {T : Tests A} (hT : SoundTests T R) {m n a b d n1 n1' : Nat}
    (hm : 2 ≤ m) {x : Nat → ℂ} (hx : Set.InjOn x (Set.Iio n)) (ha : a < n) (hb : b < n) (hd : d < n)
    (hab : a ≠ b) (hbd : b ≠ d) {yk yl : YData A} {uk ul : Nat → ℂ}
    (hyk : yk.n = n) (hyl : yl.n = n) (hRk : ∀ i, R (yk.u i) (uk i)) (hRl : ∀ i, R (yl.u i) (ul i))
    (hk : Spec.EdgeData m n x a b n1 uk) (hl : Spec.EdgeData m n x b d n1' ul)
    (hover : ¬ ∃ r : ℝ, 0 < r ∧ (x a - x b) / (x d - x b) = r)
    (h1 : T.reNonpos (X.div yk.ba2 yl.ba2) = true →
      (T.reNonneg (T.arg (X.neg (X.div yk.ba2 yl.ba2))) = true ↔ 0 ≤ ((x a - x b) / (x d - x b)).arg))
    {s : Int} (hs : shiftBD X T yk yl m = .ok s) :
    ∃ S, Spec.SheetGap m (-uk (n - 2)) (ul (n - 2)) (uk (n + 2)) (ul (n + 1)) S ∧
      ∀ α β, (Spec.Meet.endStart s).number m α β = - Spec.localNumber m α β S := by
  have hm' : 0 < m := by omega
  have hab' : x a - x b ≠ 0 := sub_ne_zero.2 fun h => hab (hx ha hb h)
  have hbd' : x d - x b ≠ 0 := sub_ne_zero.2 fun h => hbd (hx hd hb h).symm
  have ek : -uk (n - 2) = (x a - x b) / 2 := by rw [hk.ba2]; ring
  have hdk : -uk (n - 2) ≠ 0 := by rw [ek]; exact div_ne_zero hab' two_ne_zero
  have hdl : ul (n - 2) ≠ 0 := by rw [hl.ba2]; exact div_ne_zero hbd' two_ne_zero
  have hz : -(uk (n - 2) / ul (n - 2)) = (x a - x b) / (x d - x b) := by
    rw [← neg_div, ek, hl.ba2]; field_simp
  have pk := (edgeData_at hm' ha hb hab hk).2
  have pl := (edgeData_at hm' hb hd hbd hl).1
  have hYk : uk (n + 2) ≠ 0 := by
    intro h
    rw [h, zero_pow hm'.ne'] at pk
    exact mul_ne_zero (div_ne_zero hab' (by norm_num)) (fder_ne_zero hb hx) pk.symm
  have hp : ul (n + 1) ^ m * (-uk (n - 2)) = uk (n + 2) ^ m * ul (n - 2) := by
    rw [pk, pl, ek, hl.ba2]; ring
  have rk : R yk.ba2 (uk (n - 2)) := by have := hRk (n - 2); rwa [← hyk] at this ⊢
  have rl : R yl.ba2 (ul (n - 2)) := by have := hRl (n - 2); rwa [← hyl] at this ⊢
  have rkb : R yk.yb (uk (n + 2)) := by have := hRk (n + 2); rwa [← hyk] at this ⊢
  have rla : R yl.ya (ul (n + 1)) := by have := hRl (n + 1); rwa [← hyl] at this ⊢
  unfold shiftBD at hs
  obtain ⟨rho, e1, hs⟩ := Res.bind_eq_ok.1 hs
  obtain ⟨psi, e2, hs⟩ := Res.bind_eq_ok.1 hs
  obtain ⟨φ, r1, hφ⟩ := arbAngle_spec E hT rk rl e1
  obtain ⟨ψ, r2, hψ⟩ := arbAngle_spec E hT rla rkb e2
  have hv0 := E.add (shift_value E (m := m) r1 r2) (E.mul2exp (-1) E.one)
  have hv : R (X.add (X.add rho (X.mul psi (X.ofInt m))) (X.mul2exp X.one (-1)))
      (((φ + Real.pi + m * ψ) / (2 * Real.pi) : ℝ) : ℂ) := by
    have e : exact.add (((φ + m * ψ) / (2 * Real.pi) : ℝ) : ℂ) (exact.mul2exp exact.one (-1))
        = (((φ + Real.pi + m * ψ) / (2 * Real.pi) : ℝ) : ℂ) := by
      show (((φ + m * ψ) / (2 * Real.pi) : ℝ) : ℂ) + 1 * (2 : ℂ) ^ (-1 : Int) = _
      have hpi : ((Real.pi : ℝ) : ℂ) ≠ 0 := by exact_mod_cast Real.pi_ne_zero
      rw [zpow_neg_one]
      push_cast
      field_simp
      ring
    rwa [e] at hv0
  have hψ' := angle_turns ψ (angle_cases hψ)
  have hφ' := angle_turns φ (angle_cases hφ)
  have ht : R (X.div yk.ba2 yl.ba2) (uk (n - 2) / ul (n - 2)) := E.div rk rl
  have hpi := Real.pi_pos
  have hz0 : -(uk (n - 2) / ul (n - 2)) ≠ 0 := by rw [← neg_div]; exact div_ne_zero hdk hdl
  have hargne : (-(uk (n - 2) / ul (n - 2))).arg ≠ 0 := by
    intro h
    obtain ⟨h6, h7⟩ := arg_eq_zero_iff.1 h
    rw [← hz] at hover
    refine hover ⟨(-(uk (n - 2) / ul (n - 2))).re, ?_, Complex.ext rfl (by rw [h7, ofReal_im])⟩
    exact lt_of_le_of_ne h6 fun h8 => hz0 (Complex.ext h8.symm h7)
  have hrange : 0 < φ + Real.pi ∧ φ + Real.pi < 2 * Real.pi := by
    by_cases hnp : T.reNonpos (X.div yk.ba2 yl.ba2) = true
    · rw [if_pos hnp] at hφ
      have h1' := h1 hnp
      rw [← hz] at h1'
      by_cases hq : T.reNonneg (T.arg (X.neg (X.div yk.ba2 yl.ba2))) = true
      · rw [if_pos hq] at hφ
        have h0 := lt_of_le_of_ne (h1'.1 hq) (Ne.symm hargne)
        have h2 := arg_le_pi (-(uk (n - 2) / ul (n - 2)))
        constructor <;> rw [hφ] <;> linarith
      · rw [if_neg hq] at hφ
        have h0 : ¬ 0 ≤ (-(uk (n - 2) / ul (n - 2))).arg := fun h => hq (h1'.2 h)
        have h2 := neg_pi_lt_arg (-(uk (n - 2) / ul (n - 2)))
        constructor <;> rw [hφ] <;> linarith
    · rw [if_neg hnp] at hφ
      have h2 := neg_pi_lt_arg (uk (n - 2) / ul (n - 2))
      have h3 := arg_le_pi (uk (n - 2) / ul (n - 2))
      have h4 : (uk (n - 2) / ul (n - 2)).arg ≠ Real.pi := by
        intro h
        obtain ⟨h6, h7⟩ := arg_eq_pi_iff.1 h
        apply hargne
        rw [arg_eq_zero_iff]
        exact ⟨by rw [neg_re]; linarith, by rw [neg_im, h7, neg_zero]⟩
      have h5 := lt_of_le_of_ne h3 h4
      constructor <;> rw [hφ] <;> linarith
  have hturn : Spec.Turns (-uk (n - 2)) (ul (n - 2)) (φ + Real.pi) := by
    unfold Spec.Turns
    rw [neg_div, norm_neg]
    push_cast
    rw [add_mul, exp_add, exp_pi_mul_I]
    linear_combination -hφ'
  obtain ⟨S, hS, hcont⟩ := gap_of_angles hm' hdk hdl hYk hp hturn hψ'
  refine ⟨S, ⟨_, hrange.1, hrange.2, hturn, hcont⟩, ?_⟩
  have hval : (φ + Real.pi + m * ψ) / (2 * Real.pi) = ((S : Int) : ℝ) := by
    rw [div_eq_iff (by positivity)]
    linarith
  rw [hval] at hv
  have hsS : s = S := hT.uniqueInt (by exact_mod_cast hv) (arbGetSi_ok hs)
  subst hsS
  intro α β
  show Spec.pm m (β - α) (-s) (1 - s) = - Spec.pm m (β - α) (1 - s) (-s)
  unfold Spec.pm
  have hno : ¬ ((m : Int) ∣ β - α - (-s) ∧ (m : Int) ∣ β - α - (1 - s)) := by
    rintro ⟨g1, g2⟩
    have := Int.dvd_sub g1 g2
    rw [show β - α - -s - (β - α - (1 - s)) = 1 by ring] at this
    have := Int.le_of_dvd one_pos this
    omega
  by_cases g1 : (m : Int) ∣ β - α - (-s)
  · rw [if_pos g1]
    by_cases g2 : (m : Int) ∣ β - α - (1 - s)
    · exact absurd ⟨g1, g2⟩ hno
    · rw [if_neg g2, if_pos g1]; rfl
  · rw [if_neg g1]
    by_cases g2 : (m : Int) ∣ β - α - (1 - s)
    · rw [if_pos g2, if_pos g2]
    · rw [if_neg g2, if_neg g1, if_neg g2]; rfl

theorem localNumber_congr {m : Nat} {S S' : Int} (h : (m : Int) ∣ S - S') (α β : Int) :
    Spec.localNumber m α β S = Spec.localNumber m α β S' := by
  unfold Spec.localNumber Spec.pm
  have e1 : (m : Int) ∣ β - α - (1 - S) ↔ (m : Int) ∣ β - α - (1 - S') := by
    rw [show β - α - (1 - S) = β - α - (1 - S') + (S - S') by ring]
    exact (Int.dvd_add_left h)
  have e2 : (m : Int) ∣ β - α - (-S) ↔ (m : Int) ∣ β - α - (-S') := by
    rw [show β - α - (-S) = β - α - (-S') + (S - S') by ring]
    exact (Int.dvd_add_left h)
  simp only [e1, e2]

/-- **C14 (the two values of a straight angle).** The number of a pair of edges is determined by the edges and their branches alone: whichever integers
`S`, `S'` two computations arrive at (other precision, other test answers, `+π` or `-π` for a straight angle), the
local intersection numbers are the same. -/
theorem C14_independent {m : Nat} (hm : 0 < m) {dk dl Yk Yl : ℂ} (hdk : dk ≠ 0) (hdl : dl ≠ 0) (hYk : Yk ≠ 0)
    {S S' : Int} (h : Spec.SheetGap m dk dl Yk Yl S) (h' : Spec.SheetGap m dk dl Yk Yl S') (α β : Int) :
    Spec.localNumber m α β S = Spec.localNumber m α β S' :=
  localNumber_congr (sheetGap_unique hm hdk hdl hYk h h') α β

end Hcp
