import Verif.Props.Crossing
import Verif.Props.DeEdge
import Verif.Props.SuperPeriods
import Verif.Props.ComputeFails

/-!
# Curves `y^2 = ∏ (x - x_k)` with real branch points

On a segment between two branch points without a third one, `y` is real or purely imaginary.
-/

namespace Hcp
open Spec MeasureTheory Set

theorem zeta_two : zeta 2 = -1 := by
  unfold zeta
  rw [show (2 * (Real.pi : ℂ) * Complex.I / ((2 : ℕ) : ℂ)) = Real.pi * Complex.I by push_cast; ring]
  exact Complex.exp_pi_mul_I

theorem turns_mul {k z o : ℂ} (hk : k ≠ 0) {φ : ℝ} : Turns (k * z) (k * o) φ ↔ Turns z o φ := by
  unfold Turns
  rw [mul_div_mul_left _ _ hk]

theorem turns_pos {r : ℝ} (hr : 0 < r) {z o : ℂ} {φ : ℝ} : Turns (r * z) o φ ↔ Turns z o φ := by
  unfold Turns
  rw [mul_div_assoc, norm_mul, Complex.norm_real, Real.norm_of_nonneg hr.le, Complex.ofReal_mul, mul_assoc]
  exact mul_right_inj' (Complex.ofReal_ne_zero.2 hr.ne')

theorem leftSide_mul {k : ℂ} (hk : k ≠ 0) {r : ℝ} (hr : 0 < r) (i o z : ℂ) : leftSide (k * i) (k * o) (k * (r * z)) = leftSide i o z := by
  have h1 : ∀ {o : ℂ} {φ : ℝ}, Turns (k * (r * z)) (k * o) φ ↔ Turns z o φ := by
    intro o φ
    rw [turns_mul hk, turns_pos hr]
  have hB : Between (k * o) (k * i) (k * (r * z)) ↔ Between o i z := by
    unfold Between
    simp only [h1, turns_mul hk]
  unfold leftSide
  by_cases q1 : Between o i z
  · rw [if_pos (hB.2 q1), if_pos q1]
  · rw [if_neg (fun h => q1 (hB.1 h)), if_neg q1]
    by_cases q2 : Turns z o 0 ∨ Turns z i 0
    · rw [if_pos ((or_congr h1 h1).2 q2), if_pos q2]
    · rw [if_neg (fun h => q2 ((or_congr h1 h1).1 h)), if_neg q2]

/-- two straight paths crossing at a right angle -/
theorem crossing_right {c d : ℂ} (hc : c ≠ 0) {r : ℝ} (hr : 0 < r) (hd : d = r * Complex.I * c) : crossing ⟨-c, c⟩ ⟨-d, d⟩ = 1 := by
  rw [← crossing_axes]
  unfold crossing
  have h1 := leftSide_mul hc hr (-1) 1 Complex.I
  have h2 := leftSide_mul hc hr (-1) 1 (-Complex.I)
  have e1 : c * -1 = -c := by ring
  have e2 : c * (r * Complex.I) = d := by rw [hd]; ring
  have e3 : c * (r * -Complex.I) = -d := by rw [hd]; ring
  rw [e1, mul_one] at h1 h2
  rw [e2] at h1
  rw [e3] at h2
  simp only [h1, h2]

theorem crossing_left {c d : ℂ} (hc : c ≠ 0) {r : ℝ} (hr : 0 < r) (hd : d = -(r * Complex.I * c)) : crossing ⟨-c, c⟩ ⟨-d, d⟩ = -1 := by
  have := crossing_right (d := -d) hc hr (by rw [hd, neg_neg])
  rw [neg_neg] at this
  rw [← this, ← crossing_rev]

/-- real form of the edge -/
noncomputable def ptR (α β t : ℝ) : ℝ := (α + β) / 2 + t * ((β - α) / 2)

theorem edgePt_real (α β t : ℝ) : edgePt (α : ℂ) (β : ℂ) (t : ℂ) = (ptR α β t : ℝ) := by
  unfold edgePt ptR
  push_cast
  ring

/-- the polynomial on an edge -/
noncomputable def polR (n : Nat) (ξ : Nat → ℝ) (v : ℝ) : ℝ := ∏ k ∈ Finset.range n, (v - ξ k)

/-- the branch points are outside of the open edge -/
structure FreeR (n : Nat) (ξ : Nat → ℝ) (a b : Nat) : Prop where
  ha : a < n
  hb : b < n
  ne : ξ a ≠ ξ b
  free : ∀ k < n, k ≠ a → k ≠ b → ∀ t : ℝ, -1 ≤ t → t ≤ 1 → ξ k ≠ ptR (ξ a) (ξ b) t

/-- coordinate on the edge of the point `v` -/
noncomputable def coordR (α β v : ℝ) : ℝ := (2 * v - α - β) / (β - α)

theorem sub_coord {α β : ℝ} (h : α ≠ β) (t v : ℝ) : ptR α β t - v = (t - coordR α β v) * ((β - α) / 2) := by
  have : β - α ≠ 0 := sub_ne_zero.2 h.symm
  unfold ptR coordR
  field_simp
  ring

theorem FreeR.coord {n : Nat} {ξ : Nat → ℝ} {a b : Nat} (h : FreeR n ξ a b) {k : Nat} (hk : k < n) (hka : k ≠ a) (hkb : k ≠ b) : coordR (ξ a) (ξ b) (ξ k) < -1 ∨ 1 < coordR (ξ a) (ξ b) (ξ k) := by
  by_contra hc
  push Not at hc
  refine h.free k hk hka hkb _ hc.1 hc.2 ?_
  have := sub_coord h.ne (coordR (ξ a) (ξ b) (ξ k)) (ξ k)
  rw [sub_self, zero_mul] at this
  linarith

theorem coord_a {α β : ℝ} (h : α ≠ β) : coordR α β α = -1 := by
  have : β - α ≠ 0 := sub_ne_zero.2 h.symm
  unfold coordR
  field_simp
  ring

theorem coord_b {α β : ℝ} (h : α ≠ β) : coordR α β β = 1 := by
  have : β - α ≠ 0 := sub_ne_zero.2 h.symm
  unfold coordR
  field_simp
  ring

theorem FreeR.coord' {n : Nat} {ξ : Nat → ℝ} {a b : Nat} (h : FreeR n ξ a b) {k : Nat} (hk : k < n) : coordR (ξ a) (ξ b) (ξ k) ≤ -1 ∨ 1 ≤ coordR (ξ a) (ξ b) (ξ k) := by
  by_cases hka : k = a
  · rw [hka, coord_a h.ne]; exact Or.inl le_rfl
  by_cases hkb : k = b
  · rw [hkb, coord_b h.ne]; exact Or.inr le_rfl
  rcases h.coord hk hka hkb with h1 | h1
  · exact Or.inl h1.le
  · exact Or.inr h1.le

/-- two points of the open edge are on the same side of every branch point -/
theorem FreeR.same_side {n : Nat} {ξ : Nat → ℝ} {a b : Nat} (h : FreeR n ξ a b) {k : Nat} (hk : k < n) {s t : ℝ} (hs : s ∈ Ioo (-1 : ℝ) 1) (ht : t ∈ Ioo (-1 : ℝ) 1) :
    0 < (ptR (ξ a) (ξ b) s - ξ k) * (ptR (ξ a) (ξ b) t - ξ k) := by
  rw [sub_coord h.ne, sub_coord h.ne]
  have h2 : 0 < ((ξ b - ξ a) / 2) ^ 2 := by
    have : ξ b - ξ a ≠ 0 := sub_ne_zero.2 h.ne.symm
    positivity
  have h1 : 0 < (s - coordR (ξ a) (ξ b) (ξ k)) * (t - coordR (ξ a) (ξ b) (ξ k)) := by
    rcases h.coord' hk with h1 | h1
    · exact mul_pos (by linarith [hs.1]) (by linarith [ht.1])
    · exact mul_pos_of_neg_of_neg (by linarith [hs.2]) (by linarith [ht.2])
  nlinarith [mul_pos h1 h2]

theorem FreeR.same_sign {n : Nat} {ξ : Nat → ℝ} {a b : Nat} (h : FreeR n ξ a b) {s t : ℝ} (hs : s ∈ Ioo (-1 : ℝ) 1) (ht : t ∈ Ioo (-1 : ℝ) 1) :
    0 < polR n ξ (ptR (ξ a) (ξ b) s) * polR n ξ (ptR (ξ a) (ξ b) t) := by
  unfold polR
  rw [← Finset.prod_mul_distrib]
  exact Finset.prod_pos fun k hk => h.same_side (Finset.mem_range.1 hk) hs ht

theorem cont_ptR (α β : ℝ) : Continuous (ptR α β) := by unfold ptR; fun_prop
theorem cont_polR (n : Nat) (ξ : Nat → ℝ) : Continuous (polR n ξ) := by
  unfold polR
  exact continuous_finsetProd _ fun k _ => by fun_prop

/-- the determination of `y` on an edge: real or imaginary, of constant sign -/
theorem FreeR.branch {n : Nat} {ξ : Nat → ℝ} {a b : Nat} (h : FreeR n ξ a b) {Y : ℝ → ℂ} (hY : IsBranchM 2 n (fun k => (ξ k : ℂ)) (ξ a) (ξ b) Y) :
    ∃ s : ℂ, ((0 < polR n ξ (ptR (ξ a) (ξ b) 0) ∧ (s = 1 ∨ s = -1)) ∨ (polR n ξ (ptR (ξ a) (ξ b) 0) < 0 ∧ (s = Complex.I ∨ s = -Complex.I))) ∧
      ∀ t ∈ Ioo (-1 : ℝ) 1, Y t = s * (√|polR n ξ (ptR (ξ a) (ξ b) t)| : ℝ) := by
  have h0 : (0 : ℝ) ∈ Ioo (-1 : ℝ) 1 := by constructor <;> norm_num
  set q : ℝ → ℝ := fun t => polR n ξ (ptR (ξ a) (ξ b) t) with hq
  have hqc : Continuous q := (cont_polR n ξ).comp (cont_ptR _ _)
  have hq0 : ∀ t ∈ Ioo (-1 : ℝ) 1, 0 < q 0 * q t := fun t ht => h.same_sign h0 ht
  have hsq : ∀ t ∈ Ioo (-1 : ℝ) 1, Y t ^ 2 = (q t : ℂ) := by
    intro t ht
    rw [hY.2 t (Ioo_subset_Icc_self ht), edgePt_real, hq]
    simp only [polR]
    push_cast
    rfl
  have key : ∀ κ : ℂ, κ ≠ 0 → (∀ t ∈ Ioo (-1 : ℝ) 1, κ ^ 2 * (|q t| : ℝ) = (q t : ℂ)) →
      (∀ t ∈ Ioo (-1 : ℝ) 1, Y t = κ * (√|q t| : ℝ)) ∨ ∀ t ∈ Ioo (-1 : ℝ) 1, Y t = -κ * (√|q t| : ℝ) := by
    intro κ hκ hk
    have hne : ∀ t ∈ Ioo (-1 : ℝ) 1, q t ≠ 0 := fun t ht h0 => by have := hq0 t ht; rw [h0, mul_zero] at this; exact lt_irrefl _ this
    have := isPreconnected_Ioo.eq_or_eq_neg_of_sq_eq (S := Ioo (-1 : ℝ) 1) (f := Y) (g := fun t => κ * (√|q t| : ℝ)) (hY.1.mono Ioo_subset_Icc_self)
      (by
        refine (continuous_const.mul (Complex.continuous_ofReal.comp ?_)).continuousOn
        exact hqc.abs.sqrt)
      (by
        intro t ht
        simp only [Pi.pow_apply]
        rw [hsq t ht, mul_pow, ← Complex.ofReal_pow, Real.sq_sqrt (abs_nonneg _), hk t ht])
      (by
        intro t ht
        exact mul_ne_zero hκ (Complex.ofReal_ne_zero.2 (Real.sqrt_pos.2 (abs_pos.2 (hne t ht))).ne'))
    rcases this with h1 | h1
    · exact Or.inl h1
    · refine Or.inr fun t ht => ?_
      have := h1 ht
      simp only [Pi.neg_apply] at this
      rw [this, neg_mul]
  rcases lt_trichotomy (q 0) 0 with hs | hs | hs
  · have hneg : ∀ t ∈ Ioo (-1 : ℝ) 1, q t < 0 := fun t ht => by have := hq0 t ht; nlinarith
    rcases key Complex.I Complex.I_ne_zero (fun t ht => by rw [abs_of_neg (hneg t ht), Complex.I_sq]; push_cast; ring) with h1 | h1
    · exact ⟨Complex.I, Or.inr ⟨hs, Or.inl rfl⟩, h1⟩
    · exact ⟨-Complex.I, Or.inr ⟨hs, Or.inr rfl⟩, h1⟩
  · have := hq0 0 h0
    rw [hs] at this
    simp at this
  · have hpos : ∀ t ∈ Ioo (-1 : ℝ) 1, 0 < q t := fun t ht => by have := hq0 t ht; nlinarith
    rcases key 1 one_ne_zero (fun t ht => by rw [abs_of_pos (hpos t ht)]; ring) with h1 | h1
    · exact ⟨1, Or.inl ⟨hs, Or.inl rfl⟩, h1⟩
    · exact ⟨-1, Or.inl ⟨hs, Or.inr rfl⟩, h1⟩

theorem FreeR.pol_ne {n : Nat} {ξ : Nat → ℝ} {a b : Nat} (h : FreeR n ξ a b) {t : ℝ} (ht : t ∈ Ioo (-1 : ℝ) 1) : polR n ξ (ptR (ξ a) (ξ b) t) ≠ 0 := by
  intro h0
  have := h.same_sign ht ht
  rw [h0, mul_zero] at this
  exact lt_irrefl _ this

/-- the rays at the ends -/
theorem FreeR.ray {n : Nat} {ξ : Nat → ℝ} {a b : Nat} (h : FreeR n ξ a b) {Y : ℝ → ℂ} {s : ℂ} (hs : ‖s‖ = 1) (hY : ∀ t ∈ Ioo (-1 : ℝ) 1, Y t = s * (√|polR n ξ (ptR (ξ a) (ξ b) t)| : ℝ))
    {t0 : ℝ} (ht0 : t0 ∈ Icc (-1 : ℝ) 1) {c : ℂ} (hc : LeavesAlong Y t0 c) : c = (‖c‖ : ℝ) * s := by
  have hne : (nhdsWithin t0 (Ioo (-1 : ℝ) 1)).NeBot := by
    rw [← mem_closure_iff_nhdsWithin_neBot, closure_Ioo (by norm_num)]
    exact ht0
  have h1 : Filter.Tendsto (fun t => Y t / ‖Y t‖) (nhdsWithin t0 (Ioo (-1) 1)) (nhds s) := by
    refine tendsto_const_nhds.congr' ?_
    filter_upwards [self_mem_nhdsWithin] with t ht
    have hp : 0 < √|polR n ξ (ptR (ξ a) (ξ b) t)| := Real.sqrt_pos.2 (abs_pos.2 (h.pol_ne ht))
    rw [hY t ht, norm_mul, hs, one_mul, Complex.norm_real, Real.norm_of_nonneg hp.le, mul_div_cancel_right₀ _ (Complex.ofReal_ne_zero.2 hp.ne')]
  have h2 := tendsto_nhds_unique hc.2 h1
  have h3 : (‖c‖ : ℂ) ≠ 0 := Complex.ofReal_ne_zero.2 (norm_ne_zero_iff.2 hc.1)
  rw [← h2, mul_div_cancel₀ _ h3]

theorem FreeR.symm {n : Nat} {ξ : Nat → ℝ} {a b : Nat} (h : FreeR n ξ a b) : FreeR n ξ b a := by
  refine ⟨h.hb, h.ha, h.ne.symm, fun k hk hb ha t h1 h2 => ?_⟩
  have := h.free k hk ha hb (-t) (by linarith) (by linarith)
  intro e
  apply this
  rw [e]
  unfold ptR
  ring

theorem FreeR.away {n : Nat} {ξ : Nat → ℝ} {v p : Nat} (h : FreeR n ξ v p) (hP : ξ v < ξ p) {k : Nat} (hk : k < n) (hkv : k ≠ v) : ξ k < ξ v ∨ ξ p ≤ ξ k := by
  by_cases hkp : k = p
  · exact Or.inr (by rw [hkp])
  have h2 : 0 < ξ p - ξ v := by linarith
  have e := sub_coord h.ne (-1) (ξ k)
  have e' : ptR (ξ v) (ξ p) (-1) = ξ v := by unfold ptR; ring
  rw [e'] at e
  rcases h.coord hk hkv hkp with h1 | h1
  · left; nlinarith
  · right; nlinarith

theorem FreeR.away' {n : Nat} {ξ : Nat → ℝ} {v p : Nat} (h : FreeR n ξ v p) (hP : ξ p < ξ v) {k : Nat} (hk : k < n) (hkv : k ≠ v) : ξ v < ξ k ∨ ξ k ≤ ξ p := by
  by_cases hkp : k = p
  · exact Or.inr (by rw [hkp])
  have h2 : ξ p - ξ v < 0 := by linarith
  have e := sub_coord h.ne (-1) (ξ k)
  have e' : ptR (ξ v) (ξ p) (-1) = ξ v := by unfold ptR; ring
  rw [e'] at e
  rcases h.coord hk hkv hkp with h1 | h1
  · left; nlinarith
  · right; nlinarith

/-- two edges at the same vertex are on both sides of it -/
theorem FreeR.opposite {n : Nat} {ξ : Nat → ℝ} {v p q : Nat} (h : FreeR n ξ v p) (h' : FreeR n ξ v q) (hpq : ξ p ≠ ξ q) : (ξ p - ξ v) * (ξ q - ξ v) < 0 := by
  have hpv : p ≠ v := fun e => h.ne (by rw [e])
  have hqv : q ≠ v := fun e => h'.ne (by rw [e])
  rcases lt_or_gt_of_ne h.ne with h1 | h1 <;> rcases lt_or_gt_of_ne h'.ne with h2 | h2
  · exfalso
    have a1 := h.away h1 h'.hb hqv
    have a2 := h'.away h2 h.hb hpv
    exact hpq (le_antisymm (a1.resolve_left (by linarith)) (a2.resolve_left (by linarith)))
  · nlinarith
  · nlinarith
  · exfalso
    have a1 := h.away' h1 h'.hb hqv
    have a2 := h'.away' h2 h.hb hpv
    exact hpq (le_antisymm (a2.resolve_left (by linarith)) (a1.resolve_left (by linarith)))

/-- the polynomial has opposite signs on them -/
theorem FreeR.signs {n : Nat} {ξ : Nat → ℝ} (hξ : InjOn ξ (Iio n)) {v p q : Nat} (h : FreeR n ξ v p) (h' : FreeR n ξ v q) (hpq : ξ p ≠ ξ q) :
    polR n ξ (ptR (ξ v) (ξ p) 0) * polR n ξ (ptR (ξ v) (ξ q) 0) < 0 := by
  unfold polR
  rw [← Finset.prod_mul_distrib, ← Finset.mul_prod_erase _ _ (Finset.mem_range.2 h.ha)]
  have ho := h.opposite h' hpq
  refine mul_neg_of_neg_of_pos ?_ (Finset.prod_pos fun k hk => ?_)
  · unfold ptR
    nlinarith
  · obtain ⟨hkv, hk⟩ := Finset.mem_erase.1 hk
    have hk := Finset.mem_range.1 hk
    have hne : ξ k ≠ ξ v := fun e => hkv (hξ hk h.ha e)
    unfold ptR
    rcases lt_or_gt_of_ne h.ne with h1 | h1
    · have h2 : ξ q < ξ v := by nlinarith
      rcases h.away h1 hk hkv with a | a <;> rcases h'.away' h2 hk hkv with b | b
      · exact absurd a (by linarith)
      · exact mul_pos (by linarith) (by linarith)
      · exact mul_pos_of_neg_of_neg (by linarith) (by linarith)
      · linarith
    · have h2 : ξ v < ξ q := by nlinarith
      rcases h.away' h1 hk hkv with a | a <;> rcases h'.away h2 hk hkv with b | b
      · exact absurd a (by linarith)
      · exact mul_pos_of_neg_of_neg (by linarith) (by linarith)
      · exact mul_pos (by linarith) (by linarith)
      · linarith

/-- the integrand of an edge is integrable -/
theorem FreeR.integrable {n : Nat} {ξ : Nat → ℝ} {a b : Nat} (h : FreeR n ξ a b) (i : Nat) :
    IntervalIntegrable (fun t => ptR (ξ a) (ξ b) t ^ i / √|polR n ξ (ptR (ξ a) (ξ b) t)|) volume (-1) 1 := by
  have hab : a ≠ b := fun e => h.ne (by rw [e])
  have hd : ξ b - ξ a ≠ 0 := sub_ne_zero.2 h.ne.symm
  set rest : ℝ → ℝ := fun t => ∏ k ∈ ((Finset.range n).erase a).erase b, (ptR (ξ a) (ξ b) t - ξ k) with hrest
  have hpol : ∀ t, polR n ξ (ptR (ξ a) (ξ b) t) = -((ξ b - ξ a) / 2) ^ 2 * (1 - t ^ 2) * rest t := by
    intro t
    unfold polR
    rw [← Finset.mul_prod_erase _ _ (Finset.mem_range.2 h.ha), ← Finset.mul_prod_erase _ _ (Finset.mem_erase.2 ⟨hab.symm, Finset.mem_range.2 h.hb⟩), hrest]
    unfold ptR
    ring
  have hrne : ∀ t ∈ Icc (-1 : ℝ) 1, rest t ≠ 0 := by
    intro t ht
    refine Finset.prod_ne_zero_iff.2 fun k hk => ?_
    obtain ⟨hkb, hk⟩ := Finset.mem_erase.1 hk
    obtain ⟨hka, hk⟩ := Finset.mem_erase.1 hk
    exact sub_ne_zero.2 (h.free k (Finset.mem_range.1 hk) hka hkb t ht.1 ht.2).symm
  have hrc : Continuous rest := continuous_finsetProd _ fun k _ => (cont_ptR _ _).sub continuous_const
  have h1 := one_sub_sq_rpow_integrable (a := 1 / 2) (by norm_num)
  have hc : ContinuousOn (fun t => ptR (ξ a) (ξ b) t ^ i * (√|((ξ b - ξ a) / 2) ^ 2 * rest t|)⁻¹) (uIcc (-1 : ℝ) 1) := by
    rw [uIcc_of_le (by norm_num)]
    refine ((cont_ptR _ _).pow i).continuousOn.mul (ContinuousOn.inv₀ ?_ fun t ht => ?_)
    · exact ((continuous_const.mul hrc).abs.sqrt).continuousOn
    · exact (Real.sqrt_pos.2 (abs_pos.2 (mul_ne_zero (by positivity) (hrne t ht)))).ne'
  refine (h1.continuousOn_mul hc).congr ?_
  rw [uIoc_of_le (by norm_num)]
  intro t ht
  have h0 : (0 : ℝ) ≤ 1 - t ^ 2 := by nlinarith [ht.1, ht.2]
  simp only
  have e : |polR n ξ (ptR (ξ a) (ξ b) t)| = (1 - t ^ 2) * |((ξ b - ξ a) / 2) ^ 2 * rest t| := by
    rw [hpol, show -((ξ b - ξ a) / 2) ^ 2 * (1 - t ^ 2) * rest t = -((1 - t ^ 2) * (((ξ b - ξ a) / 2) ^ 2 * rest t)) by ring, abs_neg, abs_mul, abs_of_nonneg h0]
  rw [e, Real.sqrt_mul h0, Real.rpow_neg h0, ← Real.sqrt_eq_rpow]
  ring

/-- integral of `x^i / √|f|` along the edge -/
noncomputable def momR (n : Nat) (ξ : Nat → ℝ) (a b : Nat) (i : Nat) : ℝ := |ξ b - ξ a| * ∫ t in (-1 : ℝ)..1, ptR (ξ a) (ξ b) t ^ i / √|polR n ξ (ptR (ξ a) (ξ b) t)|

theorem FreeR.mom_pos {n : Nat} {ξ : Nat → ℝ} {a b : Nat} (h : FreeR n ξ a b) : 0 < momR n ξ a b 0 := by
  refine mul_pos (abs_pos.2 (sub_ne_zero.2 h.ne.symm)) ?_
  refine intervalIntegral.intervalIntegral_pos_of_pos_on (h.integrable 0) (fun t ht => ?_) (by norm_num)
  rw [pow_zero]
  exact div_pos one_pos (Real.sqrt_pos.2 (abs_pos.2 (h.pol_ne ht)))

/-- What is known of an edge: `σ` is the direction of the integrals. -/
structure EdgeDir (n : Nat) (ξ : Nat → ℝ) (a b : Nat) (Y : ℝ → ℂ) (ca cb σ : ℂ) : Prop where
  unit : (0 < polR n ξ (ptR (ξ a) (ξ b) 0) ∧ (σ = 1 ∨ σ = -1)) ∨ (polR n ξ (ptR (ξ a) (ξ b) 0) < 0 ∧ (σ = Complex.I ∨ σ = -Complex.I))
  ra : ∃ r : ℝ, 0 < r ∧ ca = r * (ξ b - ξ a) * (starRingEnd ℂ) σ
  rb : ∃ r : ℝ, 0 < r ∧ cb = r * (ξ b - ξ a) * (starRingEnd ℂ) σ
  cyc : ∀ i, cycleIntM 2 (ξ a) (ξ b) i 1 Y 0 = σ * momR n ξ a b i

theorem FreeR.dir {n : Nat} {ξ : Nat → ℝ} {a b : Nat} (h : FreeR n ξ a b) {Y : ℝ → ℂ} (hY : IsBranchM 2 n (fun k => (ξ k : ℂ)) (ξ a) (ξ b) Y) {ca cb : ℂ}
    (hca : LeavesAlong Y (-1) ca) (hcb : LeavesAlong Y 1 cb) : ∃ σ, EdgeDir n ξ a b Y ca cb σ := by
  obtain ⟨s, hs, hb⟩ := h.branch hY
  have hs1 : ‖s‖ = 1 := by rcases hs with ⟨-, rfl | rfl⟩ | ⟨-, rfl | rfl⟩ <;> simp
  have hd : ξ b - ξ a ≠ 0 := sub_ne_zero.2 h.ne.symm
  have r1 := h.ray hs1 hb ⟨le_rfl, by norm_num⟩ hca
  have r2 := h.ray hs1 hb ⟨by norm_num, le_rfl⟩ hcb
  have hz2 : zeta 2 = -1 := zeta_two
  have hinv : s⁻¹ = (starRingEnd ℂ) s := Complex.inv_eq_conj hs1
  have hcyc : ∀ i, cycleIntM 2 (ξ a) (ξ b) i 1 Y 0 = (starRingEnd ℂ) s * (ξ b - ξ a) * ((∫ t in (-1 : ℝ)..1, ptR (ξ a) (ξ b) t ^ i / √|polR n ξ (ptR (ξ a) (ξ b) t)| : ℝ) : ℂ) := by
    intro i
    rw [cycleIntM_eq, hz2]
    have e : segIntM (ξ a) (ξ b) i 1 Y = s⁻¹ * ((ξ b - ξ a) / 2) * ((∫ t in (-1 : ℝ)..1, ptR (ξ a) (ξ b) t ^ i / √|polR n ξ (ptR (ξ a) (ξ b) t)| : ℝ) : ℂ) := by
      rw [segIntM_of_branch (z := s) (Z := fun t => ((√|polR n ξ (ptR (ξ a) (ξ b) t)| : ℝ) : ℂ)) hb, pow_one, mul_assoc, ← intervalIntegral.integral_ofReal, ← intervalIntegral.integral_const_mul]
      unfold segIntM
      congr 1
      apply intervalIntegral.integral_congr
      intro t _
      simp only [edgePt_real]
      push_cast
      ring
    rw [e, hinv]
    norm_num
    ring
  rcases lt_or_gt_of_ne hd with hneg | hpos
  · refine ⟨-(starRingEnd ℂ) s, ?_, ⟨‖ca‖ / (ξ a - ξ b), div_pos (norm_pos_iff.2 hca.1) (by linarith), ?_⟩, ⟨‖cb‖ / (ξ a - ξ b), div_pos (norm_pos_iff.2 hcb.1) (by linarith), ?_⟩, fun i => ?_⟩
    · rcases hs with ⟨q, rfl | rfl⟩ | ⟨q, rfl | rfl⟩ <;> simp [q]
    · have : ((ξ a : ℂ) - ξ b) ≠ 0 := by rw [← Complex.ofReal_sub]; exact Complex.ofReal_ne_zero.2 (by linarith)
      rw [map_neg, Complex.conj_conj]
      push_cast
      field_simp
      linear_combination (ξ a - ξ b : ℂ) * r1
    · have : ((ξ a : ℂ) - ξ b) ≠ 0 := by rw [← Complex.ofReal_sub]; exact Complex.ofReal_ne_zero.2 (by linarith)
      rw [map_neg, Complex.conj_conj]
      push_cast
      field_simp
      linear_combination (ξ a - ξ b : ℂ) * r2
    · rw [hcyc, momR, abs_of_neg hneg]
      push_cast
      ring
  · refine ⟨(starRingEnd ℂ) s, ?_, ⟨‖ca‖ / (ξ b - ξ a), div_pos (norm_pos_iff.2 hca.1) (by linarith), ?_⟩, ⟨‖cb‖ / (ξ b - ξ a), div_pos (norm_pos_iff.2 hcb.1) (by linarith), ?_⟩, fun i => ?_⟩
    · rcases hs with ⟨q, rfl | rfl⟩ | ⟨q, rfl | rfl⟩ <;> simp [q]
    · have : ((ξ b : ℂ) - ξ a) ≠ 0 := by rw [← Complex.ofReal_sub]; exact Complex.ofReal_ne_zero.2 hd
      rw [Complex.conj_conj]
      push_cast
      rw [div_mul_cancel₀ _ this]
      exact r1
    · have : ((ξ b : ℂ) - ξ a) ≠ 0 := by rw [← Complex.ofReal_sub]; exact Complex.ofReal_ne_zero.2 hd
      rw [Complex.conj_conj]
      push_cast
      rw [div_mul_cancel₀ _ this]
      exact r2
    · rw [hcyc, momR, abs_of_pos hpos]
      push_cast
      ring

/-- the directions of two edges at the same vertex -/
theorem dirs_right {P P' : ℝ} {σ σ' : ℂ} (h : P * P' < 0) (h1 : (0 < P ∧ (σ = 1 ∨ σ = -1)) ∨ (P < 0 ∧ (σ = Complex.I ∨ σ = -Complex.I)))
    (h2 : (0 < P' ∧ (σ' = 1 ∨ σ' = -1)) ∨ (P' < 0 ∧ (σ' = Complex.I ∨ σ' = -Complex.I))) : ∃ κ : ℤ, (κ = 1 ∨ κ = -1) ∧ (starRingEnd ℂ) σ * σ' = κ * Complex.I := by
  rcases h1 with ⟨p1, h1⟩ | ⟨p1, h1⟩ <;> rcases h2 with ⟨p2, h2⟩ | ⟨p2, h2⟩
  · nlinarith
  · rcases h1 with rfl | rfl <;> rcases h2 with rfl | rfl
    · exact ⟨1, Or.inl rfl, by simp⟩
    · exact ⟨-1, Or.inr rfl, by simp⟩
    · exact ⟨-1, Or.inr rfl, by simp⟩
    · exact ⟨1, Or.inl rfl, by simp⟩
  · rcases h1 with rfl | rfl <;> rcases h2 with rfl | rfl
    · exact ⟨-1, Or.inr rfl, by simp⟩
    · exact ⟨1, Or.inl rfl, by simp⟩
    · exact ⟨1, Or.inl rfl, by simp⟩
    · exact ⟨-1, Or.inr rfl, by simp⟩
  · nlinarith

theorem EdgeDir.norm {n : Nat} {ξ : Nat → ℝ} {a b : Nat} {Y : ℝ → ℂ} {ca cb σ : ℂ} (h : EdgeDir n ξ a b Y ca cb σ) : (starRingEnd ℂ) σ * σ = 1 := by
  rcases h.unit with ⟨-, rfl | rfl⟩ | ⟨-, rfl | rfl⟩ <;> simp

/-- crossing number of two straight paths whose directions are conjugate to `σ`, `σ'` -/
theorem crossing_dirs {σ σ' : ℂ} (hσ : (starRingEnd ℂ) σ * σ = 1) {κ : ℤ} (hκ : κ = 1 ∨ κ = -1) (h : (starRingEnd ℂ) σ * σ' = κ * Complex.I) {r r' : ℝ} (hrr : r * r' < 0) :
    crossing ⟨-(r * (starRingEnd ℂ) σ), r * (starRingEnd ℂ) σ⟩ ⟨-(r' * (starRingEnd ℂ) σ'), r' * (starRingEnd ℂ) σ'⟩ = κ := by
  have hr : r ≠ 0 := by rintro rfl; simp at hrr
  have hσ0 : (starRingEnd ℂ) σ ≠ 0 := by intro h0; rw [h0, zero_mul] at hσ; exact zero_ne_one hσ
  have hc : (r : ℂ) * (starRingEnd ℂ) σ ≠ 0 := mul_ne_zero (Complex.ofReal_ne_zero.2 hr) hσ0
  have hpos : 0 < -(r' / r) := by
    rw [neg_pos]
    rcases lt_or_gt_of_ne hr with h1 | h1
    · exact div_neg_of_pos_of_neg (by nlinarith) h1
    · exact div_neg_of_neg_of_pos (by nlinarith) h1
  have hconj : (starRingEnd ℂ) σ' = -(κ * Complex.I) * (starRingEnd ℂ) σ := by
    have h1 := congrArg (starRingEnd ℂ) h
    simp only [map_mul, Complex.conj_conj, Complex.conj_I, map_intCast] at h1
    linear_combination (starRingEnd ℂ) σ * h1 - (starRingEnd ℂ) σ' * hσ
  have hr0 : (r : ℂ) ≠ 0 := Complex.ofReal_ne_zero.2 hr
  rcases hκ with rfl | rfl
  · rw [crossing_right hc hpos]
    · norm_num
    · rw [hconj]
      push_cast
      field_simp
  · rw [crossing_left hc hpos]
    · norm_num
    · rw [hconj]
      push_cast
      field_simp

/-- intersection number of two edges with the same start -/
theorem number_start {n : Nat} {ξ : Nat → ℝ} (hξ : InjOn ξ (Iio n)) {v p q : Nat} (h : FreeR n ξ v p) (h' : FreeR n ξ v q) (hpq : p ≠ q) {Y Y' : ℝ → ℂ} {ca cb ca' cb' σ σ' : ℂ}
    (d : EdgeDir n ξ v p Y ca cb σ) (d' : EdgeDir n ξ v q Y' ca' cb' σ') :
    ∃ κ : ℤ, (κ = 1 ∨ κ = -1) ∧ pathNumber (passages 2 v p ca cb 0) (passages 2 v q ca' cb' 0) = κ ∧ (starRingEnd ℂ) σ * σ' = κ * Complex.I := by
  have hne : ξ p ≠ ξ q := fun e => hpq (hξ h.hb h'.hb e)
  have hpv : p ≠ v := fun e => h.ne (by rw [e])
  have hqv : q ≠ v := fun e => h'.ne (by rw [e])
  obtain ⟨κ, hκ, hk⟩ := dirs_right (h.signs hξ h' hne) d.unit d'.unit
  refine ⟨κ, hκ, ?_, hk⟩
  obtain ⟨r, hr, e⟩ := d.ra
  obtain ⟨r', hr', e'⟩ := d'.ra
  rw [pathNumber_eq, if_pos rfl, if_neg hqv.symm, if_neg hpv, if_neg hpq]
  have := crossing_dirs d.norm hκ hk (r := r * (ξ p - ξ v)) (r' := r' * (ξ q - ξ v)) (by
    have h1 := h.opposite h' hne
    have h2 := mul_pos hr hr'
    nlinarith [mul_pos_of_neg_of_neg (neg_neg_of_pos h2) h1])
  push_cast at this
  rw [← e, ← e'] at this
  simpa [zeta_two] using this

/-- intersection number of two edges, the second one leaving the end of the first one -/
theorem number_end {n : Nat} {ξ : Nat → ℝ} (hξ : InjOn ξ (Iio n)) {v p q : Nat} (h : FreeR n ξ p v) (h' : FreeR n ξ v q) (hpq : p ≠ q) {Y Y' : ℝ → ℂ} {ca cb ca' cb' σ σ' : ℂ}
    (d : EdgeDir n ξ p v Y ca cb σ) (d' : EdgeDir n ξ v q Y' ca' cb' σ') :
    ∃ κ : ℤ, (κ = 1 ∨ κ = -1) ∧ pathNumber (passages 2 p v ca cb 0) (passages 2 v q ca' cb' 0) = κ ∧ (starRingEnd ℂ) σ * σ' = κ * Complex.I := by
  have hne : ξ p ≠ ξ q := fun e => hpq (hξ h.ha h'.hb e)
  have hpv : p ≠ v := fun e => h.ne (by rw [e])
  have hqv : q ≠ v := fun e => h'.ne (by rw [e])
  have hs := h.symm.signs hξ h' hne
  have e0 : ptR (ξ v) (ξ p) 0 = ptR (ξ p) (ξ v) 0 := by unfold ptR; ring
  rw [e0] at hs
  obtain ⟨κ, hκ, hk⟩ := dirs_right hs d.unit d'.unit
  refine ⟨κ, hκ, ?_, hk⟩
  obtain ⟨r, hr, e⟩ := d.rb
  obtain ⟨r', hr', e'⟩ := d'.ra
  rw [pathNumber_eq, if_neg hpv, if_neg hpq, if_pos rfl, if_neg hqv.symm]
  have := crossing_dirs d.norm hκ hk (r := -(r * (ξ v - ξ p))) (r' := r' * (ξ q - ξ v)) (by
    have h1 := h.symm.opposite h' hne
    have h2 := mul_pos hr hr'
    nlinarith [mul_pos_of_neg_of_neg (neg_neg_of_pos h2) h1])
  push_cast at this
  rw [neg_mul, neg_neg, ← e, ← e'] at this
  simpa [zeta_two] using this

end Hcp
