import Verif.Spec.Tests
import Verif.Spec.Edge
import Verif.Proofs.Loops
import Mathlib.Logic.Equiv.Basic
import Mathlib.Data.Set.Function
import Mathlib.Data.Finset.Card
import Mathlib.Order.Interval.Finset.Nat
import Mathlib.Algebra.BigOperators.Fin

/-! # `ydata.c`: what the routines do, for any arithmetic and any tests -/

namespace Hcp

variable {A : Type}

theorem swapV_ok {sz i j : Nat} (u : Nat → A) (hi : i < sz) (hj : j < sz) :
    swapV sz u i j = .ok (u ∘ Equiv.swap i j) := by
  simp only [swapV, rdV_ok hi, rdV_ok hj, wrV_ok hi, wrV_ok hj, Res.ok_bind]
  congr 1
  funext k
  simp only [Function.comp_apply, Equiv.swap_apply_def]
  by_cases h1 : k = j
  · by_cases h2 : k = i
    · subst h1; subst h2; simp
    · rw [if_pos h1, if_neg h2, if_pos h1]
  · rw [if_neg h1]
    by_cases h2 : k = i
    · rw [if_pos h2, if_pos h2]
    · rw [if_neg h2, if_neg h2, if_neg h1]

theorem partLoop_spec (sz : Nat) (p : A → Bool) :
    ∀ (cnt k : Nat) (u : Nat → A), k + cnt ≤ sz →
      ∃ l, ∃ σ : Equiv.Perm Nat, partLoop sz p cnt k u = .ok (l, u ∘ σ) ∧
        (∀ i, i < k ∨ k + cnt ≤ i → σ i = i) ∧ k ≤ l ∧ l ≤ k + cnt ∧
        (∀ i, k ≤ i → i < l → p (u (σ i)) = false) ∧
        (∀ i, l ≤ i → i < k + cnt → p (u (σ i)) = true)
  | 0, k, u, _ => ⟨k, 1, rfl, fun _ _ => rfl, le_rfl, by omega, by intros; omega, by intros; omega⟩
  | cnt + 1, k, u, h => by
    have hk : k < sz := by omega
    by_cases hp : p (u k) = true
    · obtain ⟨l, σ, e, h1, h2, h3, h4, h5⟩ := partLoop_spec sz p cnt k (u ∘ Equiv.swap k (k + cnt)) (by omega)
      have hfix : σ (k + cnt) = k + cnt := h1 _ (Or.inr le_rfl)
      refine ⟨l, Equiv.swap k (k + cnt) * σ, ?_, ?_, h2, by omega, ?_, ?_⟩
      · simp only [partLoop, rdV_ok hk, Res.ok_bind, if_pos hp, swapV_ok u hk (show k + cnt < sz by omega), e]
        rfl
      · intro i hi
        rw [Equiv.Perm.mul_apply, h1 i (by omega), Equiv.swap_apply_of_ne_of_ne (by omega) (by omega)]
      · intro i hi1 hi2
        exact h4 i hi1 hi2
      · intro i hi1 hi2
        by_cases hi : i = k + cnt
        · subst hi
          rw [Equiv.Perm.mul_apply, hfix, Equiv.swap_apply_right]
          exact hp
        · exact h5 i hi1 (by omega)
    · obtain ⟨l, σ, e, h1, h2, h3, h4, h5⟩ := partLoop_spec sz p cnt (k + 1) u (by omega)
      refine ⟨l, σ, ?_, ?_, by omega, by omega, ?_, ?_⟩
      · simp only [partLoop, rdV_ok hk, Res.ok_bind, if_neg hp, e]
      · intro i hi; exact h1 i (by omega)
      · intro i hi1 hi2
        by_cases hi : i = k
        · subst hi; rw [h1 i (by omega)]; simpa using hp
        · exact h4 i (by omega) hi2
      · intro i hi1 hi2; exact h5 i hi1 (by omega)

/-- indices of the branch points other than the ends of the edge, among the first `k`. -/
def others (a b k : Nat) : List Nat := (List.range k).filter fun i => !(i == a || i == b)

theorem others_succ (a b k : Nat) :
    others a b (k + 1) = if k = a ∨ k = b then others a b k else others a b k ++ [k] := by
  unfold others
  rw [List.range_succ, List.filter_append]
  by_cases h : k = a ∨ k = b
  · rw [if_pos h]; rcases h with h | h <;> simp [h]
  · rw [if_neg h]; simp_all

theorem others_mono {a b k n : Nat} (h : k ≤ n) : (others a b k).length ≤ (others a b n).length := by
  induction n, h using Nat.le_induction with
  | base => exact le_rfl
  | succ n _ ih =>
    rw [others_succ]
    split
    · exact ih
    · rw [List.length_append, List.length_singleton]; omega

theorem mem_others {a b k i : Nat} : i ∈ others a b k ↔ i < k ∧ i ≠ a ∧ i ≠ b := by
  simp [others]

theorem others_nodup (a b k : Nat) : (others a b k).Nodup := List.nodup_range.filter _

theorem others_length {a b n : Nat} (ha : a < n) (hb : b < n) (hab : a ≠ b) :
    (others a b n).length = n - 2 := by
  have h1 : (others a b n).toFinset = (Finset.range n \ {a, b}) := by
    ext i; simp only [List.mem_toFinset, mem_others, Finset.mem_sdiff, Finset.mem_range,
      Finset.mem_insert, Finset.mem_singleton]; tauto
  have h2 := List.toFinset_card_of_nodup (others_nodup a b n)
  rw [← h2, h1, Finset.card_sdiff_of_subset (by
    intro i; simp only [Finset.mem_insert, Finset.mem_singleton, Finset.mem_range]; omega),
    Finset.card_range, Finset.card_pair hab]

/-- the transformed point stored by `ab_points` -/
def abPt (X : Arith A) (x : Nat → A) (a b k : Nat) : A :=
  X.div (X.sub (X.mul2exp (x k) 1) (X.add (x b) (x a))) (X.sub (x b) (x a))

theorem abLoop_spec (X : Arith A) (x : Nat → A) {a b n : Nat} (ha : a < n) (hb : b < n) (hab : a ≠ b)
    (u : Nat → A) (h1 : u (n - 1) = X.add (x b) (x a)) (h2 : u (n - 2) = X.sub (x b) (x a)) :
    ∃ v, loopUp (abStep X n x a b) n 0 (0, u) = .ok (n - 2, v) ∧ v (n - 1) = X.add (x b) (x a) ∧
      v (n - 2) = X.sub (x b) (x a) ∧ (∀ i, n ≤ i → v i = u i) ∧
      ∀ i k, (others a b n)[i]? = some k → v i = abPt X x a b k := by
  have hlen := others_length ha hb hab
  have key := loopUp_inv (body := abStep X n x a b)
    (fun k s => s.1 = (others a b k).length ∧ s.2 (n - 1) = X.add (x b) (x a) ∧
      s.2 (n - 2) = X.sub (x b) (x a) ∧ (∀ i, n ≤ i → s.2 i = u i) ∧
      ∀ i j, (others a b k)[i]? = some j → s.2 i = abPt X x a b j)
    n 0 (0, u) ⟨rfl, h1, h2, fun _ _ => rfl, by simp [others]⟩ (by
      rintro k ⟨l, v⟩ _ hk ⟨g1, g2, g3, g4, g5⟩
      simp only at g1 g2 g3 g4 g5
      unfold abStep
      by_cases hskip : k = a ∨ k = b
      · refine ⟨(l, v), if_pos hskip, ?_⟩
        rw [others_succ, if_pos hskip]
        exact ⟨g1, g2, g3, g4, g5⟩
      · have hl : l < n - 2 := by
          have := others_mono (a := a) (b := b) (show k + 1 ≤ n by omega)
          rw [others_succ, if_neg hskip, List.length_append, List.length_singleton, hlen] at this
          omega
        refine ⟨(l + 1, fun j => if j = l then abPt X x a b k else v j), ?_, ?_⟩
        · rw [if_neg hskip]
          simp only [rdV_ok (show k < n by omega), rdV_ok (show n - 1 < n + 3 by omega),
            rdV_ok (show n - 2 < n + 3 by omega), wrV_ok (show l < n + 3 by omega), Res.ok_bind, g2, g3]
          rfl
        · rw [others_succ, if_neg hskip]
          refine ⟨by simp [g1], ?_, ?_, ?_, ?_⟩
          · simp only; rw [if_neg (by omega), g2]
          · simp only; rw [if_neg (by omega), g3]
          · intro i hi; simp only; rw [if_neg (by omega)]; exact g4 i hi
          · intro i j hij
            simp only
            by_cases hi : i = l
            · subst hi
              rw [List.getElem?_append_right (by omega), g1] at hij
              simp only [Nat.sub_self, List.getElem?_cons_zero, Option.some.injEq] at hij
              rw [if_pos rfl, hij]
            · rw [if_neg hi]
              apply g5
              by_cases hi2 : i < (others a b k).length
              · rwa [List.getElem?_append_left hi2] at hij
              · have := (List.getElem?_eq_some_iff.1 hij).1
                rw [List.length_append, List.length_singleton] at this
                omega)
  obtain ⟨⟨l, v⟩, e, g1, g2, g3, g4, g5⟩ := key
  simp only [Nat.zero_add] at g1 g2 g3 g4 g5
  rw [hlen] at g1
  subst g1
  exact ⟨v, e, g2, g3, g4, g5⟩

/-- **What `ab_points` computes**, for any arithmetic and any sign test. -/
theorem abPoints_spec (X : Arith A) (T : Tests A) (x : Nat → A) {a b n : Nat} (ha : a < n) (hb : b < n)
    (hab : a ≠ b) (u : Nat → A) :
    ∃ n1 v τ, abPoints X T x a b n u = .ok (n1, v) ∧ n1 ≤ n - 2 ∧
      v (n - 1) = X.div (X.add (x b) (x a)) (X.sub (x b) (x a)) ∧
      v (n - 2) = X.mul2exp (X.sub (x b) (x a)) (-1) ∧ (∀ i, n ≤ i → v i = u i) ∧
      Set.BijOn τ (Set.Iio (n - 2)) {k | k < n ∧ k ≠ a ∧ k ≠ b} ∧
      ∀ i < n - 2, v i = abPt X x a b (τ i) ∧
        (i < n1 → T.reNonpos (v i) = false) ∧ (n1 ≤ i → T.reNonpos (v i) = true) := by
  have hlen := others_length ha hb hab
  obtain ⟨w, e1, g1, g2, g3, g4⟩ := abLoop_spec X x ha hb hab
    (fun i => if i = n - 2 then X.sub (x b) (x a) else if i = n - 1 then X.add (x b) (x a) else u i)
    (by simp only; rw [if_neg (by omega), if_pos trivial]) (by simp)
  obtain ⟨l, σ, e2, k1, k2, k3, k4, k5⟩ := partLoop_spec (n + 3) T.reNonpos (n - 2) 0 w (by omega)
  have hσ : ∀ i, n - 2 ≤ i → σ i = i := fun i hi => k1 i (by omega)
  have hσ2 : ∀ i, i < n - 2 → σ i < n - 2 := by
    intro i hi
    by_contra h
    have := hσ (σ i) (by omega)
    have := σ.injective this
    omega
  refine ⟨l, fun i => if i = n - 2 then X.mul2exp (X.sub (x b) (x a)) (-1)
      else if i = n - 1 then X.div (X.add (x b) (x a)) (X.sub (x b) (x a)) else w (σ i),
    fun i => (others a b n)[σ i]?.getD 0, ?_, by omega, ?_, ?_, ?_, ?_, ?_⟩
  · unfold abPoints
    simp only [rdV_ok ha, rdV_ok hb, wrV_ok (show n - 2 < n + 3 by omega),
      wrV_ok (show n - 1 < n + 3 by omega), Res.ok_bind]
    have e1' : loopUp (abStep X n x a b) n 0 (0, fun j => if j = n - 2 then X.sub (x b) (x a)
        else if j = n - 1 then X.add (x b) (x a) else if j = n - 2 then x b else u j)
        = .ok (n - 2, w) := by
      rw [← e1]; congr 2; funext j; split_ifs <;> rfl
    rw [e1', Res.ok_bind]
    simp only [ne_eq, not_true_eq_false, if_false]
    rw [e2, Res.ok_bind]
    simp only [rdV_ok (show n - 1 < n + 3 by omega), rdV_ok (show n - 2 < n + 3 by omega), Res.ok_bind, Function.comp_apply,
      hσ (n - 1) (by omega), hσ (n - 2) (by omega), g1, g2]
  · simp only; rw [if_neg (by omega), if_pos trivial]
  · simp only; rw [if_pos trivial]
  · intro i hi
    simp only
    rw [if_neg (by omega), if_neg (by omega), hσ i (by omega), g3 i hi, if_neg (by omega), if_neg (by omega)]
  · refine ⟨?_, ?_, ?_⟩
    · intro i hi
      have h1 : σ i < (others a b n).length := by rw [hlen]; exact hσ2 i hi
      simp only [List.getElem?_eq_getElem h1, Option.getD_some]
      exact mem_others.1 (List.getElem_mem h1)
    · intro i hi j hj hij
      have h1 : σ i < (others a b n).length := by rw [hlen]; exact hσ2 i hi
      have h2 : σ j < (others a b n).length := by rw [hlen]; exact hσ2 j hj
      simp only [List.getElem?_eq_getElem h1, List.getElem?_eq_getElem h2, Option.getD_some] at hij
      exact σ.injective ((others_nodup a b n).getElem_inj_iff.1 hij)
    · intro k hk
      obtain ⟨i, hi, rfl⟩ := List.getElem_of_mem (mem_others.2 hk)
      have hi' : i < n - 2 := by rwa [hlen] at hi
      refine ⟨σ.symm i, ?_, ?_⟩
      · show σ.symm i < n - 2
        by_contra h
        have := hσ (σ.symm i) (by omega)
        rw [Equiv.apply_symm_apply] at this
        omega
      · simp only [Equiv.apply_symm_apply, List.getElem?_eq_getElem hi, Option.getD_some]
  · intro i hi
    have h1 : σ i < (others a b n).length := by rw [hlen]; exact hσ2 i hi
    simp only
    rw [if_neg (by omega), if_neg (by omega)]
    refine ⟨?_, fun h => k4 i (by omega) h, fun h => k5 i h (by omega)⟩
    simp only [List.getElem?_eq_getElem h1, Option.getD_some]
    exact g4 _ _ (List.getElem?_eq_getElem h1)

/-- value computed by `constant_cab` before the test, `k` telling whether the power was negated -/
def cabVal (X : Arith A) (k : Bool) (ba2 : A) (n1 n m : Nat) : A :=
  let r := X.root m (if k then X.neg (X.pow ba2 n) else X.pow ba2 n)
  if (k.toNat + n1) % 2 = 0 then X.mul r (X.unitRoot (2 * m)) else r

theorem constantCab_eq (X : Arith A) (T : Tests A) (ba2 : A) (n1 n m : Nat) :
    constantCab X T ba2 n1 n m =
      let c := cabVal X (T.reNeg (X.pow ba2 n)) ba2 n1 n m
      if T.hasZero c then .abort "Cab contains 0" else .ok c := by
  unfold constantCab cabRoot cabVal
  cases h : T.reNeg (X.pow ba2 n) <;> simp [h]

/-! ## exact values -/

theorem root_pow {m : Nat} (hm : 0 < m) (z : ℂ) : exact.root m z ^ m = z :=
  Complex.cpow_nat_inv_pow z (by omega)

theorem unitRoot_two_pow {m : Nat} (hm : 0 < m) : exact.unitRoot (2 * m) ^ m = -1 := by
  have h0 : (m : ℂ) ≠ 0 := by exact_mod_cast hm.ne'
  show Complex.exp _ ^ m = -1
  rw [← Complex.exp_nat_mul, ← Complex.exp_pi_mul_I]
  congr 1
  push_cast
  field_simp

theorem cabVal_pow {m : Nat} (hm : 0 < m) (k : Bool) (ba2 : ℂ) (n1 n : Nat) :
    cabVal exact k ba2 n1 n m ^ m = (-1) ^ (n1 + 1) * ba2 ^ n := by
  have hp : (-1 : ℂ) ^ n1 = if n1 % 2 = 0 then 1 else -1 := by
    split
    · exact Even.neg_one_pow (Nat.even_iff.2 (by assumption))
    · exact Odd.neg_one_pow (Nat.odd_iff.2 (by omega))
  unfold cabVal
  rw [pow_succ, hp]
  cases k
  · by_cases h : n1 % 2 = 0
    · simp only [Bool.toNat_false, Nat.zero_add, h, if_true]
      show (exact.root m _ * exact.unitRoot (2 * m)) ^ m = _
      rw [mul_pow, root_pow hm, unitRoot_two_pow hm]
      show ba2 ^ n * -1 = _
      simp
    · simp only [Bool.toNat_false, Nat.zero_add, h, if_false]
      rw [root_pow hm]
      show ba2 ^ n = _
      simp
  · by_cases h : n1 % 2 = 0
    · have h' : (1 + n1) % 2 ≠ 0 := by omega
      simp only [Bool.toNat_true, h, h', if_true, if_false]
      rw [root_pow hm]
      show -ba2 ^ n = _
      simp
    · have h' : (1 + n1) % 2 = 0 := by omega
      simp only [Bool.toNat_true, h, h', if_true, if_false]
      show (exact.root m _ * exact.unitRoot (2 * m)) ^ m = _
      rw [mul_pow, root_pow hm, unitRoot_two_pow hm]
      show -ba2 ^ n * -1 = _
      simp

/-- the factor number `k` of the polynomial at `t`, with the sign convention of the code -/
noncomputable def sgnFactor (u : Nat → ℂ) (d1 : Nat) (t : ℂ) (k : Nat) : ℂ :=
  if k < d1 then u k - t else t - u k

theorem factorAt_exact {sz : Nat} (u : Nat → ℂ) (d1 : Nat) (t : ℂ) {k : Nat} (hk : k < sz) :
    factorAt exact sz u d1 t k = .ok (sgnFactor u d1 t k) := by
  unfold factorAt sgnFactor
  rw [rdV_ok hk, Res.ok_bind]
  congr 1
  by_cases h : d1 ≤ k
  · rw [if_pos h, if_neg (by omega)]
    show -(u k - t) = t - u k
    ring
  · rw [if_neg h, if_pos (by omega)]; rfl

theorem mthRootPolDef_spec {sz d : Nat} (hd : d ≤ sz) (u : Nat → ℂ) (d1 : Nat) (t : ℂ) (m : Nat) :
    mthRootPolDef exact sz u d1 d t m =
      .ok (∏ k ∈ Finset.range d, exact.root m (sgnFactor u d1 t k)) := by
  unfold mthRootPolDef
  have key := loopUp_inv (body := fun k y => do
      let s ← factorAt exact sz u d1 t k
      .ok (exact.mul y (exact.root m s)))
    (fun k y => y = ∏ i ∈ Finset.range k, exact.root m (sgnFactor u d1 t i)) d 0 exact.one
    (by simp [exact]) (by
      rintro k y _ hk rfl
      refine ⟨_, by rw [factorAt_exact u d1 t (show k < sz by omega), Res.ok_bind], ?_⟩
      rw [Finset.prod_range_succ]; rfl)
  obtain ⟨y, e, hy⟩ := key
  rw [Nat.zero_add] at hy
  rw [e, hy]

theorem sqrtPolDef_spec {sz d : Nat} (hd : d ≤ sz) (u : Nat → ℂ) (d1 : Nat) (t : ℂ) :
    sqrtPolDef exact sz u d1 d t =
      .ok (∏ k ∈ Finset.range d, exact.root 2 (sgnFactor u d1 t k)) := by
  unfold sqrtPolDef
  have key := loopUp_inv (body := fun k y => do
      let s ← factorAt exact sz u d1 t k
      .ok (exact.mul y (exact.sqrt s)))
    (fun k y => y = ∏ i ∈ Finset.range k, exact.root 2 (sgnFactor u d1 t i)) d 0 exact.one
    (by simp [exact]) (by
      rintro k y _ hk rfl
      refine ⟨_, by rw [factorAt_exact u d1 t (show k < sz by omega), Res.ok_bind], ?_⟩
      rw [Finset.prod_range_succ]
      simp [exact])
  obtain ⟨y, e, hy⟩ := key
  rw [Nat.zero_add] at hy
  rw [e, hy]

theorem sgnFactor_prod (u : Nat → ℂ) {d1 d : Nat} (h : d1 ≤ d) (t : ℂ) :
    ∏ k ∈ Finset.range d, sgnFactor u d1 t k = (-1) ^ d1 * ∏ k ∈ Finset.range d, (t - u k) := by
  have h1 : ∀ k ∈ Finset.range d, sgnFactor u d1 t k = (if k < d1 then -1 else 1) * (t - u k) := by
    intro k _
    unfold sgnFactor
    split <;> ring
  rw [Finset.prod_congr rfl h1, Finset.prod_mul_distrib]
  congr 1
  have h2 : Finset.range d = Finset.range (d1 + (d - d1)) := by congr 1; omega
  rw [h2, Finset.prod_range_add]
  have h3 : ∏ x ∈ Finset.range d1, (if x < d1 then (-1 : ℂ) else 1) = (-1) ^ d1 := by
    rw [Finset.prod_congr rfl (g := fun _ => (-1 : ℂ)) (fun x hx => if_pos (Finset.mem_range.1 hx))]
    simp
  have h4 : ∏ x ∈ Finset.range (d - d1), (if d1 + x < d1 then (-1 : ℂ) else 1) = 1 :=
    Finset.prod_eq_one fun x _ => if_neg (by omega)
  rw [h3, h4, mul_one]

/-! ## related runs -/

variable {B : Type} {X : Arith A} {Y : Arith B} {R : A → B → Prop}

theorem factorAt_rel (E : Encloses X Y R) {sz : Nat} {u : Nat → A} {v : Nat → B} (hu : RelV R u v)
    (d1 : Nat) {x : A} {y : B} (hx : R x y) (k : Nat) :
    RelRes R (factorAt X sz u d1 x k) (factorAt Y sz v d1 y k) := by
  refine (rdV_rel hu).bind fun a b h => .ok ?_
  split
  · exact E.neg (E.sub h hx)
  · exact E.sub h hx

theorem mthRootPolDef_rel (E : Encloses X Y R) {sz : Nat} {u : Nat → A} {v : Nat → B} (hu : RelV R u v)
    (d1 d : Nat) {x : A} {y : B} (hx : R x y) (m : Nat) :
    RelRes R (mthRootPolDef X sz u d1 d x m) (mthRootPolDef Y sz v d1 d y m) := by
  unfold mthRootPolDef
  refine loopUp_rel (fun k a b h => ?_) _ _ _ _ E.one
  exact (factorAt_rel E hu d1 hx k).bind fun s t h' => .ok (E.mul h (E.root m h'))

theorem sqrtPolDef_rel (E : Encloses X Y R) {sz : Nat} {u : Nat → A} {v : Nat → B} (hu : RelV R u v)
    (d1 d : Nat) {x : A} {y : B} (hx : R x y) :
    RelRes R (sqrtPolDef X sz u d1 d x) (sqrtPolDef Y sz v d1 d y) := by
  unfold sqrtPolDef
  refine loopUp_rel (fun k a b h => ?_) _ _ _ _ E.one
  exact (factorAt_rel E hu d1 hx k).bind fun s t h' => .ok (E.mul h (E.sqrt h'))

theorem mthRootPolProd_rel (E : Encloses X Y R) {sz : Nat} {u : Nat → A} {v : Nat → B} (hu : RelV R u v)
    (d1 d : Nat) {x : A} {y : B} (hx : R x y) (m : Nat) :
    RelRes R (mthRootPolProd X sz u d1 d x m) (mthRootPolProd Y sz v d1 d y m) := by
  unfold mthRootPolProd
  have h1 : RelRes R (loopUp (fun k y => do
      let t ← factorAt X sz u d1 x k
      .ok (X.add y (X.log t))) d 0 X.zero)
      (loopUp (fun k s => do
      let t ← factorAt Y sz v d1 y k
      .ok (Y.add s (Y.log t))) d 0 Y.zero) := by
    refine loopUp_rel (fun k a b h => ?_) _ _ _ _ E.zero
    exact (factorAt_rel E hu d1 hx k).bind fun s t h' => .ok (E.add h (E.log h'))
  exact h1.bind fun a b h => .ok (E.exp (E.div h (E.ofInt m)))

theorem cabVal_rel (E : Encloses X Y R) (k : Bool) {a : A} {b : B} (h : R a b) (n1 n m : Nat) :
    R (cabVal X k a n1 n m) (cabVal Y k b n1 n m) := by
  have hr : R (X.root m (if k then X.neg (X.pow a n) else X.pow a n))
      (Y.root m (if k then Y.neg (Y.pow b n) else Y.pow b n)) := by
    cases k
    · exact E.root m (E.pow n h)
    · exact E.root m (E.neg (E.pow n h))
  unfold cabVal
  simp only
  split
  · exact E.mul hr (E.unitRoot _)
  · exact hr

end Hcp
