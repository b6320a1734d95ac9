import Verif.Props.DeTau

/-!
# C87: affine changes of the variable
-/

namespace Hcp

open Set Spec

/-- the points after the change of variable `z ↦ a z + b` -/
def moved (a b : ℂ) (x : Nat → ℂ) (k : Nat) : ℂ := a * x k + b

/-- the balls after the change of variable -/
def movedSet (a b : ℂ) (x : Nat → Set ℂ) (k : Nat) : Set ℂ := (fun z => a * z + b) '' x k

/-- multiples of the elements of a set -/
def sc (a : ℂ) (s : Set ℂ) : Set ℂ := (fun z => a * z) '' s

theorem treeParam_moved (l : ℝ) {a : ℂ} (ha : a ≠ 0) (b : ℂ) (type : IntType) (p q r : ℂ) :
    treeParam (exactCOps l) type (a * p + b) (a * q + b) (a * r + b) = treeParam (exactCOps l) type p q r := by
  have hd : ∀ s t : ℂ, a * s + b - (a * t + b) = a * (s - t) := fun s t => by ring
  have hgc : paramGcR (exactCOps l) (a * p + b) (a * q + b) (a * r + b) = paramGcR (exactCOps l) p q r := by
    show (‖a * r + b - (a * p + b)‖ + ‖a * r + b - (a * q + b)‖) / ‖a * q + b - (a * p + b)‖ = (‖r - p‖ + ‖r - q‖) / ‖q - p‖
    rw [hd, hd, hd, norm_mul, norm_mul, norm_mul, ← mul_add, mul_div_mul_left _ _ (norm_ne_zero_iff.2 ha)]
  cases type with
  | d2 => exact hgc
  | gc => exact hgc
  | de =>
    have e : (2 * (a * r + b) - (a * p + b) - (a * q + b)) / (a * q + b - (a * p + b)) = (2 * r - p - q) / (q - p) := by
      rw [hd, show 2 * (a * r + b) - (a * p + b) - (a * q + b) = a * (2 * r - p - q) by ring, mul_div_mul_left _ _ ha]
    show |(casinh (catanh ((2 * (a * r + b) - (a * p + b) - (a * q + b)) / (a * q + b - (a * p + b))) / l)).im| = |(casinh (catanh ((2 * r - p - q) / (q - p)) / l)).im|
    rw [e]

/-- **C87, tree.** An affine change of the variable `z ↦ a z + b` does not change the tree: same edges in the same order, same parameters. -/
theorem C87_tree (l : ℝ) {a : ℂ} (ha : a ≠ 0) (b : ℂ) (x : Nat → ℂ) (o : WOps ℝ) (sort : List (Edge ℝ) → List (Edge ℝ)) (tr : Tree ℝ) (n : Nat) (type : IntType) :
    spanningTreeOf (exactCOps l) o sort (moved a b x) tr n type = spanningTreeOf (exactCOps l) o sort x tr n type := by
  unfold spanningTreeOf moved
  simp only [treeParam_moved l ha b]

/-! ## Data of the edges -/

theorem sc_div {a : ℂ} (ha : a ≠ 0) (s t : Set ℂ) : setArith.div (sc a s) (sc a t) = setArith.div s t := by
  show image2 _ (_ '' s) (_ '' t) = image2 _ s t
  rw [image2_image_left, image2_image_right]
  exact image2_congr fun p _ q _ => mul_div_mul_left p q ha

theorem sub_moved (a b : ℂ) (x : Nat → Set ℂ) (j k : Nat) : setArith.sub (movedSet a b x j) (movedSet a b x k) = sc a (setArith.sub (x j) (x k)) := by
  show image2 _ (_ '' x j) (_ '' x k) = _ '' image2 _ (x j) (x k)
  rw [image2_image_left, image2_image_right, image_image2]
  exact image2_congr fun p _ q _ => show a * p + b - (a * q + b) = a * (p - q) by ring

theorem abPt_moved {a : ℂ} (ha : a ≠ 0) (b : ℂ) (x : Nat → Set ℂ) (j k l : Nat) : abPt setArith (movedSet a b x) j k l = abPt setArith x j k l := by
  unfold abPt
  rw [sub_moved, ← sc_div ha (setArith.sub (setArith.mul2exp (x l) 1) (setArith.add (x k) (x j)))]
  congr 1
  show image2 _ (_ '' (_ '' x l)) (image2 _ (_ '' x k) (_ '' x j)) = _ '' image2 _ (_ '' x l) (image2 _ (x k) (x j))
  rw [image_image, image2_image_left, image2_image_left, image2_image_left, image2_image_right, image_image2]
  ext w
  simp only [mem_image2]
  constructor
  · rintro ⟨p, hp, _, ⟨q, hq, r, hr, rfl⟩, rfl⟩
    refine ⟨p, hp, _, ⟨q, hq, r, hr, rfl⟩, ?_⟩
    show a * (p * 2 ^ (1 : Int) - (q + r)) = (a * p + b) * 2 ^ (1 : Int) - (a * q + b + (a * r + b))
    rw [zpow_one]; ring
  · rintro ⟨p, hp, _, ⟨q, hq, r, hr, rfl⟩, rfl⟩
    refine ⟨p, hp, _, ⟨q, hq, r, hr, rfl⟩, ?_⟩
    show (a * p + b) * 2 ^ (1 : Int) - (a * q + b + (a * r + b)) = a * (p * 2 ^ (1 : Int) - (q + r))
    rw [zpow_one]; ring

/-- the reordering loop on two arrays which agree on the part it works on -/
theorem partLoop_two {A : Type} (sz : Nat) (p : A → Bool) : ∀ (cnt k : Nat) (u u' : Nat → A), k + cnt ≤ sz → (∀ i < k + cnt, u i = u' i) →
    ∃ l r r', partLoop sz p cnt k u = .ok (l, r) ∧ partLoop sz p cnt k u' = .ok (l, r') ∧ (∀ i < k + cnt, r i = r' i) ∧ ∀ i, k + cnt ≤ i → r i = u i ∧ r' i = u' i
  | 0, k, u, u', _, h => ⟨k, u, u', rfl, rfl, h, fun _ _ => ⟨rfl, rfl⟩⟩
  | cnt + 1, k, u, u', hs, h => by
    unfold partLoop
    rw [rdV_ok (by omega), rdV_ok (by omega), Res.ok_bind, Res.ok_bind, ← h k (by omega)]
    by_cases hp : p (u k) = true
    · rw [if_pos hp, if_pos hp, swapV_ok u (by omega) (by omega), swapV_ok u' (by omega) (by omega), Res.ok_bind, Res.ok_bind]
      have hsw : ∀ i < k + (cnt + 1), (u ∘ Equiv.swap k (k + cnt)) i = (u' ∘ Equiv.swap k (k + cnt)) i := by
        intro i hi
        show u (Equiv.swap k (k + cnt) i) = u' (Equiv.swap k (k + cnt) i)
        refine h _ ?_
        rw [Equiv.swap_apply_def]
        split_ifs <;> omega
      obtain ⟨l, r, r', e1, e2, e3, e4⟩ := partLoop_two sz p cnt k _ _ (by omega) fun i hi => hsw i (by omega)
      refine ⟨l, r, r', e1, e2, fun i hi => ?_, fun i hi => ?_⟩
      · by_cases hi' : i < k + cnt
        · exact e3 i hi'
        · rw [(e4 i (by omega)).1, (e4 i (by omega)).2]
          exact hsw i hi
      · obtain ⟨q1, q2⟩ := e4 i (by omega)
        rw [q1, q2]
        show u (Equiv.swap k (k + cnt) i) = u i ∧ u' (Equiv.swap k (k + cnt) i) = u' i
        rw [Equiv.swap_apply_of_ne_of_ne (by omega) (by omega)]
        exact ⟨rfl, rfl⟩
    · rw [if_neg hp, if_neg hp]
      obtain ⟨l, r, r', e1, e2, e3, e4⟩ := partLoop_two sz p cnt (k + 1) u u' (by omega) fun i hi => h i (by omega)
      exact ⟨l, r, r', e1, e2, fun i hi => e3 i (by omega), fun i hi => e4 i (by omega)⟩

theorem abPoints_moved {c : ℂ} (hc : c ≠ 0) (d : ℂ) (x : Nat → Set ℂ) {a b n : Nat} (ha : a < n) (hb : b < n) (hab : a ≠ b) (u : Nat → Set ℂ) :
    ∃ n1 v v', abPoints setArith sndTests x a b n u = .ok (n1, v) ∧ abPoints setArith sndTests (movedSet c d x) a b n u = .ok (n1, v') ∧ (∀ i < n - 2, v' i = v i) ∧ v' (n - 2) = sc c (v (n - 2)) := by
  have hlen := others_length ha hb hab
  have init : ∀ y : Nat → Set ℂ, ∃ w, loopUp (abStep setArith n y a b) n 0 (0, fun j => if j = n - 2 then setArith.sub (y b) (y a) else if j = n - 1 then setArith.add (y b) (y a) else if j = n - 2 then y b else u j) = .ok (n - 2, w) ∧
      w (n - 2) = setArith.sub (y b) (y a) ∧ ∀ i k, (others a b n)[i]? = some k → w i = abPt setArith y a b k := by
    intro y
    obtain ⟨w, e, -, g2, -, g4⟩ := abLoop_spec setArith y ha hb hab
      (fun j => if j = n - 2 then setArith.sub (y b) (y a) else if j = n - 1 then setArith.add (y b) (y a) else if j = n - 2 then y b else u j) (by simp only; rw [if_neg (by omega), if_pos trivial]) (by simp)
    exact ⟨w, e, g2, g4⟩
  obtain ⟨w, e1, g2, g4⟩ := init x
  obtain ⟨w', e1', g2', g4'⟩ := init (movedSet c d x)
  have hw : ∀ i < 0 + (n - 2), w i = w' i := fun i hi => by
    have hi' : i < (others a b n).length := by omega
    rw [g4 i _ (List.getElem?_eq_getElem hi'), g4' i _ (List.getElem?_eq_getElem hi'), abPt_moved hc]
  obtain ⟨l, r, r', q1, q2, q3, q4⟩ := partLoop_two (n + 3) sndTests.reNonpos (n - 2) 0 w w' (by omega) hw
  have main : ∀ (y : Nat → Set ℂ) (w r : Nat → Set ℂ), loopUp (abStep setArith n y a b) n 0 (0, fun j => if j = n - 2 then setArith.sub (y b) (y a) else if j = n - 1 then setArith.add (y b) (y a) else if j = n - 2 then y b else u j) = .ok (n - 2, w) →
      partLoop (n + 3) sndTests.reNonpos (n - 2) 0 w = .ok (l, r) →
      abPoints setArith sndTests y a b n u = .ok (l, fun j => if j = n - 2 then setArith.mul2exp (r (n - 2)) (-1) else if j = n - 1 then setArith.div (r (n - 1)) (r (n - 2)) else r j) := by
    intro y w r h1 h2
    unfold abPoints
    simp only [rdV_ok ha, rdV_ok hb, wrV_ok (show n - 2 < n + 3 by omega), wrV_ok (show n - 1 < n + 3 by omega), Res.ok_bind]
    rw [h1, Res.ok_bind]
    simp only [ne_eq, not_true_eq_false, if_false]
    rw [h2, Res.ok_bind]
    simp only [rdV_ok (show n - 1 < n + 3 by omega), rdV_ok (show n - 2 < n + 3 by omega), Res.ok_bind]
  refine ⟨l, _, _, main _ _ _ e1 q1, main _ _ _ e1' q2, fun i hi => ?_, ?_⟩
  · rw [if_neg (by omega), if_neg (by omega), if_neg (by omega), if_neg (by omega), q3 i (by omega)]
  · rw [if_pos rfl, if_pos rfl, (q4 (n - 2) (by omega)).1, (q4 (n - 2) (by omega)).2, g2, g2', sub_moved]
    show _ '' (_ '' _) = _ '' (_ '' _)
    rw [image_image, image_image]
    exact image_congr fun z _ => show c * z * 2 ^ (-1 : Int) = c * (z * 2 ^ (-1 : Int)) by ring

/-! ## The constants -/

/-- `(r z)^(1/m) = r^(1/m) z^(1/m)` for `r > 0` -/
theorem root_scale {m : Nat} (hm : 0 < m) {r : ℝ} (hr : 0 < r) (z : ℂ) : exact.root m ((r : ℂ) * z) = ((r ^ ((m : ℝ)⁻¹) : ℝ) : ℂ) * exact.root m z := by
  show ((r : ℂ) * z) ^ ((m : ℂ)⁻¹) = _ * z ^ ((m : ℂ)⁻¹)
  have hm' : ((m : ℂ)⁻¹) ≠ 0 := inv_ne_zero (by exact_mod_cast hm.ne')
  by_cases hz : z = 0
  · rw [hz, mul_zero, Complex.zero_cpow hm', mul_zero]
  · have hrz : (r : ℂ) * z ≠ 0 := mul_ne_zero (by exact_mod_cast hr.ne') hz
    rw [Complex.cpow_def_of_ne_zero hrz, Complex.cpow_def_of_ne_zero hz, Complex.log_ofReal_mul hr hz, add_mul, Complex.exp_add, Complex.ofReal_cpow hr.le, Complex.cpow_def_of_ne_zero (by exact_mod_cast hr.ne'), Complex.ofReal_log hr.le]
    push_cast
    rfl

theorem reNeg_sc {r : ℝ} (hr : 0 < r) (s : Set ℂ) : sndTests.reNeg (sc r s) = sndTests.reNeg s := by
  refine decide_eq_decide.2 ⟨fun h z hz => ?_, fun h => ?_⟩
  · have := h _ (mem_image_of_mem _ hz)
    rw [Complex.re_ofReal_mul] at this
    by_contra h'
    exact absurd this (not_lt.2 (mul_nonneg hr.le (not_lt.1 h')))
  · rintro _ ⟨z, hz, rfl⟩
    show ((r : ℂ) * z).re < 0
    rw [Complex.re_ofReal_mul]
    exact mul_neg_of_pos_of_neg hr (h z hz)

theorem hasZero_sc {r : ℂ} (hr : r ≠ 0) (s : Set ℂ) : sndTests.hasZero (sc r s) = sndTests.hasZero s := by
  refine decide_eq_decide.2 ⟨?_, fun h => ⟨0, h, mul_zero _⟩⟩
  rintro ⟨z, hz, h⟩
  rcases mul_eq_zero.1 h with h | h
  · exact absurd h hr
  · rwa [← h]

theorem mul_sc (r : ℂ) (s t : Set ℂ) : setArith.mul s (sc r t) = sc r (setArith.mul s t) := by
  show image2 _ s (_ '' t) = _ '' image2 _ s t
  rw [image2_image_right, image_image2]
  exact image2_congr fun p _ q _ => show p * (r * q) = r * (p * q) by ring

theorem sc_mul (r : ℂ) (s t : Set ℂ) : setArith.mul (sc r s) t = sc r (setArith.mul s t) := by
  show image2 _ (_ '' s) t = _ '' image2 _ s t
  rw [image2_image_left, image_image2]
  exact image2_congr fun p _ q _ => show r * p * q = r * (p * q) by ring

theorem neg_sc (r : ℂ) (s : Set ℂ) : setArith.neg (sc r s) = sc r (setArith.neg s) := by
  show _ '' (_ '' s) = _ '' (_ '' s)
  rw [image_image, image_image]
  exact image_congr fun p _ => show -(r * p) = r * -p by ring

theorem pow_sc (r : ℂ) (s : Set ℂ) (n : Nat) : setArith.pow (sc r s) n = sc (r ^ n) (setArith.pow s n) := by
  show _ '' (_ '' s) = _ '' (_ '' s)
  rw [image_image, image_image]
  exact image_congr fun p _ => mul_pow r p n

theorem root_sc {m : Nat} (hm : 0 < m) {r : ℝ} (hr : 0 < r) (s : Set ℂ) : setArith.root m (sc r s) = sc ((r ^ ((m : ℝ)⁻¹) : ℝ) : ℂ) (setArith.root m s) := by
  show _ '' (_ '' s) = _ '' (_ '' s)
  rw [image_image, image_image]
  exact image_congr fun p _ => root_scale hm hr p

/-- factor of the constants `C` of the edges -/
noncomputable def cabScale (r : ℝ) (n m : Nat) : ℝ := (r ^ n) ^ ((m : ℝ)⁻¹)

theorem cabScale_pos {r : ℝ} (hr : 0 < r) (n m : Nat) : 0 < cabScale r n m := Real.rpow_pos_of_pos (pow_pos hr n) _

theorem cabVal_sc {m : Nat} (hm : 0 < m) {r : ℝ} (hr : 0 < r) (k : Bool) (s : Set ℂ) (n1 n : Nat) : cabVal setArith k (sc r s) n1 n m = sc (cabScale r n m) (cabVal setArith k s n1 n m) := by
  have e : ∀ t, setArith.root m (sc ((r : ℂ) ^ n) t) = sc (cabScale r n m) (setArith.root m t) := fun t => by
    rw [show ((r : ℂ) ^ n) = ((r ^ n : ℝ) : ℂ) by push_cast; rfl]
    exact root_sc hm (pow_pos hr n) t
  unfold cabVal
  rw [pow_sc]
  cases k with
  | true =>
    simp only [if_true, neg_sc, e, sc_mul]
    split <;> rfl
  | false =>
    simp only [Bool.false_eq_true, if_false, e, sc_mul]
    split <;> rfl

theorem constantCab_sc {m : Nat} (hm : 0 < m) {r : ℝ} (hr : 0 < r) (s : Set ℂ) (n1 n : Nat) :
    RelRes (fun c c' => c' = sc (cabScale r n m) c) (constantCab setArith sndTests s n1 n m) (constantCab setArith sndTests (sc r s) n1 n m) := by
  rw [constantCab_eq, constantCab_eq]
  dsimp only
  rw [cabVal_sc hm hr, hasZero_sc (by exact_mod_cast (cabScale_pos hr n m).ne'), pow_sc, show ((r : ℂ) ^ n) = ((r ^ n : ℝ) : ℂ) by push_cast; rfl, reNeg_sc (pow_pos hr n)]
  split
  · exact .abort _
  · exact .ok rfl

theorem mthRootPolDef_congr {A : Type} {X : Arith A} {sz : Nat} {u u' : Nat → A} {d : Nat} (h : ∀ i < d, u' i = u i) (d1 : Nat) (x : A) (m : Nat) : mthRootPolDef X sz u' d1 d x m = mthRootPolDef X sz u d1 d x m := by
  have key : ∀ (cnt k : Nat) (y : A), k + cnt ≤ d → loopUp (fun k y => do let t ← factorAt X sz u' d1 x k; .ok (X.mul y (X.root m t))) cnt k y = loopUp (fun k y => do let t ← factorAt X sz u d1 x k; .ok (X.mul y (X.root m t))) cnt k y := by
    intro cnt
    induction cnt with
    | zero => intro k y _; rfl
    | succ cnt ih =>
      intro k y hk
      have hf : factorAt X sz u' d1 x k = factorAt X sz u d1 x k := by
        unfold factorAt rdV
        rw [h k (by omega)]
      unfold loopUp
      rw [hf]
      congr 1
      funext y'
      exact ih (k + 1) y' (by omega)
  exact key d 0 X.one (by omega)

/-- the data of an edge before and after the change of variable `z ↦ r z + d`: same local points, `b - a` multiplied by `r`, values of `y` by `r^(n/m)` -/
structure Scaled (r : ℝ) (m n : Nat) (y y' : YData (Set ℂ)) : Prop where
  n1 : y'.n1 = y.n1
  pts : ∀ i < n - 2, y'.u i = y.u i
  ba2 : y'.ba2 = sc r y.ba2
  c : y'.c = sc (cabScale r n m) y.c
  ya : y'.ya = sc (cabScale r n m) y.ya
  yb : y'.yb = sc (cabScale r n m) y.yb

theorem ydataInitEdge_moved {r : ℝ} (hr : 0 < r) (d : ℂ) (x : Nat → Set ℂ) {a b n m : Nat} (ha : a < n) (hb : b < n) (hab : a ≠ b) (hm : 0 < m) :
    RelRes (Scaled r m n) (ydataInitEdge setArith sndTests x a b n m) (ydataInitEdge setArith sndTests (movedSet r d x) a b n m) := by
  have hr' : (r : ℂ) ≠ 0 := by exact_mod_cast hr.ne'
  obtain ⟨n1, v, v', e, e', h1, h2⟩ := abPoints_moved hr' d x ha hb hab fun _ => setArith.zero
  have hlim : ∀ (w w' : Nat → Set ℂ) (s : Int), (∀ i < n - 2, w' i = w i) → w' n = sc (cabScale r n m) (w n) →
      RelRes (fun z z' => z' = sc (cabScale r n m) z) (limitEdge setArith w n1 n m s) (limitEdge setArith w' n1 n m s) := by
    intro w w' s q1 q2
    unfold limitEdge
    rw [mthRootPolDef_congr q1, rdV_ok (by omega), rdV_ok (by omega), q2]
    cases mthRootPolDef setArith (n + 3) w n1 (n - 2) (setArith.ofInt s) m with
    | ok z => exact .ok (mul_sc _ _ _)
    | abort _ => exact .abort _
    | ub _ => exact .ub _
    | diverge => exact .diverge
  unfold ydataInitEdge
  rw [e, e', Res.ok_bind, Res.ok_bind]
  dsimp only
  rw [rdV_ok (by omega), rdV_ok (by omega), Res.ok_bind, Res.ok_bind, h2]
  refine (constantCab_sc hm hr _ n1 n).bind fun c c' hcc => ?_
  rw [wrV_ok (by omega), wrV_ok (by omega), Res.ok_bind, Res.ok_bind]
  refine (hlim _ _ (-1) (fun i hi => ?_) ?_).bind fun ya ya' hya => ?_
  · rw [if_neg (by omega), if_neg (by omega), h1 i hi]
  · rw [if_pos rfl, if_pos rfl, hcc]
  rw [wrV_ok (by omega), wrV_ok (by omega), Res.ok_bind, Res.ok_bind]
  refine (hlim _ _ 1 (fun i hi => ?_) ?_).bind fun yb yb' hyb => ?_
  · rw [if_neg (by omega), if_neg (by omega), if_neg (by omega), if_neg (by omega), h1 i hi]
  · rw [if_neg (by omega : ¬ n = n + 1), if_neg (by omega : ¬ n = n + 1), if_pos rfl, if_pos rfl, hcc]
  rw [wrV_ok (by omega), wrV_ok (by omega), Res.ok_bind, Res.ok_bind]
  refine .ok ⟨rfl, fun i hi => ?_, ?_, ?_, ?_, ?_⟩
  · show (if i = n + 2 then yb' else if i = n + 1 then ya' else if i = n then c' else v' i) = (if i = n + 2 then yb else if i = n + 1 then ya else if i = n then c else v i)
    simp only [show i ≠ n + 2 by omega, show i ≠ n + 1 by omega, show i ≠ n by omega, if_false]
    exact h1 i hi
  · show (if n - 2 = n + 2 then yb' else if n - 2 = n + 1 then ya' else if n - 2 = n then c' else v' (n - 2)) = sc r (if n - 2 = n + 2 then yb else if n - 2 = n + 1 then ya else if n - 2 = n then c else v (n - 2))
    simp only [show n - 2 ≠ n + 2 by omega, show n - 2 ≠ n + 1 by omega, show n - 2 ≠ n by omega, if_false]
    exact h2
  · show (if n = n + 2 then yb' else if n = n + 1 then ya' else if n = n then c' else v' n) = sc _ (if n = n + 2 then yb else if n = n + 1 then ya else if n = n then c else v n)
    simp only [show n ≠ n + 2 by omega, show n ≠ n + 1 by omega, if_false, if_true]
    exact hcc
  · show (if n + 1 = n + 2 then yb' else if n + 1 = n + 1 then ya' else if n + 1 = n then c' else v' (n + 1)) = sc _ (if n + 1 = n + 2 then yb else if n + 1 = n + 1 then ya else if n + 1 = n then c else v (n + 1))
    simp only [show n + 1 ≠ n + 2 by omega, if_false, if_true]
    exact hya
  · show (if n + 2 = n + 2 then yb' else if n + 2 = n + 1 then ya' else if n + 2 = n then c' else v' (n + 2)) = sc _ (if n + 2 = n + 2 then yb else if n + 2 = n + 1 then ya else if n + 2 = n then c else v (n + 2))
    simp only [if_true]
    exact hyb

theorem treeYdataInit_moved {r : ℝ} (hr : 0 < r) (d : ℂ) (x : Nat → Set ℂ) {n m : Nat} (hm : 0 < m) : ∀ es : List (Edge ℝ), (∀ ed ∈ es, ed.a < n ∧ ed.b < n ∧ ed.a ≠ ed.b) →
    RelRes (List.Forall₂ (Scaled r m n)) (treeYdataInit setArith sndTests x n m es) (treeYdataInit setArith sndTests (movedSet r d x) n m es)
  | [], _ => .ok .nil
  | ed :: es, h => by
    obtain ⟨h1, h2, h3⟩ := h ed (List.mem_cons_self ..)
    exact (ydataInitEdge_moved hr d x h1 h2 h3 hm).bind fun y y' hy => (treeYdataInit_moved hr d x hm es fun e he => h e (List.mem_cons_of_mem _ he)).bind fun ys ys' hys => .ok (.cons hy hys)

/-! ## The loops -/

theorem shift_moved {r : ℝ} (hr : 0 < r) {m n : Nat} {y y' z z' : YData (Set ℂ)} (hy : Scaled r m n y y') (hz : Scaled r m n z z') :
    shiftAD setArith sndTests y' z' m = shiftAD setArith sndTests y z m ∧ shiftBD setArith sndTests y' z' m = shiftBD setArith sndTests y z m ∧ isNegAbad setArith sndTests y'.ba2 z'.ba2 = isNegAbad setArith sndTests y.ba2 z.ba2 := by
  have hr' : (r : ℂ) ≠ 0 := by exact_mod_cast hr.ne'
  have hc' : ((cabScale r n m : ℝ) : ℂ) ≠ 0 := by exact_mod_cast (cabScale_pos hr n m).ne'
  have ha : ∀ {k : ℂ}, k ≠ 0 → ∀ p q : Set ℂ, arbAngle setArith sndTests (sc k p) (sc k q) = arbAngle setArith sndTests p q := fun hk p q => by
    unfold arbAngle
    rw [sc_div hk]
  refine ⟨?_, ?_, ?_⟩
  · unfold shiftAD
    rw [hy.ba2, hz.ba2, hy.ya, hz.ya, ha hr', ha hc']
  · unfold shiftBD
    rw [hy.ba2, hz.ba2, hy.yb, hz.ya, ha hr', ha hc']
  · unfold isNegAbad
    rw [hy.ba2, hz.ba2, sc_div hr']

theorem shiftOracle_moved {r : ℝ} (hr : 0 < r) {m n : Nat} {data data' : List (YData (Set ℂ))} (h : List.Forall₂ (Scaled r m n) data data') : shiftOracle setArith sndTests data' m = shiftOracle setArith sndTests data m := by
  have hget : ∀ k : Nat, (data[k]? = none ∧ data'[k]? = none) ∨ ∃ y y', data[k]? = some y ∧ data'[k]? = some y' ∧ Scaled r m n y y' := by
    intro k
    have hl := h.length_eq
    by_cases hk : k < data.length
    · exact Or.inr ⟨_, _, List.getElem?_eq_getElem hk, List.getElem?_eq_getElem (by omega), h.get hk (by omega)⟩
    · exact Or.inl ⟨List.getElem?_eq_none (by omega), List.getElem?_eq_none (by omega)⟩
  unfold shiftOracle
  congr 1 <;> funext k l <;> rcases hget k with ⟨k1, k2⟩ | ⟨y, y', k1, k2, k3⟩ <;> rcases hget l with ⟨l1, l2⟩ | ⟨z, z', l1, l2, l3⟩ <;> rw [k1, k2, l1, l2]
  · exact (shift_moved hr k3 l3).1
  · exact (shift_moved hr k3 l3).2.1
  · exact (shift_moved hr k3 l3).2.2

/-- **C87, loops.** When the branch points, given by any balls, are moved by `z ↦ r z + d` with `r > 0`, the data of the edges are computed in the same cases and the loops are the same: same outcome, same loops. -/
theorem C87_loops {r : ℝ} (hr : 0 < r) (d : ℂ) (x : Nat → Set ℂ) {m n : Nat} (hm : 0 < m) {es : List (Edge ℝ)} (hes : ∀ ed ∈ es, ed.a < n ∧ ed.b < n ∧ ed.a ≠ ed.b) {data : List (YData (Set ℂ))} (h : treeYdataInit setArith sndTests x n m es = .ok data) :
    ∃ data', treeYdataInit setArith sndTests (movedSet r d x) n m es = .ok data' ∧ ∀ (xg : XGcd) (fuel g : Nat), symplecticBasis xg fuel (shiftOracle setArith sndTests data' m) es m g = symplecticBasis xg fuel (shiftOracle setArith sndTests data m) es m g := by
  have hrel := treeYdataInit_moved hr d x hm es hes
  rw [h] at hrel
  generalize treeYdataInit setArith sndTests (movedSet r d x) n m es = q at hrel ⊢
  cases hrel with
  | ok hh => exact ⟨_, rfl, fun xg fuel g => by rw [shiftOracle_moved hr hh]⟩

/-- **C87, whole runs.** `abel_jacobi_compute` on exact points `x_k` and on `r x_k + d`, `r > 0`, with the same options, at any two precisions: if both calls return, they have the same tree, with the same parameters, and the same loops. -/
theorem C87_run {x : Nat → ℂ} {lam : ℝ} {sort : List (Edge ℝ) → List (Edge ℝ)} {ord ord' : List (Edge ℝ) → List Nat} {p p' : DePar (Set ℂ)} (hs : SortsByR sort) {r : ℝ} (hr : 0 < r) (d : ℂ) {m n : Nat} (hm : 2 ≤ m) (hn : 2 ≤ n)
    {c : Sec} (hc : secInit m n = .ok c) {flag fuel fuel' : Nat} {prec prec' : Int} {out out' : AjOut (Set ℂ) ℝ setMat c.shape.g}
    (h : ajRun (idealEnv x lam sort ord p) fuel c flag prec (treeInit (WOps.ofOrder (-1)) (treeEdges c).toNat) = .ok out)
    (h' : ajRun (idealEnv (moved r d x) lam sort ord' p') fuel' c flag prec' (treeInit (WOps.ofOrder (-1)) (treeEdges c).toNat) = .ok out') :
    out'.tree = out.tree ∧ out'.loopA = out.loopA ∧ out'.loopB = out.loopB ∧ List.Forall₂ (Scaled r m n) out.data out'.data := by
  have hn2 : (2 : Int) ≤ n := by omega
  obtain ⟨_, e1, e2, _⟩ := secInit_fields hc hn2
  have hcn : c.shape.n = n := by unfold Sec.shape; simp [e2]
  have hcm : c.shape.m = m := by unfold Sec.shape; simp [e1]
  have hr' : (r : ℂ) ≠ 0 := by exact_mod_cast hr.ne'
  have stages : ∀ (y : Nat → ℂ) (ord : List (Edge ℝ) → List Nat) (p : DePar (Set ℂ)) (fuel : Nat) (prec : Int) (out : AjOut (Set ℂ) ℝ setMat c.shape.g),
      ajRun (idealEnv y lam sort ord p) fuel c flag prec (treeInit (WOps.ofOrder (-1)) (treeEdges c).toNat) = .ok out →
        spanningTreeOf (exactCOps lam) (WOps.ofOrder (-1)) sort y (treeInit (WOps.ofOrder (-1)) (treeEdges c).toNat) n (intType flag c.m c.n) = .ok out.tree ∧ treeYdataInit setArith sndTests (fun k => {y k}) n m out.tree.e = .ok out.data ∧
          symplecticBasis XGcd.std fuel (shiftOracle setArith sndTests out.data m) out.tree.e m c.shape.g = .ok (out.loopA, out.loopB) := by
    intro y ord p fuel prec out h
    obtain ⟨r1, -, r0, -⟩ := ajRun_ok h
    unfold ajTree at r1
    simp only [Res.bind_eq_ok] at r1
    obtain ⟨tr', q1, ex, q2, ip', q3, cp, q4, _, q5, data', q6, q7⟩ := r1
    simp only [Res.ok.injEq, Prod.mk.injEq] at q7
    obtain ⟨rfl, -, rfl⟩ := q7
    have hapx : (fun k => (idealEnv y lam sort ord p).approx ((idealEnv y lam sort ord p).roots 64 k)) = y := funext fun k => pick_singleton _
    rw [hapx, hcn] at q1
    rw [hcn, hcm] at q6
    rw [hcm] at r0
    exact ⟨q1, q6, r0⟩
  obtain ⟨s1, s2, s3⟩ := stages _ _ _ _ _ _ h
  obtain ⟨t1, t2, t3⟩ := stages _ _ _ _ _ _ h'
  rw [C87_tree lam hr' d] at t1
  have htr := Res.ok.inj (t1.symm.trans s1)
  have hlt := edgeCount_lt (edgeCount_of_size (C03_tree_size (by omega) hc))
  have hes : ∀ ed ∈ out.tree.e, ed.a < n ∧ ed.b < n ∧ ed.a ≠ ed.b := by
    have h1' := s1
    unfold spanningTreeOf at h1'
    obtain ⟨t1, e1, -, g0, g1, g2⟩ := C09_grows_as_tree (WOps.ofOrder (-1)) sort hs.perm _ (treeInit (WOps.ofOrder (-1)) (treeEdges c).toNat) n (Or.inl hlt)
    obtain h2 := Res.ok.inj (h1'.symm.trans e1)
    rw [← h2] at g1 g2
    intro ed hed
    obtain ⟨k, hk, rfl⟩ := List.getElem_of_mem hed
    have := (g1 k (by rw [Tree.pairs, List.length_map]; exact hk)).1
    exact ⟨(g2 _ hed).1, (g2 _ hed).2.1, by simpa [Tree.pairs] using this⟩
  have hmv : (fun k => {moved r d x k}) = movedSet r d (fun k => {x k}) := funext fun k => (image_singleton (f := fun z : ℂ => (r : ℂ) * z + d) (a := x k)).symm
  rw [htr, hmv] at t2
  rw [htr] at t3
  have hrel := treeYdataInit_moved hr d (fun k => {x k}) (by omega : 0 < m) out.tree.e hes
  rw [s2, t2] at hrel
  have hsc : List.Forall₂ (Scaled r m n) out.data out'.data := by
    cases hrel with
    | ok hh => exact hh
  rw [shiftOracle_moved hr hsc] at t3
  have h4 := symplecticBasis_mono _ (le_max_left fuel fuel') s3
  have h5 := symplecticBasis_mono _ (le_max_right fuel fuel') t3
  obtain ⟨a1, a2⟩ := Prod.mk.inj (Res.ok.inj (h5.symm.trans h4))
  exact ⟨htr, a1, a2, hsc⟩

/-- the curves `y^3 = ∏ (x - x_k)` over the equilateral triangle and over a triangle twice as large around `1 + 2i`: both calls return and have the same loops -/
example : ∃ (c : Sec) (prec prec' : Int) (out out' : AjOut (Set ℂ) ℝ setMat c.shape.g), secInit (3 : Nat) (3 : Nat) = .ok c ∧
    ajRun (idealEnv tri (Real.pi / 2) sortByR orderByR ⟨0, {0}, {0}, id⟩) 1 c ajNoInt prec (treeInit (WOps.ofOrder (-1)) (treeEdges c).toNat) = .ok out ∧
    ajRun (idealEnv (moved (2 : ℝ) (1 + 2 * Complex.I) tri) (Real.pi / 2) sortByR orderByR ⟨0, {0}, {0}, id⟩) 1 c ajNoInt prec' (treeInit (WOps.ofOrder (-1)) (treeEdges c).toNat) = .ok out' ∧
    out'.tree = out.tree ∧ out'.loopA = out.loopA ∧ out'.loopB = out.loopB := by
  obtain ⟨c, hc⟩ : ∃ c, secInit (3 : Nat) (3 : Nat) = .ok c := ⟨_, rfl⟩
  have hx' : InjOn (moved (2 : ℝ) (1 + 2 * Complex.I) tri) (Iio 3) := fun i hi j hj h => tri_inj hi hj (by
    have h' : ((2 : ℝ) : ℂ) * tri i + (1 + 2 * Complex.I) = ((2 : ℝ) : ℂ) * tri j + (1 + 2 * Complex.I) := h
    exact mul_left_cancel₀ (by norm_num : ((2 : ℝ) : ℂ) ≠ 0) (add_right_cancel h'))
  have run : ∀ y : Nat → ℂ, InjOn y (Iio 3) → ∃ (prec : Int) (out : AjOut (Set ℂ) ℝ setMat c.shape.g), ajRun (idealEnv y (Real.pi / 2) sortByR orderByR ⟨0, {0}, {0}, id⟩) 1 c ajNoInt prec (treeInit (WOps.ofOrder (-1)) (treeEdges c).toNat) = .ok out := by
    intro y hy
    obtain ⟨tr, extra, -, -, -, -, -, cc, Y, ca, cb, P, -, -, -, -, -, -, -, hrun⟩ := C78_homology (x := y) (p := ⟨0, {0}, {0}, id⟩) (ord := orderByR) sortByR_sorts (by positivity : Real.pi / 2 ≠ 0) (by norm_num : 2 ≤ 3) (by norm_num) (by norm_num) hy hc ajNoInt (by decide)
    obtain ⟨out, o1, -⟩ := (hrun (64 - extra) 64 1 (by omega) (by norm_num) (by norm_num) le_rfl).1 (Or.inl (by norm_num))
    exact ⟨_, out, o1⟩
  obtain ⟨prec, out, o1⟩ := run _ tri_inj
  obtain ⟨prec', out', o2⟩ := run _ hx'
  obtain ⟨e1, e2, e3, -⟩ := C87_run sortByR_sorts (by norm_num : (0 : ℝ) < 2) _ (by norm_num) (by norm_num) hc o1 o2
  exact ⟨c, prec, prec', out, out', hc, o1, o2, e1, e2, e3⟩

end Hcp
