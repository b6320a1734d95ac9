import Verif.Proofs.DeLower
import Mathlib.Analysis.Real.Pi.Bounds

/-!
# C53: the radius of the double-exponential sums; C54: the width of the strip; C55: the precision reached
-/

namespace Hcp

open Spec

/-! ## C54: the strip -/

theorem deHeightLoop_ok {lam : ℝ} : ∀ {ws : List ℂ} {r r' : ℝ}, deHeightLoop lam ws r = .ok r' → 0 < r →
    0 < r' ∧ r' ≤ r ∧ ∀ w ∈ ws, r' ≤ deHeight lam w
  | [], r, r', h, h0 => by
    cases h
    exact ⟨h0, le_rfl, by simp⟩
  | w :: ws, r, r', h, h0 => by
    unfold deHeightLoop at h
    split at h
    · cases h
    · rename_i hw
      rw [not_le] at hw
      have hpos : 0 < (if deHeight lam w < r then deHeight lam w else r) := by split <;> assumption
      obtain ⟨h1, h2, h3⟩ := deHeightLoop_ok h hpos
      have h4 : r' ≤ r ∧ r' ≤ deHeight lam w := by
        split at h2
        · rename_i hlt
          exact ⟨h2.trans hlt.le, h2⟩
        · rename_i hge
          exact ⟨h2, h2.trans (not_lt.1 hge)⟩
      refine ⟨h1, h4.1, fun x hx => ?_⟩
      rcases List.mem_cons.1 hx with rfl | hx
      · exact h4.2
      · exact h3 x hx

theorem deHeightLoop_total {lam : ℝ} : ∀ {ws : List ℂ} {r : ℝ}, (∀ w ∈ ws, 0 < deHeight lam w) → ∃ r', deHeightLoop lam ws r = .ok r'
  | [], r, _ => ⟨r, rfl⟩
  | w :: ws, r, h => by
    unfold deHeightLoop
    rw [if_neg (not_le.2 (h w (by simp)))]
    exact deHeightLoop_total fun x hx => h x (by simp [hx])

theorem deZ_ne_one (l : ℝ) (t : ℂ) : deZ l t ≠ 1 ∧ deZ l t ≠ -1 := by
  unfold deZ
  rw [Complex.tanh_eq_sinh_div_cosh]
  set w := (l : ℂ) * Complex.sinh t
  by_cases h0 : Complex.cosh w = 0
  · rw [h0, div_zero]
    constructor <;> norm_num
  · constructor
    · rw [Ne, div_eq_iff h0, one_mul]
      intro h
      have := Complex.cosh_sub_sinh w
      rw [h, sub_self] at this
      exact Complex.exp_ne_zero _ this.symm
    · rw [Ne, div_eq_iff h0]
      intro h
      have := Complex.cosh_add_sinh w
      rw [h, neg_one_mul, add_neg_cancel] at this
      exact Complex.exp_ne_zero _ this.symm

/-- the value `rk` vanishes exactly on the path -/
theorem deHeight_pos {lam : ℝ} (hl : 0 < lam) {w : ℂ} (h : ¬ (|w.re| ≤ 1 ∧ w.im = 0)) : 0 < deHeight lam w := by
  have hne : ∀ t : ℝ, -1 ≤ t → t ≤ 1 → w ≠ t := by
    rintro t h1 h2 rfl
    exact h ⟨by simpa using abs_le.2 ⟨h1, h2⟩, by simp⟩
  have w1 : w ≠ 1 := by simpa using hne 1 (by norm_num) le_rfl
  have w2 : w ≠ -1 := by simpa using hne (-1) le_rfl (by norm_num)
  unfold deHeight
  rw [abs_pos, Ne, casinh_im, Complex.div_ofReal_im, div_eq_zero_iff, or_iff_left hl.ne', catanh_im w1 w2]
  rintro ⟨t, h1, h2, e⟩
  exact hne t h1 h2 e

theorem deRadius_ok {lam : ℝ} {ws : List ℂ} {r : ℝ} (h : deRadius lam ws = .ok r) : ∃ r', deHeightLoop lam ws (14 / 10) = .ok r' ∧ r = r' * (9 / 10) := by
  unfold deRadius at h
  split at h <;> try cases h
  rename_i r' e
  exact ⟨r', e, rfl⟩

/-- **C54 (strip).** When `de_params_d` returns a half width `r`, then `0 < r ≤ 1.26` and there is a strictly larger `ρ ≤ 1.4` such that the open strip `|Im t| < ρ` contains no
preimage of a branch point under `t ↦ tanh (lambda sinh t)`, whichever branch of the inverse functions is taken. -/
theorem C54_strip {lam : ℝ} (hl : 0 < lam) (hl2 : lam ≤ Real.pi / 2) {ws : List ℂ} {r : ℝ} (h : deRadius lam ws = .ok r) :
    0 < r ∧ r ≤ 126 / 100 ∧ ∃ ρ, r < ρ ∧ ρ ≤ 14 / 10 ∧ ∀ w ∈ ws, ∀ t : ℂ, |t.im| < ρ → deZ lam t ≠ w := by
  obtain ⟨r', e, rfl⟩ := deRadius_ok h
  obtain ⟨h1, h2, h3⟩ := deHeightLoop_ok e (by norm_num)
  refine ⟨by linarith, by linarith, r', by linarith, h2, fun w hw t ht hz => ?_⟩
  have hpi := Real.pi_gt_d2
  have hne := deZ_ne_one lam t
  rw [hz] at hne
  have := de_height hl hl2 hne.1 hne.2 (t := t) (by linarith) hz
  have := h3 w hw
  unfold deHeight at this
  linarith

/-- **C54 (return).** `de_params` returns exactly when no point is on the path, and then its radius is that of `de_params_d` and its scaling `lambda`. -/
theorem C54_returns {lam : ℝ} (hl : 0 < lam) (m2 : ℝ → ℝ) (u : List ℂ) (j m prec : Nat) :
    (∃ o, deParams lam m2 u j m prec = .ok o) ↔ ∀ x : ℝ, -1 ≤ x → x ≤ 1 → (x : ℂ) ∉ u := by
  have key : (∃ w ∈ u, |w.re| ≤ 1 ∧ w.im = 0) ↔ ∃ x : ℝ, -1 ≤ x ∧ x ≤ 1 ∧ (x : ℂ) ∈ u := by
    constructor
    · rintro ⟨w, hw, h1, h2⟩
      refine ⟨w.re, (abs_le.1 h1).1, (abs_le.1 h1).2, ?_⟩
      have : ((w.re : ℝ) : ℂ) = w := Complex.ext rfl (by simp [h2])
      rwa [this]
    · rintro ⟨x, h1, h2, h3⟩
      exact ⟨x, h3, by simpa using abs_le.2 ⟨h1, h2⟩, by simp⟩
  unfold deParams
  split
  · rename_i h
    obtain ⟨x, h1, h2, h3⟩ := key.1 h
    constructor
    · rintro ⟨o, ho⟩
      cases ho
    · exact fun hf => absurd h3 (hf x h1 h2)
  · rename_i h
    constructor
    · exact fun _ x h1 h2 h3 => h (key.2 ⟨x, h1, h2, h3⟩)
    · intro _
      obtain ⟨r', e⟩ := deHeightLoop_total (r := 14 / 10) fun w hw => deHeight_pos hl (w := w) fun hc => h ⟨w, hw, hc⟩
      have : deRadius lam u = .ok (r' * (9 / 10)) := by
        unfold deRadius
        rw [e]
      rw [this]
      exact ⟨_, rfl⟩

/-- what a returned result contains -/
theorem deParams_ok {lam : ℝ} {m2 : ℝ → ℝ} {u : List ℂ} {j m prec : Nat} {o : DeOut} (h : deParams lam m2 u j m prec = .ok o) :
    (∀ w ∈ u, ¬ (|w.re| ≤ 1 ∧ w.im = 0)) ∧ deRadius lam u = .ok o.r ∧ o.h = deStep1 lam o.r m prec ∧ o.n = deCount lam o.h m prec ∧ o.l = lam ∧
    o.e = deError (deConstantM1 u m) (m2 o.r) o.h lam o.n o.r j m := by
  unfold deParams at h
  split at h
  · cases h
  · rename_i hn
    split at h <;> try cases h
    rename_i r e
    exact ⟨fun w hw hc => hn ⟨w, hw, hc⟩, e, rfl, rfl, rfl, rfl⟩

/-! ## C53: the error of the sums -/

/-- **C53 (a correct bound).** For every edge with its points split in two groups, every differential `(i, j)`, every scaling, half width, step and number of points: when
the open strip `|Im t| < ρ`, `ρ > r`, is free of preimages, `S` bounds `|z|^i / (∏ |z - u_k|)^(j/m)` on the two curves `tanh (l sinh (x ± i r))` and `M` bounds it on the path, the distance
between the sum over `|k| < N` and the integral is at most
`2 S b / (exp (2 π r / h) - 1) + M 2^(2α) exp (-2 α l sinh ((N-1) h)) / α`, with `α = 1 - j/m`, `b = (2 / cos r) (xr cos(y0)^(-2α) + sinh(xr)^(-2α) / (2α))`,
`y0 = l sin r`, `xr = cos r sqrt (π / (2 y0) - 1)`. -/
theorem C53_error_bound {m n1 d i j : Nat} (hm : 0 < m) (hj : j < m) (h1 : n1 ≤ d) {u : Nat → ℂ} {l r ρ h S M α y0 xr b : ℝ} (hl1 : 1 ≤ l) (hl2 : l ≤ Real.pi / 2)
    (hr : 0 < r) (hrρ : r < ρ) (hρ : ρ ≤ Real.pi / 2) (hsl : Real.pi * Real.sin r ≤ 2 * l) (hne : FreeStrip l ρ d u) (hpm : ∀ k < d, u k ≠ 1 ∧ u k ≠ -1) (hh : 0 < h)
    (hS : ∀ x y : ℝ, |y| = r → edgeSize m d i j u (deZ l (x + y * Complex.I)) ≤ S)
    (hM : ∀ x : ℝ, -1 < x → x < 1 → edgeSize m d i j u x ≤ M)
    (hα : α = 1 - j / m) (hy0 : y0 = l * Real.sin r) (hxr : xr = Real.cos r * Real.sqrt (Real.pi / 2 / y0 - 1))
    (hb : b = 2 / Real.cos r * (xr * Real.cos y0 ^ (-(2 * α)) + Real.sinh xr ^ (-(2 * α)) / (2 * α)))
    {N : Nat} (hN : 0 < N) (hc : 1 / 2 ≤ 2 * α * l ∨ 1 ≤ 2 * α * l * Real.sinh ((N - 1 : ℕ) * h)) :
    ‖trapSum m n1 d u l i j h N - edgeIntegral m n1 d u i j‖ ≤
      2 * (S * b) / (Real.exp (2 * Real.pi * r / h) - 1) + M * 2 ^ (2 * α) / α * Real.exp (-(2 * α * l * Real.sinh ((N - 1 : ℕ) * h))) := by
  have hr2 : r < Real.pi / 2 := by linarith
  have hl : 0 < l := by linarith
  have ha : 0 < α := by
    rw [hα, sub_pos, div_lt_one (by exact_mod_cast hm)]
    exact_mod_cast hj
  have hM0 : 0 ≤ M := by
    refine le_trans ?_ (hM 0 (by norm_num) (by norm_num))
    unfold edgeSize
    positivity
  have hS0 : 0 ≤ S := by
    refine le_trans ?_ (hS 0 r (abs_of_pos hr))
    unfold edgeSize
    positivity
  have hB : ∀ y, |y| = r → ∫ x : ℝ, deWeight l (1 - j / m) (x + y * Complex.I) * edgeSize m d i j u (deZ l (x + y * Complex.I)) ≤ S * b := by
    intro y hy
    refine (line_integral_le hm hj hl hl2 hr2 hS hy).trans (mul_le_mul_of_nonneg_left ?_ hS0)
    rw [← hα]
    have := line_const hl1 hl2 ha hr hr2 hsl hy
    rwa [← hy0, ← hxr, ← hb] at this
  have := (de_err_of (M := M) (n1 := n1) hm hj h1 hl hl2 hr hrρ hρ hne hpm hh hB).2.2 N hN hM0 hM (by rw [← hα]; exact hc)
  rwa [← hα] at this

/-- **C53 (partial).** In the terms of `de_error`: under the same hypotheses, when `m1` and `m2` are bounds for the differential `(i, j)` the error is at most
*four* times the first part plus `l` times the second part *taken at `n - 1`*. The code adds the two parts without these factors, at `n`, and only for the first exponent `j`. -/
theorem C53_de_error_partial {m n1 d i j : Nat} (hm : 0 < m) (hj : j < m) (h1 : n1 ≤ d) {u : Nat → ℂ} {l r ρ h m1 m2 : ℝ} (hl1 : 1 ≤ l) (hl2 : l ≤ Real.pi / 2)
    (hr : 0 < r) (hrρ : r < ρ) (hρ : ρ ≤ Real.pi / 2) (hsl : Real.pi * Real.sin r ≤ 2 * l) (hne : FreeStrip l ρ d u) (hpm : ∀ k < d, u k ≠ 1 ∧ u k ≠ -1) (hh : 0 < h)
    (hS : ∀ x y : ℝ, |y| = r → edgeSize m d i j u (deZ l (x + y * Complex.I)) ≤ m2)
    (hM : ∀ x : ℝ, -1 < x → x < 1 → edgeSize m d i j u x ≤ m1)
    {n : Nat} (hn : 0 < n) (hc : 1 / 2 ≤ 2 * (1 - j / m) * l ∨ 1 ≤ 2 * (1 - j / m) * l * Real.sinh ((n - 1 : ℕ) * h)) :
    ‖trapSum m n1 d u l i j h n - edgeIntegral m n1 d u i j‖ ≤ 4 * deErrorQ m2 h l r j m + l * deErrorT m1 h l (n - 1) j m := by
  have hpi := Real.pi_pos
  have hr2 : r < Real.pi / 2 := by linarith
  have hl : 0 < l := by linarith
  have hmR : (0 : ℝ) < m := by exact_mod_cast hm
  have hjR : (j : ℝ) < m := by exact_mod_cast hj
  set a : ℝ := 1 - j / m with hadef
  have ha : 0 < a := by
    rw [hadef, sub_pos, div_lt_one hmR]
    exact hjR
  have ea : (m - j : ℝ) / m = a := by rw [hadef]; field_simp
  have hS0 : 0 ≤ m2 := by
    refine le_trans ?_ (hS 0 r (abs_of_pos hr))
    unfold edgeSize
    positivity
  have hsin : 0 < Real.sin r := Real.sin_pos_of_pos_of_lt_pi hr (by linarith)
  have hcos : 0 < Real.cos r := Real.cos_pos_of_mem_Ioo ⟨by linarith, hr2⟩
  have hs1 : Real.sin r < 1 := by
    have := Real.sin_sq_add_cos_sq r
    nlinarith
  have hy0 : 0 < l * Real.sin r := mul_pos hl hsin
  have hy1 : l * Real.sin r < Real.pi / 2 := by nlinarith
  have hq : 0 < Real.pi / 2 / (l * Real.sin r) - 1 := by
    rw [sub_pos, one_lt_div hy0]
    exact hy1
  have hcy : 0 < Real.cos (l * Real.sin r) := Real.cos_pos_of_mem_Ioo ⟨by linarith, hy1⟩
  have main := C53_error_bound (n1 := n1) hm hj h1 hl1 hl2 hr hrρ hρ hsl hne hpm hh hS hM hadef rfl rfl rfl hn hc
  refine main.trans (add_le_add ?_ (le_of_eq ?_))
  · unfold deErrorQ deConstantB
    simp only
    set xr := Real.cos r * Real.sqrt (Real.pi / 2 / (l * Real.sin r) - 1) with hxr
    have hx0 : 0 < xr := mul_pos hcos (Real.sqrt_pos.2 hq)
    have hsx : 0 < Real.sinh xr := Real.sinh_pos_iff.2 hx0
    have e1 : 2 * (m - j : ℝ) / m = 2 * a := by rw [← ea]; ring
    have e2 : 2 * (Real.pi * r) / h = 2 * Real.pi * r / h := by ring
    rw [e1, e2, Real.rpow_neg hcy.le, Real.rpow_neg hsx.le]
    have e3 : Real.sinh xr ^ (2 * a) * (m - j) / m = Real.sinh xr ^ (2 * a) * a := by rw [← ea]; ring
    rw [e3]
    have p1 := Real.rpow_pos_of_pos hx0 (2 * a)
    have p2 := Real.rpow_pos_of_pos hcy (2 * a)
    have p3 := Real.rpow_pos_of_pos hsx (2 * a)
    have hE : 0 < Real.exp (2 * Real.pi * r / h) - 1 := by
      rw [sub_pos]
      exact Real.one_lt_exp_iff.2 (by positivity)
    have key : 2 / Real.cos r * (xr * (Real.cos (l * Real.sin r) ^ (2 * a))⁻¹ + (Real.sinh xr ^ (2 * a))⁻¹ / (2 * a)) ≤
        2 * ((((xr ^ (2 * a))⁻¹ + (Real.cos (l * Real.sin r) ^ (2 * a))⁻¹) * xr + (Real.sinh xr ^ (2 * a) * a)⁻¹ * 2) / Real.cos r) := by
      rw [← mul_div_assoc, div_mul_eq_mul_div]
      apply div_le_div_of_nonneg_right _ hcos.le
      have q1 : 0 ≤ (xr ^ (2 * a))⁻¹ * xr := by positivity
      have q2 : (Real.sinh xr ^ (2 * a))⁻¹ / (2 * a) = (Real.sinh xr ^ (2 * a) * a)⁻¹ / 2 := by field_simp
      have q3 : 0 ≤ (Real.sinh xr ^ (2 * a) * a)⁻¹ := by positivity
      rw [q2]
      nlinarith
    calc _ ≤ 2 * (m2 * (2 * ((((xr ^ (2 * a))⁻¹ + (Real.cos (l * Real.sin r) ^ (2 * a))⁻¹) * xr + (Real.sinh xr ^ (2 * a) * a)⁻¹ * 2) / Real.cos r))) /
          (Real.exp (2 * Real.pi * r / h) - 1) := by gcongr
      _ = _ := by ring
  · unfold deErrorT
    have e1 : (l * Real.sinh (h * (n - 1 : ℕ)) - Real.log 2) * (2 * (m - j)) / m = 2 * a * l * Real.sinh ((n - 1 : ℕ) * h) - Real.log 2 * (2 * a) := by
      rw [← ea, mul_comm h]
      field_simp
    have e2 : Real.exp ((l * Real.sinh (h * (n - 1 : ℕ)) - Real.log 2) * (2 * (m - j)) / m) * (m - j) / m * l =
        Real.exp (2 * a * l * Real.sinh ((n - 1 : ℕ) * h) - Real.log 2 * (2 * a)) * (a * l) := by
      rw [e1, ← ea]
      ring
    rw [e2, Real.exp_sub, Real.exp_neg, Real.rpow_def_of_pos two_pos]
    field_simp

theorem freeStrip_of_list {lam ρ : ℝ} {d : Nat} {u : Nat → ℂ} (h : ∀ w ∈ (List.range d).map u, ∀ t : ℂ, |t.im| < ρ → deZ lam t ≠ w) : FreeStrip lam ρ d u :=
  fun k hk t ht => h (u k) (List.mem_map.2 ⟨k, List.mem_range.2 hk, rfl⟩) t ht

theorem ne_one_of_list {d : Nat} {u : Nat → ℂ} (h : ∀ w ∈ (List.range d).map u, ¬ (|w.re| ≤ 1 ∧ w.im = 0)) : ∀ k < d, u k ≠ 1 ∧ u k ≠ -1 := by
  intro k hk
  have := h (u k) (List.mem_map.2 ⟨k, List.mem_range.2 hk, rfl⟩)
  constructor <;> intro e <;> apply this <;> rw [e] <;> simp

/-- **C53 (what de_params returns).** With the half width and the scaling returned by `de_params` the hypotheses on the strip always hold, and bounds `m1`, `m2` for the differential exist: the partial bound
applies to every edge without a point on it, every differential and every precision for which the first node is beyond the maximum of the weight. -/
theorem C53_params_partial {lam : ℝ} (hl1 : 3 / 2 ≤ lam) (hl2 : lam ≤ Real.pi / 2) {m2 : ℝ → ℝ} {m n1 d i j j1 prec : Nat} (hm : 0 < m) (hj : j < m) (h1 : n1 ≤ d)
    {u : Nat → ℂ} {o : DeOut} (ho : deParams lam m2 ((List.range d).map u) j1 m prec = .ok o) (hh : 0 < o.h) (hn : 0 < o.n)
    (hc : 1 / 2 ≤ 2 * (1 - j / m : ℝ) * lam ∨ 1 ≤ 2 * (1 - j / m : ℝ) * lam * Real.sinh ((o.n - 1 : ℕ) * o.h)) :
    (∃ S M : ℝ, (∀ x y : ℝ, |y| = o.r → edgeSize m d i j u (deZ lam (x + y * Complex.I)) ≤ S) ∧ (∀ x : ℝ, -1 < x → x < 1 → edgeSize m d i j u x ≤ M)) ∧
    ∀ S M : ℝ, (∀ x y : ℝ, |y| = o.r → edgeSize m d i j u (deZ lam (x + y * Complex.I)) ≤ S) → (∀ x : ℝ, -1 < x → x < 1 → edgeSize m d i j u x ≤ M) →
      ‖trapSum m n1 d u o.l i j o.h o.n - edgeIntegral m n1 d u i j‖ ≤ 4 * deErrorQ S o.h o.l o.r j m + o.l * deErrorT M o.h o.l (o.n - 1) j m := by
  obtain ⟨a1, a2, -, -, a5, -⟩ := deParams_ok ho
  have hl : 0 < lam := by linarith
  obtain ⟨s1, s2, ρ, s3, s4, s5⟩ := C54_strip hl hl2 a2
  have hpi := Real.pi_gt_d2
  have hpi2 := Real.pi_lt_d4
  have hρ : ρ ≤ Real.pi / 2 := by linarith
  have hne := freeStrip_of_list s5
  have hpm := ne_one_of_list a1
  constructor
  · obtain ⟨S, -, hS⟩ := line_bound_exists (m := m) (i := i) (j := j) hl hl2 s1.le s3 hρ hne hpm
    obtain ⟨M, -, hM⟩ := path_bound_exists (m := m) (i := i) (j := j) hl (s1.trans s3) hne hpm
    exact ⟨S, M, hS, hM⟩
  · intro S M hS hM
    rw [a5]
    have hsin : Real.sin o.r ≤ 0.953 := by
      have h1 : Real.sin o.r = Real.cos (Real.pi / 2 - o.r) := (Real.cos_pi_div_two_sub _).symm
      have hx : 0.31 ≤ Real.pi / 2 - o.r := by linarith
      have hx2 : Real.cos (Real.pi / 2 - o.r) ≤ Real.cos 0.31 := Real.cos_le_cos_of_nonneg_of_le_pi (by norm_num) (by linarith) hx
      have h3 : Real.cos 0.31 ≤ 1 - 0.31 ^ 2 / 2 + 0.31 ^ 4 * (5 / 96) := by
        have := Real.cos_bound (x := 0.31) (by rw [abs_of_pos] <;> norm_num)
        rw [abs_of_pos (a := (0.31 : ℝ)) (by norm_num)] at this
        linarith [(abs_le.1 this).2]
      rw [h1]
      refine hx2.trans (h3.trans ?_)
      norm_num
    refine C53_de_error_partial hm hj h1 (by linarith) hl2 s1 s3 hρ ?_ hne hpm hh hS hM hn hc
    have hs0 : 0 ≤ Real.sin o.r := Real.sin_nonneg_of_nonneg_of_le_pi s1.le (by linarith)
    nlinarith

/-- **C53 (negation).** The radius is not a bound as soon as there is a second exponent. Take any real edge: branch points `u_0, …` at the right of the edge and the others at its left, any exponents
`1 ≤ j1 < j < m`, any value of `lambda` and whatever bounds `m2` are used. For every precision from some point on, `de_params` (called, as the integrator does, with the first exponent `j1`) returns a
radius *smaller* than the error of the sum for `dx / y^j`. -/
theorem C53_fails {lam : ℝ} (hl : 0 < lam) (hl2 : lam ≤ Real.pi / 2) (m2 : ℝ → ℝ) {m n1 d j1 j : Nat} (hj1 : 1 ≤ j1) (hjj : j1 < j) (hj : j < m) (hn1 : n1 ≤ d) {u : Nat → ℝ}
    (h1 : ∀ k < n1, 1 < u k) (h2 : ∀ k, n1 ≤ k → k < d → u k < -1) :
    ∃ P0 : Nat, ∀ prec : Nat, P0 ≤ prec → ∃ o, deParams lam m2 ((List.range d).map fun k => (u k : ℂ)) j1 m prec = .ok o ∧
      o.e < ‖trapSum m n1 d (fun k => u k) o.l 0 j o.h o.n - edgeIntegral m n1 d (fun k => u k) 0 j‖ := by
  have hm : 2 ≤ m := by omega
  set ul := (List.range d).map fun k => (u k : ℂ) with hul
  have hout : ∀ prec, ∃ o, deParams lam m2 ul j1 m prec = .ok o := by
    intro prec
    rw [C54_returns hl]
    intro x x1 x2 hx
    rw [hul, List.mem_map] at hx
    obtain ⟨k, hk, e⟩ := hx
    have e : u k = x := by exact_mod_cast e
    rcases lt_or_ge k n1 with h | h
    · linarith [h1 k h]
    · linarith [h2 k h (List.mem_range.1 hk)]
  obtain ⟨o0, ho0⟩ := hout 1
  obtain ⟨a1, a2, -⟩ := deParams_ok ho0
  set r := o0.r with hrdef
  obtain ⟨s1, s2, ρ, s3, s4, s5⟩ := C54_strip hl hl2 a2
  have hpi := Real.pi_gt_d2
  have hρ : ρ ≤ Real.pi / 2 := by linarith
  have hr2 : r < Real.pi / 2 := by linarith
  have hne : FreeStrip lam ρ d fun k => u k := freeStrip_of_list s5
  obtain ⟨c, K, hc, hlow⟩ := de_lower hm hj hn1 hl hl2 s1 s3 hρ hne h1 h2
  obtain ⟨K', hK'0, hup⟩ := deError_upper (m := m) (j := j1) hm hj1 (by omega) hl hl2 s1 hr2 (deConstantM1 ul m) (m2 r)
  have hmR : (2 : ℝ) ≤ m := by exact_mod_cast hm
  have hjR : (j : ℝ) + 1 ≤ m := by exact_mod_cast hj
  have hj1R : (1 : ℝ) ≤ j1 := by exact_mod_cast hj1
  have hjjR : (j1 : ℝ) < j := by exact_mod_cast hjj
  have hlog : 0 < Real.log 2 := Real.log_pos one_lt_two
  set θ : ℝ := (m - j) / (m - 1) with hθ
  set θ1 : ℝ := (m - j1) / (m - 1) with hθ1
  have hs : 0 < θ1 - θ := by
    rw [hθ, hθ1, ← sub_div]
    apply div_pos <;> linarith
  have hθ1le : θ1 ≤ 1 := by
    rw [hθ1, div_le_one (by linarith)]
    linarith
  have hL := deL0_nonneg hm hl hl2 s1 hr2
  obtain ⟨D0, hD0⟩ := exp_beats (K := K' + |K|) hc hL hs (by positivity)
  obtain ⟨P0, hP0⟩ := exists_nat_ge ((|D0| + 1) / Real.log 2)
  refine ⟨P0 + 1, fun prec hp => ?_⟩
  have hp1 : 1 ≤ prec := by omega
  obtain ⟨o, ho⟩ := hout prec
  refine ⟨o, ho, ?_⟩
  obtain ⟨-, b2, b3, b4, b5, b6⟩ := deParams_ok ho
  have hro : o.r = r := by
    rw [a2] at b2
    exact (Res.ok.inj b2).symm
  rw [b6, b5, b4, b3, hro]
  refine lt_of_le_of_lt (hup prec hp1) (lt_of_lt_of_le ?_ (hlow prec hp1))
  set D := prec * Real.log 2 with hD
  have hDD : |D0| + 1 ≤ D := by
    rw [div_le_iff₀ hlog] at hP0
    have : (P0 : ℝ) ≤ prec := by exact_mod_cast (by omega : P0 ≤ prec)
    have := mul_le_mul_of_nonneg_right this hlog.le
    linarith
  have hb := hD0 D (by linarith [le_abs_self D0]) (by linarith [abs_nonneg D0])
  have hden : 0 < D + deL0 lam r m := by linarith [abs_nonneg D0]
  have e1 : Real.exp ((θ1 - θ) * D) = Real.exp (-(θ * D)) * Real.exp (θ1 * D) := by rw [← Real.exp_add]; congr 1; ring
  have e2 : Real.exp (-D) ≤ Real.exp (-(θ1 * D)) := by
    apply Real.exp_le_exp.2
    have : θ1 * D ≤ 1 * D := mul_le_mul_of_nonneg_right hθ1le (by linarith [abs_nonneg D0])
    linarith
  have e3 : K * Real.exp (-D) ≤ |K| * Real.exp (-(θ1 * D)) := by
    calc K * Real.exp (-D) ≤ |K| * Real.exp (-D) := mul_le_mul_of_nonneg_right (le_abs_self K) (Real.exp_pos _).le
      _ ≤ _ := mul_le_mul_of_nonneg_left e2 (abs_nonneg K)
  rw [e1] at hb
  have hfin : (K' + |K|) * Real.exp (-(θ1 * D)) < c / (D + deL0 lam r m) * Real.exp (-(θ * D)) := by
    rw [div_mul_eq_mul_div c, lt_div_iff₀ hden]
    have h5 := mul_lt_mul_of_pos_right hb (Real.exp_pos (-(θ1 * D)))
    have e5 : c * (Real.exp (-(θ * D)) * Real.exp (θ1 * D)) * Real.exp (-(θ1 * D)) = c * Real.exp (-(θ * D)) := by
      rw [mul_assoc, mul_assoc, ← Real.exp_add (θ1 * D), add_neg_cancel, Real.exp_zero, mul_one]
    rw [e5] at h5
    linarith
  linarith

/-! ## C55: the precision reached -/

/-- **C55.** For every edge, every differential `(i, j)` and every `lambda`, there is a constant `K` such that at every precision the sum with the parameters of `de_params` is at distance at most
`K 2^(-prec (m-j)/(m-1))` of the integral. For `j = 1` this is the requested precision. -/
theorem C55_precision {lam : ℝ} (hl : 0 < lam) (hl2 : lam ≤ Real.pi / 2) (m2 : ℝ → ℝ) {m n1 d i j j1 : Nat} (hj0 : 1 ≤ j) (hj : j < m) (h1 : n1 ≤ d) (u : Nat → ℂ) :
    ∃ K : ℝ, ∀ (prec : Nat) (o : DeOut), 1 ≤ prec → deParams lam m2 ((List.range d).map u) j1 m prec = .ok o →
      ‖trapSum m n1 d u o.l i j o.h o.n - edgeIntegral m n1 d u i j‖ ≤ K * 2 ^ (-((m - j) / (m - 1) * prec : ℝ)) := by
  by_cases hex : ∃ prec o, deParams lam m2 ((List.range d).map u) j1 m prec = .ok o
  · obtain ⟨p0, o0, ho0⟩ := hex
    obtain ⟨a1, a2, -⟩ := deParams_ok ho0
    obtain ⟨s1, s2, ρ, s3, s4, s5⟩ := C54_strip hl hl2 a2
    have hpi := Real.pi_gt_d2
    obtain ⟨K, hK⟩ := de_upper (n1 := n1) (i := i) (j := j) (m := m) (by omega) hj0 hj h1 hl hl2 s1 s3 (by linarith) (freeStrip_of_list s5) (ne_one_of_list a1)
    refine ⟨K, fun prec o hp ho => ?_⟩
    obtain ⟨-, b2, b3, b4, b5, -⟩ := deParams_ok ho
    have hro : o.r = o0.r := by
      rw [a2] at b2
      exact (Res.ok.inj b2).symm
    rw [b5, b4, b3, hro, Real.rpow_def_of_pos two_pos]
    refine (hK prec hp).trans (le_of_eq ?_)
    congr 2
    ring
  · exact ⟨0, fun prec o _ ho => absurd ⟨prec, o, ho⟩ hex⟩

/-! ## Instances -/

/-- an edge of the curve `y^3 = (x^2-1)(x^2-4)`, of genus 3 with differentials of exponents 1 and 2: the hypotheses of `C53_fails` hold -/
example : ∃ c, secInit 3 4 = .ok c ∧ c.shape.j1 = 1 ∧ c.shape.n - 2 = 2 ∧ Spec.diffOf c.shape.ni c.shape.j1 1 = (0, 2) ∧
    (∀ m2 : ℝ → ℝ, ∃ P0 : Nat, ∀ prec : Nat, P0 ≤ prec → ∃ o, deParams (Real.pi / 2) m2 ((List.range 2).map fun k => (((if k = 0 then 2 else -2 : ℝ) : ℝ) : ℂ)) 1 3 prec = .ok o ∧
      o.e < ‖trapSum 3 1 2 (fun k => ((if k = 0 then 2 else -2 : ℝ) : ℝ)) o.l 0 2 o.h o.n - edgeIntegral 3 1 2 (fun k => ((if k = 0 then 2 else -2 : ℝ) : ℝ)) 0 2‖) := by
  refine ⟨_, rfl, by decide, by decide, by decide, fun m2 => ?_⟩
  refine C53_fails (u := fun k => if k = 0 then 2 else -2) (by positivity) le_rfl m2 le_rfl (by norm_num) (by norm_num) (by norm_num) ?_ ?_
  · intro k hk
    have : k = 0 := by omega
    norm_num [this]
  · intro k h1 h2
    have : k ≠ 0 := by omega
    norm_num [this]

/-- a complex edge: `de_params` returns, and `C54_strip`, `C53_params_partial` and `C55_precision` apply -/
example (m2 : ℝ → ℝ) : ∃ o, deParams (Real.pi / 2) m2 ((List.range 2).map fun k => if k = 0 then (⟨0, 1⟩ : ℂ) else ⟨2, -1⟩) 1 3 100 = .ok o ∧ 0 < o.h ∧ 0 < o.n ∧
    1 / 2 ≤ 2 * (1 - (1 : ℕ) / (3 : ℕ) : ℝ) * (Real.pi / 2) := by
  have hpi := Real.pi_gt_d2
  obtain ⟨o, ho⟩ := (C54_returns (lam := Real.pi / 2) (by positivity) m2 ((List.range 2).map fun k => if k = 0 then (⟨0, 1⟩ : ℂ) else ⟨2, -1⟩) 1 3 100).2 (by
    intro x x1 x2 hx
    rw [List.mem_map] at hx
    obtain ⟨k, -, e⟩ := hx
    have := congrArg Complex.im e
    split at this <;> simp at this)
  obtain ⟨-, b2, b3, b4, -, -⟩ := deParams_ok ho
  obtain ⟨s1, s2, -⟩ := C54_strip (by positivity) le_rfl b2
  obtain ⟨K, -, hK⟩ := deCount_bounds (m := 3) (by norm_num) (by positivity : 0 < Real.pi / 2) le_rfl s1 (by linarith)
  obtain ⟨k1, k2, -⟩ := hK 100 (by norm_num)
  refine ⟨o, ho, by rw [b3]; exact k1, by rw [b4, b3]; exact k2, ?_⟩
  push_cast
  linarith

end Hcp
