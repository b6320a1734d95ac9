import Verif.Model.Curve
import Verif.Spec.Curve
import Mathlib.Algebra.BigOperators.Intervals
import Mathlib.Algebra.Order.BigOperators.Group.Finset
import Mathlib.Data.Nat.Factorization.Basic
import Mathlib.Algebra.BigOperators.Ring.Finset
import Mathlib.Tactic.Linarith
import Mathlib.Tactic.Ring
import Mathlib.Tactic.LinearCombination

namespace Hcp
open Finset

theorem toUlong_of_nonneg {x : Int} (h0 : 0 ≤ x) (h1 : x < 2 ^ 64) : toUlong x = x.toNat := by
  unfold toUlong
  rw [Int.emod_eq_of_lt h0 h1]

/-- floor sum pairing -/
theorem floor_pair {m n δ j : ℤ} (hm : 0 < m) (hδ0 : 0 < δ) (hδm : δ ∣ m) (hδn : δ ∣ n) :
    (j * n - δ) / m + ((m - j) * n - δ) / m = n - 1 - (if m ∣ j * n then 1 else 0) := by
  have hle : δ ≤ m := Int.le_of_dvd hm hδm
  set q := j * n / m with hq
  set r := j * n % m with hr
  have hqr : m * q + r = j * n := Int.mul_ediv_add_emod _ _
  have hr0 : 0 ≤ r := Int.emod_nonneg _ hm.ne'
  have hrm : r < m := Int.emod_lt_of_pos _ hm
  have hδr : δ ∣ r := by
    have : r = j * n - m * q := by linarith
    rw [this]; exact dvd_sub (Dvd.dvd.mul_left hδn _) (Dvd.dvd.mul_right hδm _)
  by_cases h : m ∣ j * n
  · have hr' : r = 0 := Int.emod_eq_zero_of_dvd h
    have e1 : (j * n - δ) / m = q - 1 := by
      have : j * n - δ = (m - δ) + m * (q - 1) := by rw [← hqr, hr']; ring
      rw [this, Int.add_mul_ediv_left _ _ hm.ne', Int.ediv_eq_zero_of_lt (by linarith) (by linarith)]
      ring
    have e2 : ((m - j) * n - δ) / m = n - q - 1 := by
      have : (m - j) * n - δ = (m - δ) + m * (n - q - 1) := by
        have : (m - j) * n = m * n - j * n := by ring
        rw [this, ← hqr, hr']; ring
      rw [this, Int.add_mul_ediv_left _ _ hm.ne', Int.ediv_eq_zero_of_lt (by linarith) (by linarith)]
      ring
    rw [e1, e2, if_pos h]; ring
  · have hr' : r ≠ 0 := fun h' => h (Int.dvd_of_emod_eq_zero h')
    have hrδ : δ ≤ r := Int.le_of_dvd (lt_of_le_of_ne hr0 (Ne.symm hr')) hδr
    have hmr : δ ≤ m - r := Int.le_of_dvd (by linarith) (dvd_sub hδm hδr)
    have e1 : (j * n - δ) / m = q := by
      have : j * n - δ = (r - δ) + m * q := by rw [← hqr]; ring
      rw [this, Int.add_mul_ediv_left _ _ hm.ne', Int.ediv_eq_zero_of_lt (by linarith) (by linarith)]
      ring
    have e2 : ((m - j) * n - δ) / m = n - q - 1 := by
      have : (m - j) * n - δ = (m - r - δ) + m * (n - q - 1) := by
        have : (m - j) * n = m * n - j * n := by ring
        rw [this, ← hqr]; ring
      rw [this, Int.add_mul_ediv_left _ _ hm.ne', Int.ediv_eq_zero_of_lt (by linarith) (by linarith)]
      ring
    rw [e1, e2, if_neg h]; ring

theorem count_dvd {m n : ℕ} (hm : 0 < m) :
    ((Finset.Ico 1 m).filter (fun j : ℕ => (m : ℤ) ∣ (j : ℤ) * n)).card = Nat.gcd m n - 1 := by
  have hg : 0 < Nat.gcd m n := Nat.gcd_pos_of_pos_left _ hm
  have hk : ∀ j : ℕ, ((m : ℤ) ∣ (j : ℤ) * n) ↔ (m / Nat.gcd m n) ∣ j := by
    intro j
    rw [← Int.natCast_mul, Int.natCast_dvd_natCast]
    exact (Nat.Coprime.dvd_mul_right (n := n / Nat.gcd m n) (Nat.coprime_div_gcd_div_gcd hg) |>.symm.trans (by
      constructor
      · intro h
        obtain ⟨c, hc⟩ := h
        refine ⟨c, ?_⟩
        have h1 : n = Nat.gcd m n * (n / Nat.gcd m n) := (Nat.mul_div_cancel' (Nat.gcd_dvd_right m n)).symm
        have h2 : m = Nat.gcd m n * (m / Nat.gcd m n) := (Nat.mul_div_cancel' (Nat.gcd_dvd_left m n)).symm
        calc j * n = j * (Nat.gcd m n * (n / Nat.gcd m n)) := by rw [← h1]
          _ = Nat.gcd m n * (j * (n / Nat.gcd m n)) := by ring
          _ = Nat.gcd m n * ((m / Nat.gcd m n) * c) := by rw [hc]
          _ = Nat.gcd m n * (m / Nat.gcd m n) * c := by ring
          _ = m * c := by rw [← h2]
      · rintro ⟨c, hc⟩
        refine ⟨c, ?_⟩
        have h1 : n = Nat.gcd m n * (n / Nat.gcd m n) := (Nat.mul_div_cancel' (Nat.gcd_dvd_right m n)).symm
        have h2 : m = Nat.gcd m n * (m / Nat.gcd m n) := (Nat.mul_div_cancel' (Nat.gcd_dvd_left m n)).symm
        apply Nat.eq_of_mul_eq_mul_left hg
        calc Nat.gcd m n * (j * (n / Nat.gcd m n)) = j * (Nat.gcd m n * (n / Nat.gcd m n)) := by ring
          _ = j * n := by rw [← h1]
          _ = m * c := hc
          _ = Nat.gcd m n * (m / Nat.gcd m n) * c := by rw [← h2]
          _ = Nat.gcd m n * ((m / Nat.gcd m n) * c) := by ring)).symm
  have e : (Finset.Ico 1 m).filter (fun j : ℕ => (m : ℤ) ∣ (j : ℤ) * n)
      = (Finset.Ioc 0 (m - 1)).filter (fun j => (m / Nat.gcd m n) ∣ j) := by
    ext j
    simp only [Finset.mem_filter, Finset.mem_Ico, Finset.mem_Ioc, hk]
    omega
  rw [e, Nat.Ioc_filter_dvd_card_eq_div]
  set d := Nat.gcd m n
  have hd : d ∣ m := Nat.gcd_dvd_left m n
  obtain ⟨k, hk⟩ := hd
  have hkp : 0 < k := by
    rcases Nat.eq_zero_or_pos k with h | h
    · subst h; omega
    · exact h
  rw [hk, Nat.mul_div_cancel_left _ hg]
  have : d * k - 1 = (k - 1) + k * (d - 1) := by
    obtain ⟨d', hd'⟩ : ∃ d', d = d' + 1 := ⟨d - 1, by omega⟩
    rw [hd']
    have : (d' + 1) * k = d' * k + k := by ring
    rw [this]; simp only [Nat.add_sub_cancel]
    rw [Nat.mul_comm k d']; omega
  rw [this, Nat.add_mul_div_left _ _ hkp, Nat.div_eq_of_lt (by omega)]
  omega

theorem floor_sum {m n : ℕ} (hm : 0 < m) :
    2 * ∑ j ∈ Finset.Ico 1 m, (((j : ℤ) * n - (Nat.gcd m n : ℕ)) / (m : ℤ))
      = ((m : ℤ) - 1) * (n - 1) - ((Nat.gcd m n : ℤ) - 1) := by
  have hg : 0 < Nat.gcd m n := Nat.gcd_pos_of_pos_left _ hm
  set f : ℕ → ℤ := fun j => (((j : ℤ) * n - (Nat.gcd m n : ℕ)) / (m : ℤ)) with hf
  have hrefl : ∑ j ∈ Finset.Ico 1 m, f j = ∑ j ∈ Finset.Ico 1 m, f (m - j) := by
    refine Finset.sum_bij' (fun j _ => m - j) (fun j _ => m - j) ?_ ?_ ?_ ?_ ?_
    · intro j hj; simp only [Finset.mem_Ico] at *; omega
    · intro j hj; simp only [Finset.mem_Ico] at *; omega
    · intro j hj; simp only [Finset.mem_Ico] at *; omega
    · intro j hj; simp only [Finset.mem_Ico] at *; omega
    · intro j hj
      simp only [Finset.mem_Ico] at hj
      congr 1; omega
  have h2 : 2 * ∑ j ∈ Finset.Ico 1 m, f j = ∑ j ∈ Finset.Ico 1 m, (f j + f (m - j)) := by
    rw [Finset.sum_add_distrib, ← hrefl]; ring
  have h3 : ∑ j ∈ Finset.Ico 1 m, (f j + f (m - j))
      = ∑ j ∈ Finset.Ico 1 m, ((n : ℤ) - 1 - (if (m : ℤ) ∣ (j : ℤ) * n then 1 else 0)) := by
    apply Finset.sum_congr rfl
    intro j hj
    simp only [Finset.mem_Ico] at hj
    have := floor_pair (m := m) (n := n) (δ := (Nat.gcd m n : ℕ)) (j := j) (by exact_mod_cast hm)
      (by exact_mod_cast hg) (by exact_mod_cast Nat.gcd_dvd_left m n) (by exact_mod_cast Nat.gcd_dvd_right m n)
    simp only [hf]
    rw [Nat.cast_sub (by omega)]
    exact this
  rw [h2, h3, Finset.sum_sub_distrib, Finset.sum_boole, count_dvd hm]
  simp only [Finset.sum_const, Nat.card_Ico, nsmul_eq_mul]
  rw [Nat.cast_sub (by omega), Nat.cast_sub (by omega)]
  push_cast; ring


/-! ## Extraction of the machine computation -/

theorem chk_eq_ok {x y : Int} : chk x = .ok y ↔ FitsSlong x ∧ y = x := by
  unfold chk; split
  · rename_i h; simp [h, eq_comm]
  · rename_i h; simp [h]

theorem cdiv_eq_ok {x y z : Int} : cdiv x y = .ok z ↔ y ≠ 0 ∧ FitsSlong (x.tdiv y) ∧ z = x.tdiv y := by
  unfold cdiv; split
  · rename_i h; simp [h]
  · rename_i h; simp [h, chk_eq_ok]

/-- mathematical value of `imax` -/
def imaxV (j m n d : Int) : Int := if (j * n - d).tdiv m < n then (j * n - d).tdiv m else n - 1

theorem imax_eq_ok {j m n d i : Int} (h : imax j m n d = .ok i) : i = imaxV j m n d := by
  simp only [imax, Res.bind_eq_ok, chk_eq_ok, cdiv_eq_ok] at h
  obtain ⟨a, ⟨_, rfl⟩, b, ⟨_, rfl⟩, c, ⟨_, _, rfl⟩, h⟩ := h
  unfold imaxV
  split at h
  · rename_i h'; rw [if_pos h']; simpa [eq_comm] using h
  · rename_i h'; rw [if_neg h']; simpa [chk_eq_ok] using (chk_eq_ok.1 h).2

theorem niLoop_eq_ok {m n d j1 : Int} : ∀ {k : Nat} {j : Int} {l : List Int},
    niLoop m n d j1 k j = .ok l → l = (List.range k).map (fun t : Nat => imaxV (j1 + j + t) m n d)
  | 0, _, l, h => by simp only [niLoop, Res.ok.injEq] at h; simp [← h]
  | k + 1, j, l, h => by
      simp only [niLoop, Res.bind_eq_ok, chk_eq_ok] at h
      obtain ⟨a, ⟨_, rfl⟩, i, hi, rest, hr, h⟩ := h
      have e := niLoop_eq_ok hr
      have ei := imax_eq_ok hi
      simp only [Res.ok.injEq] at h
      rw [← h, e, ei, List.range_succ_eq_map, List.map_cons, List.map_map]
      congr 1
      · simp
      · apply List.map_congr_left
        intro t _
        simp only [Function.comp]
        congr 1
        push_cast; ring

/-- Everything a successful `sec_init` returns, in closed form. -/
theorem secInit_eq_ok {m n : Int} {c : Sec} (h : secInit m n = .ok c) :
    2 ≤ m ∧ n ≠ 0 ∧ FitsSlong (m - 1) ∧ FitsSlong (n - 1) ∧
    c.m = m ∧ c.n = n ∧ c.delta = (Nat.gcd (toUlong m) (toUlong n) : Nat) ∧
    c.g = ((m - 1) * (n - 1) - c.delta + 1).tdiv 2 ∧
    c.j1 = 1 + (m + c.delta - 1).tdiv n ∧
    c.nj = m - c.j1 ∧ 0 ≤ c.nj ∧
    c.ni = (List.range c.nj.toNat).map (fun t : Nat => imaxV (c.j1 + t) m n c.delta) := by
  unfold secInit at h
  split at h
  · simp at h
  rename_i hm
  simp only [Res.bind_eq_ok, chk_eq_ok, cdiv_eq_ok, jmin] at h
  obtain ⟨m1, ⟨f1, rfl⟩, n1, ⟨f2, rfl⟩, p, ⟨_, rfl⟩, q, ⟨_, rfl⟩, r, ⟨_, rfl⟩, g, ⟨_, _, rfl⟩,
    j1, ⟨a, ⟨_, rfl⟩, b, ⟨_, rfl⟩, d, ⟨hn, _, rfl⟩, _, rfl⟩, nj, ⟨_, rfl⟩, u, hu, ni, hni, h⟩ := h
  have e := niLoop_eq_ok hni
  simp only [Res.ok.injEq] at h
  subst h
  refine ⟨by omega, hn, f1, f2, rfl, rfl, rfl, rfl, rfl, rfl, ?_, ?_⟩
  · unfold mallocWords at hu
    split at hu
    · simp at hu
    · rename_i h'; simp only [not_or] at h'; dsimp only; omega
  · rw [e]; simp

/-- closed form of the fields for `n ≥ 2`, with Euclidean division -/
theorem secInit_fields {m n : Int} {c : Sec} (h : secInit m n = .ok c) (hn : 2 ≤ n) :
    2 ≤ m ∧ c.m = m ∧ c.n = n ∧ c.delta = (Int.gcd m n : Int) ∧
    c.g = ((m - 1) * (n - 1) - c.delta + 1) / 2 ∧
    c.j1 = 1 + (m + c.delta - 1) / n ∧
    c.nj = m - c.j1 ∧ 0 ≤ c.nj ∧
    c.ni = (List.range c.nj.toNat).map (fun t : Nat => ((c.j1 + t) * n - c.delta) / m) := by
  obtain ⟨hm, _, f1, f2, e1, e2, e3, e4, e5, e6, e7, e8⟩ := secInit_eq_ok h
  unfold FitsSlong slongMax slongMin at f1 f2
  have eδ : c.delta = (Int.gcd m n : Int) := by
    rw [e3, toUlong_of_nonneg (by omega) (by omega), toUlong_of_nonneg (by omega) (by omega)]
    congr 1
    unfold Int.gcd
    congr 1 <;> omega
  have hδ0 : 0 < c.delta := by
    rw [eδ]; exact_mod_cast Int.gcd_pos_of_ne_zero_left _ (by omega)
  have hδm : c.delta ∣ m := eδ ▸ Int.gcd_dvd_left m n
  have hδn : c.delta ∣ n := eδ ▸ Int.gcd_dvd_right m n
  have hδm' : c.delta ≤ m := Int.le_of_dvd (by omega) hδm
  have hδn' : c.delta ≤ n := Int.le_of_dvd (by omega) hδn
  have hpos : 0 ≤ (m - 1) * (n - 1) - c.delta + 1 := by
    have : (m - 1) * (n - 1) ≥ (m - 1) * 1 := by
      apply mul_le_mul_of_nonneg_left <;> omega
    omega
  have hj : c.j1 = 1 + (m + c.delta - 1) / n := by
    rw [e5, Int.tdiv_eq_ediv_of_nonneg (by omega)]
  have hj1 : 1 ≤ c.j1 := by
    rw [hj]; have := Int.ediv_nonneg (a := m + c.delta - 1) (b := n) (by omega) (by omega); omega
  refine ⟨hm, e1, e2, eδ, ?_, hj, e6, e7, ?_⟩
  · rw [e4, Int.tdiv_eq_ediv_of_nonneg hpos]
  · rw [e8]
    apply List.map_congr_left
    intro t ht
    rw [List.mem_range] at ht
    unfold imaxV
    have hs : 1 ≤ c.j1 + t := by omega
    have hs2 : c.j1 + t ≤ m - 1 := by omega
    have h0 : 0 ≤ (c.j1 + t) * n - c.delta := by nlinarith
    rw [Int.tdiv_eq_ediv_of_nonneg h0, if_pos]
    apply Int.ediv_lt_of_lt_mul (by omega)
    have : (c.j1 + t) * n ≤ (m - 1) * n := by
      apply mul_le_mul_of_nonneg_right hs2; omega
    nlinarith

/-! ## Outcomes -/

theorem fits_of_abs {x : Int} (h : |x| ≤ 2 ^ 63 - 1) : FitsSlong x := by
  unfold FitsSlong slongMin slongMax
  rw [abs_le] at h
  omega

theorem abs_tdiv_le (x y : Int) : |x.tdiv y| ≤ |x| := by
  rw [Int.abs_eq_natAbs, Int.abs_eq_natAbs, Int.natAbs_tdiv]
  exact_mod_cast Nat.div_le_self _ _

theorem imax_succeeds {j m n d : Int} (hm : m ≠ 0) (hn : |n| ≤ 2 ^ 31) (hd : |d| ≤ 2 ^ 31)
    (hjn : |j * n| ≤ 2 ^ 62) : ∃ i, imax j m n d = .ok i := by
  have h1 : |j * n - d| ≤ 2 ^ 62 + 2 ^ 31 := (abs_sub _ _).trans (by linarith)
  have h2 := (abs_tdiv_le (j * n - d) m).trans h1
  have h3 : |n - 1| ≤ 2 ^ 31 + 1 := by rw [abs_le] at hn ⊢; omega
  unfold imax
  rw [chk_ok (fits_of_abs (hjn.trans (by norm_num)))]
  simp only [Res.ok_bind]
  rw [chk_ok (fits_of_abs (h1.trans (by norm_num)))]
  simp only [Res.ok_bind]
  rw [cdiv_ok hm (fits_of_abs (h2.trans (by norm_num)))]
  simp only [Res.ok_bind]
  split
  · exact ⟨_, rfl⟩
  · rw [chk_ok (fits_of_abs (h3.trans (by norm_num)))]; exact ⟨_, rfl⟩

theorem niLoop_succeeds {m n d j1 : Int} (hm : m ≠ 0) (hn : |n| ≤ 2 ^ 31) (hd : |d| ≤ 2 ^ 31) :
    ∀ (k : Nat) (j : Int), (∀ t : Nat, t < k → |j1 + j + t| ≤ 2 ^ 62 ∧ |(j1 + j + t) * n| ≤ 2 ^ 62) →
      ∃ l, niLoop m n d j1 k j = .ok l
  | 0, _, _ => ⟨[], rfl⟩
  | k + 1, j, h => by
      have h0 := h 0 (by omega)
      simp only [Nat.cast_zero, add_zero] at h0
      obtain ⟨i, hi⟩ := imax_succeeds (j := j1 + j) hm hn hd h0.2
      obtain ⟨l, hl⟩ := niLoop_succeeds hm hn hd k (j + 1) (fun t ht => by
        have := h (t + 1) (by omega)
        have e : j1 + (j + 1) + (t : ℤ) = j1 + j + ((t + 1 : ℕ) : ℤ) := by push_cast; ring
        rw [e]; exact this)
      refine ⟨i :: l, ?_⟩
      unfold niLoop
      rw [chk_ok (fits_of_abs (h0.1.trans (by norm_num)))]
      simp only [Res.ok_bind, hi, hl]

theorem secInit_succeeds {m n : Int} (h2 : 2 ≤ m) (hm : m ≤ 2 ^ 31) (hn2 : 2 ≤ n) (hn : n ≤ 2 ^ 31) :
    ∃ c, secInit m n = .ok c := by
  have eδ : ((Nat.gcd (toUlong m) (toUlong n) : ℕ) : ℤ) = (Int.gcd m n : ℤ) := by
    rw [toUlong_of_nonneg (by omega) (by omega), toUlong_of_nonneg (by omega) (by omega)]
    congr 1
    unfold Int.gcd
    congr 1 <;> omega
  set δ : ℤ := (Int.gcd m n : ℤ) with hδ
  have hδ0 : 0 < δ := by rw [hδ]; exact_mod_cast Int.gcd_pos_of_ne_zero_left _ (by omega)
  have hδm : δ ≤ m := Int.le_of_dvd (by omega) (Int.gcd_dvd_left m n)
  have hmn : (m - 1) * (n - 1) ≤ 2 ^ 31 * 2 ^ 31 := by
    apply mul_le_mul <;> omega
  have hmn0 : (m - 1) * 1 ≤ (m - 1) * (n - 1) := by
    apply mul_le_mul_of_nonneg_left <;> omega
  have hq0 : 0 ≤ (m + δ - 1).tdiv n := Int.tdiv_nonneg (by omega) (by omega)
  have hq1 : (m + δ - 1).tdiv n ≤ m - 1 := by
    rw [Int.tdiv_eq_ediv_of_nonneg (by omega)]
    apply Int.le_of_lt_add_one
    apply Int.ediv_lt_of_lt_mul (by omega)
    nlinarith
  have hg1 := Int.tdiv_eq_ediv_of_nonneg (b := 2) (by omega : 0 ≤ (m - 1) * (n - 1) - δ + 1)
  obtain ⟨l, hl⟩ := niLoop_succeeds (m := m) (n := n) (d := δ) (j1 := 1 + (m + δ - 1).tdiv n)
    (by omega) (by rw [abs_of_nonneg] <;> omega) (by rw [abs_of_nonneg] <;> omega)
    (m - (1 + (m + δ - 1).tdiv n)).toNat 0 (by
      intro t ht
      have h1 : 0 ≤ 1 + (m + δ - 1).tdiv n + 0 + (t : ℤ) := by omega
      have h2 : 1 + (m + δ - 1).tdiv n + 0 + (t : ℤ) ≤ 2 ^ 31 := by omega
      have h3 : (1 + (m + δ - 1).tdiv n + 0 + (t : ℤ)) * n ≤ 2 ^ 31 * 2 ^ 31 := by
        apply mul_le_mul <;> omega
      refine ⟨by rw [abs_of_nonneg h1]; omega, ?_⟩
      rw [abs_of_nonneg (mul_nonneg h1 (by omega))]; omega)
  unfold secInit
  rw [if_neg (by omega)]
  simp only [eδ]
  unfold jmin mallocWords
  rw [chk_ok (by unfold FitsSlong slongMin slongMax; omega), Res.ok_bind,
    chk_ok (by unfold FitsSlong slongMin slongMax; omega), Res.ok_bind,
    chk_ok (by unfold FitsSlong slongMin slongMax; omega), Res.ok_bind,
    chk_ok (by unfold FitsSlong slongMin slongMax; omega), Res.ok_bind,
    chk_ok (by unfold FitsSlong slongMin slongMax; omega), Res.ok_bind,
    cdiv_ok (by omega) (by unfold FitsSlong slongMin slongMax; omega), Res.ok_bind,
    chk_ok (by unfold FitsSlong slongMin slongMax; omega), Res.ok_bind,
    chk_ok (by unfold FitsSlong slongMin slongMax; omega), Res.ok_bind,
    cdiv_ok (by omega) (by unfold FitsSlong slongMin slongMax; omega), Res.ok_bind,
    chk_ok (by unfold FitsSlong slongMin slongMax; omega), Res.ok_bind,
    chk_ok (by unfold FitsSlong slongMin slongMax; omega), Res.ok_bind,
    if_neg (by omega), Res.ok_bind, hl, Res.ok_bind]
  exact ⟨_, rfl⟩

theorem genus_pos_iff {m n g : Int} (hm : 2 ≤ m) (hn : 2 ≤ n) (hg : Spec.IsGenus m n g) :
    1 ≤ g ↔ ¬ (m = 2 ∧ n = 2) := by
  unfold Spec.IsGenus at hg
  have hδ0 : 0 < (Int.gcd m n : ℤ) := by exact_mod_cast Int.gcd_pos_of_ne_zero_left _ (by omega)
  have hδm : (Int.gcd m n : ℤ) ≤ m := Int.le_of_dvd (by omega) (Int.gcd_dvd_left m n)
  have hδn : (Int.gcd m n : ℤ) ≤ n := Int.le_of_dvd (by omega) (Int.gcd_dvd_right m n)
  constructor
  · rintro h ⟨rfl, rfl⟩
    have : Int.gcd 2 2 = 2 := by decide
    rw [this] at hg; omega
  · intro h
    by_cases hm2 : m = 2
    · subst hm2
      have : 3 ≤ n := by omega
      nlinarith
    · have : 3 ≤ m := by omega
      nlinarith

theorem initPoly_zero {m : Int} (sq : Bool) (h2 : 2 ≤ m) (hm : m ≤ 2 ^ 31) :
    (initPoly m 0 sq).isUb := by
  have eδ : ((Nat.gcd (toUlong m) (toUlong 0) : ℕ) : ℤ) = m := by
    rw [toUlong_of_nonneg (by omega) (by omega)]
    simp only [toUlong, Int.zero_emod, Int.toNat_zero, Nat.gcd_zero_right]; omega
  have hd := Int.tdiv_nonneg (a := -((m - 1) * (0 - 1) - m + 1)) (b := 2) (by omega) (by omega)
  have ha := abs_tdiv_le ((m - 1) * (0 - 1) - m + 1) 2
  rw [abs_of_nonpos (by omega : (m - 1) * (0 - 1) - m + 1 ≤ 0), abs_le] at ha
  unfold initPoly secInit
  rw [if_neg (by omega)]
  simp only [eδ]
  unfold jmin
  rw [chk_ok (by unfold FitsSlong slongMin slongMax; omega), Res.ok_bind,
    chk_ok (by unfold FitsSlong slongMin slongMax; omega), Res.ok_bind,
    chk_ok (by unfold FitsSlong slongMin slongMax; omega), Res.ok_bind,
    chk_ok (by unfold FitsSlong slongMin slongMax; omega), Res.ok_bind,
    chk_ok (by unfold FitsSlong slongMin slongMax; omega), Res.ok_bind,
    cdiv_ok (by omega) (by unfold FitsSlong slongMin slongMax; omega), Res.ok_bind,
    chk_ok (by unfold FitsSlong slongMin slongMax; omega), Res.ok_bind,
    chk_ok (by unfold FitsSlong slongMin slongMax; omega), Res.ok_bind]
  simp [cdiv, Res.isUb]

theorem initPoly_one {m : Int} (sq : Bool) (h2 : 2 ≤ m) (hm : m ≤ 2 ^ 31) :
    (initPoly m 1 sq).isAbort := by
  have eδ : ((Nat.gcd (toUlong m) (toUlong 1) : ℕ) : ℤ) = 1 := by
    rw [toUlong_of_nonneg (x := 1) (by omega) (by omega)]
    simp
  unfold initPoly secInit
  rw [if_neg (by omega)]
  simp only [eδ]
  unfold jmin mallocWords
  have e1 : ((m - 1) * (1 - 1) - 1 + 1).tdiv 2 = 0 := by
    have : (m - 1) * (1 - 1) - 1 + 1 = 0 := by ring
    rw [this]; rfl
  rw [chk_ok (by unfold FitsSlong slongMin slongMax; omega), Res.ok_bind,
    chk_ok (by unfold FitsSlong slongMin slongMax; omega), Res.ok_bind,
    chk_ok (by unfold FitsSlong slongMin slongMax; omega), Res.ok_bind,
    chk_ok (by unfold FitsSlong slongMin slongMax; omega), Res.ok_bind,
    chk_ok (by unfold FitsSlong slongMin slongMax; omega), Res.ok_bind,
    cdiv_ok (by omega) (by rw [e1]; unfold FitsSlong slongMin slongMax; omega), Res.ok_bind,
    chk_ok (by unfold FitsSlong slongMin slongMax; omega), Res.ok_bind,
    chk_ok (by unfold FitsSlong slongMin slongMax; omega), Res.ok_bind,
    cdiv_ok (by omega) (by rw [Int.tdiv_one]; unfold FitsSlong slongMin slongMax; omega), Res.ok_bind,
    chk_ok (by rw [Int.tdiv_one]; unfold FitsSlong slongMin slongMax; omega), Res.ok_bind,
    chk_ok (by rw [Int.tdiv_one]; unfold FitsSlong slongMin slongMax; omega), Res.ok_bind,
    if_pos (by rw [Int.tdiv_one]; omega)]
  simp [Res.isAbort]

theorem initPoly_neg {m : Int} (sq : Bool) (h2 : 2 ≤ m) (hm : m ≤ 2 ^ 31) :
    (initPoly m (-1) sq).isAbort := by
  set δ : ℤ := ((Nat.gcd (toUlong m) (toUlong (-1)) : ℕ) : ℤ) with hδ
  have hδ0 : 0 < δ := by
    rw [toUlong_of_nonneg (by omega) (by omega)] at hδ
    rw [hδ]; exact_mod_cast Nat.gcd_pos_of_pos_left _ (by omega)
  have hδm : δ ≤ m := by
    rw [toUlong_of_nonneg (by omega) (by omega)] at hδ
    have := Nat.gcd_le_left (n := toUlong (-1)) (m := m.toNat) (by omega)
    omega
  have eq1 : (m + δ - 1).tdiv (-1) = -(m + δ - 1) := by
    rw [Int.tdiv_neg, Int.tdiv_one]
  have ha := abs_tdiv_le ((m - 1) * (-1 - 1) - δ + 1) 2
  rw [abs_of_nonpos (by omega : (m - 1) * (-1 - 1) - δ + 1 ≤ 0), abs_le] at ha
  have hg : ((m - 1) * (-1 - 1) - δ + 1).tdiv 2 ≤ 0 := by
    have := Int.tdiv_nonneg (a := -((m - 1) * (-1 - 1) - δ + 1)) (b := 2) (by omega) (by omega)
    rw [Int.neg_tdiv] at this; omega
  obtain ⟨l, hl⟩ := niLoop_succeeds (m := m) (n := -1) (d := δ) (j1 := 1 + (m + δ - 1).tdiv (-1))
    (by omega) (by norm_num) (by rw [abs_of_nonneg] <;> omega)
    (m - (1 + (m + δ - 1).tdiv (-1))).toNat 0 (by
      intro t ht
      rw [eq1] at ht ⊢
      have h1 : |1 + -(m + δ - 1) + 0 + (t : ℤ)| ≤ 2 ^ 62 := by rw [abs_le]; omega
      refine ⟨h1, ?_⟩
      rw [mul_neg_one, abs_neg]; exact h1)
  unfold initPoly secInit
  rw [if_neg (by omega)]
  simp only [← hδ]
  unfold jmin mallocWords
  rw [chk_ok (by unfold FitsSlong slongMin slongMax; omega), Res.ok_bind,
    chk_ok (by unfold FitsSlong slongMin slongMax; omega), Res.ok_bind,
    chk_ok (by unfold FitsSlong slongMin slongMax; omega), Res.ok_bind,
    chk_ok (by unfold FitsSlong slongMin slongMax; omega), Res.ok_bind,
    chk_ok (by unfold FitsSlong slongMin slongMax; omega), Res.ok_bind,
    cdiv_ok (by omega) (by unfold FitsSlong slongMin slongMax; omega), Res.ok_bind,
    chk_ok (by unfold FitsSlong slongMin slongMax; omega), Res.ok_bind,
    chk_ok (by unfold FitsSlong slongMin slongMax; omega), Res.ok_bind,
    cdiv_ok (by omega) (by rw [eq1]; unfold FitsSlong slongMin slongMax; omega), Res.ok_bind,
    chk_ok (by rw [eq1]; unfold FitsSlong slongMin slongMax; omega), Res.ok_bind,
    chk_ok (by rw [eq1]; unfold FitsSlong slongMin slongMax; omega), Res.ok_bind,
    if_neg (by rw [eq1]; omega), Res.ok_bind, hl, Res.ok_bind, Res.ok_bind]
  dsimp only
  rw [if_pos (by omega)]
  simp [Res.isAbort]

end Hcp
