import Verif.Spec.ExtraPrec
import Verif.Proofs.EdgeData
import Verif.Proofs.Shape

/-!
# The maximum computed by `mag_constants_tree`
-/

namespace Hcp
open Spec

/-- a magnitude, possibly infinite, is at least `t` -/
def MagGe (s : Option ℝ) (t : ℝ) : Prop := ∀ v, s = some v → t ≤ v

theorem magMax_left {s s' : Option ℝ} {t : ℝ} (h : MagGe s t) : MagGe (magMax s s') t := by
  cases s with
  | none => intro v hv; simp [magMax] at hv
  | some a =>
    cases s' with
    | none => intro v hv; simp [magMax] at hv
    | some b =>
      intro v hv
      obtain rfl := Option.some.inj hv
      exact (h a rfl).trans (le_max_left _ _)

theorem magMax_right {s s' : Option ℝ} {t : ℝ} (h : MagGe s' t) : MagGe (magMax s s') t := by
  cases s with
  | none => intro v hv; simp [magMax] at hv
  | some a =>
    cases s' with
    | none => intro v hv; simp [magMax] at hv
    | some b =>
      intro v hv
      obtain rfl := Option.some.inj hv
      exact (h b rfl).trans (le_max_right _ _)

variable {A B W : Type} {X : Arith A} {M : MagOps A B} {R : A → ℂ → Prop} {RB : B → ℝ → Prop}

theorem magL_mono {mab mi : B} {i : Nat} {t : ℝ} : ∀ (ls : List Nat) {s : Option ℝ}, MagGe s t → MagGe (magL M mab mi i ls s) t
  | [], _, h => h
  | _ :: ls, _, h => magL_mono ls (magMax_left h)

theorem magL_ge (S : MagSound M R RB) {mab mi : B} {ab t : ℝ} (h1 : RB mab ab) (h2 : RB mi t) {i l : Nat} : ∀ (ls : List Nat) {s : Option ℝ}, l ∈ ls →
    MagGe (magL M mab mi i ls s) (((i - 1).choose l : ℝ) * ab ^ (i - 1 - l) * t)
  | [], _, h => by simp at h
  | l' :: ls, s, h => by
    rcases List.mem_cons.1 h with rfl | h
    · refine magL_mono ls (magMax_right fun v hv => ?_)
      exact (le_abs_self _).trans (S.mag (S.mul (S.mul (S.bin _ _) (S.pow _ h1)) h2) hv)
    · exact magL_ge S h1 h2 ls h

theorem magI_mono {mab mba : B} {t : ℝ} : ∀ (is : List Nat) {s : B × Option ℝ}, MagGe s.2 t → MagGe (magI M mab mba is s).2 t
  | [], _, h => h
  | _ :: is, _, h => magI_mono is (magL_mono _ h)

/-- `i` runs from `i0` -/
theorem magI_ge (S : MagSound M R RB) {mab mba : B} {ab ba : ℝ} (h1 : RB mab ab) (h2 : RB mba ba) {i l : Nat} : ∀ (cnt i0 : Nat) {mi : B} {t : ℝ} {s : Option ℝ}, RB mi t → i0 ≤ i → i < i0 + cnt → l < i →
    MagGe (magI M mab mba (List.range' i0 cnt) (mi, s)).2 (((i - 1).choose l : ℝ) * ab ^ (i - 1 - l) * (t * ba ^ (i + 1 - i0)))
  | 0, _, _, _, _, _, _, _, _ => by omega
  | cnt + 1, i0, mi, t, s, hm, hi, hi', hl => by
    rw [List.range'_succ]
    by_cases he : i = i0
    · subst he
      have h3 := magL_ge S h1 (S.mul hm h2) (i := i) (l := l) (List.range i) (s := s) (List.mem_range.2 hl)
      have : i + 1 - i = 1 := by omega
      rw [this, pow_one]
      exact magI_mono (List.range' (i + 1) cnt) (s := (M.mul mi mba, _)) h3
    · have h3 := magI_ge S h1 h2 cnt (i0 + 1) (s := magL M mab (M.mul mi mba) i0 (List.range i0) s) (S.mul hm h2) (by omega : i0 + 1 ≤ i) (by omega) hl
      have e : t * ba * ba ^ (i + 1 - (i0 + 1)) = t * ba ^ (i + 1 - i0) := by
        have : i + 1 - i0 = (i + 1 - (i0 + 1)) + 1 := by omega
        rw [this, pow_succ]
        ring
      rw [e] at h3
      exact h3

theorem magJ_mono {mab mba mc : B} {j1 : Nat} {t : ℝ} : ∀ (ni : List Nat) (j : Nat) {s : Option ℝ}, MagGe s t → MagGe (magJ M mab mba mc j1 j ni s) t
  | [], _, _, h => h
  | _ :: ni, j, _, h => magJ_mono ni (j + 1) (magI_mono _ h)

theorem magJ_ge (S : MagSound M R RB) {mab mba mc : B} {ab ba cc : ℝ} (h1 : RB mab ab) (h2 : RB mba ba) (h3 : RB mc cc) {j1 i l : Nat} (hl : l ≤ i) : ∀ (ni : List Nat) (j k : Nat) {nij : Nat} {s : Option ℝ},
    ni[k]? = some nij → i < nij → MagGe (magJ M mab mba mc j1 j ni s) ((i.choose l : ℝ) * ab ^ (i - l) * (cc ^ (j1 + (j + k)) * ba ^ (i + 1)))
  | [], _, _, _, _, h, _ => by simp at h
  | nj :: ni, j, 0, nij, s, h, hi => by
    obtain rfl : nj = nij := by simpa using h
    have h4 := magI_ge S h1 h2 (i := i + 1) (l := l) nj 1 (s := s) (S.pow (j + j1) h3) (by omega) (by omega) (by omega)
    simp only [Nat.add_sub_cancel] at h4
    have : j1 + (j + 0) = j + j1 := by omega
    rw [this]
    exact magJ_mono ni (j + 1) h4
  | nj :: ni, j, k + 1, nij, s, h, hi => by
    have := magJ_ge S h1 h2 h3 (j1 := j1) hl ni (j + 1) k (s := (magI M mab mba (List.range' 1 nj) (M.pow mc (j + j1), s)).2) (by simpa using h) hi
    have e : j1 + (j + 1 + k) = j1 + (j + (k + 1)) := by omega
    rwa [e] at this

theorem magTree_mono {x : Nat → A} {c : Shape} {t : ℝ} : ∀ (es : List (Edge W)) {s : Option ℝ}, MagGe s t → MagGe (magTree X M x c es s) t
  | [], _, h => h
  | _ :: es, _, h => magTree_mono es (magMax_left h)

theorem magTree_ge {x : Nat → A} {c : Shape} {t : ℝ} {e : Edge W} (h : MagGe (magEdge X M x e.a e.b c) t) : ∀ (es : List (Edge W)) {s : Option ℝ}, e ∈ es → MagGe (magTree X M x c es s) t
  | [], _, he => by simp at he
  | e' :: es, s, he => by
    rcases List.mem_cons.1 he with rfl | he
    · exact magTree_mono es (magMax_right h)
    · exact magTree_ge h es he

/-- modulus of the constant of an edge -/
theorem edgeData_norm {m n a b n1 : Nat} (hm : 0 < m) (ha : a < n) (hb : b < n) (hab : a ≠ b) {x u : Nat → ℂ} (h : EdgeData m n x a b n1 u) : ‖u n‖ = (‖(x b - x a) / 2‖ ^ n) ^ (1 / m : ℝ) := by
  have e := congrArg norm (edgeData_const hm ha hb hab h)
  rw [norm_mul, norm_pow, norm_pow, norm_neg, norm_one, one_pow, mul_one, norm_mul, norm_neg, norm_pow, norm_pow, ← pow_add] at e
  have : 2 + (n - 2) = n := by omega
  rw [this] at e
  rw [← e, one_div, Real.pow_rpow_inv_natCast (norm_nonneg _) (by omega)]

theorem magEdge_ge (E : Encloses X exact R) (S : MagSound M R RB) {c : Shape} (hc : c.Good) {x : Nat → A} {x' : Nat → ℂ} (hR : ∀ k, R (x k) (x' k)) {a b : Nat} (ha : a < c.n) (hb : b < c.n) (hab : x' a ≠ x' b)
    {n1 : Nat} {u : Nat → ℂ} (hE : EdgeData c.m c.n x' a b n1 u) {r i j l : Nat} (hr : r < c.g) (hij : diffOf c.ni c.j1 r = (i, j)) (hl : l ≤ i) :
    MagGe (magEdge X M x a b c) ‖rowCoeff c.n u i j l‖ := by
  have hm := hc.m
  obtain ⟨k, nij, i', h1, h2, -, h4⟩ := diffOf_spec c.ni c.j1 r (by rw [hc.sum]; exact hr)
  rw [h4] at hij
  obtain ⟨rfl, rfl⟩ := Prod.mk.inj hij
  have hba : x' b - x' a ≠ 0 := sub_ne_zero.2 (Ne.symm hab)
  have hba' : ‖x' b - x' a‖ ≠ 0 := norm_ne_zero_iff.2 hba
  have s1 := S.abs (E.sub (hR b) (hR a))
  have s2 := S.div (S.abs (E.add (hR b) (hR a))) s1 hba'
  have s3 := S.mul2exp (-1) s1
  have e3 : ‖exact.sub (x' b) (x' a)‖ * 2 ^ (-1 : Int) = ‖(x' b - x' a) / 2‖ := by
    rw [norm_div]
    simp only [exact, RCLike.norm_ofNat, zpow_neg_one]
    rfl
  rw [e3] at s3
  have hpos : 0 < ‖(x' b - x' a) / 2‖ := norm_pos_iff.2 (div_ne_zero hba two_ne_zero)
  have s4 := S.inv (s := (‖(x' b - x' a) / 2‖ ^ c.n) ^ (1 / c.m : ℝ)) (by positivity) (S.root c.m (by omega) (by positivity) (S.pow c.n s3))
  have := magJ_ge S s2 s3 s4 (j1 := c.j1) hl c.ni 0 k (s := some 0) h1 h2
  have e5 : ‖rowCoeff c.n u i' (c.j1 + k) l‖ = (i'.choose l : ℝ) * (‖exact.add (x' b) (x' a)‖ / ‖x' b - x' a‖) ^ (i' - l) * (((‖(x' b - x' a) / 2‖ ^ c.n) ^ (1 / c.m : ℝ))⁻¹ ^ (c.j1 + (0 + k)) * ‖(x' b - x' a) / 2‖ ^ (i' + 1)) := by
    unfold rowCoeff
    rw [norm_mul, norm_div, norm_pow, norm_pow, norm_mul, norm_pow, edgeData_norm (by omega) ha hb (fun h => hab (by rw [h])) hE, hE.ba2, hE.ab, norm_div (x' b + x' a), inv_pow, zero_add, Complex.norm_natCast]
    have : exact.add (x' b) (x' a) = x' b + x' a := rfl
    rw [this, div_eq_mul_inv]
    ring
  rw [e5]
  exact this

end Hcp
