import Verif.Props.Crossing
import Verif.Props.HyperPeriods

/-!
# C51: periods over a symplectic basis of a hyperelliptic curve
-/

namespace Hcp
open Spec

variable {A B W : Type} {X : Arith A} {R : A → ℂ → Prop} {P : ParOps A B} {D : DblOps} {RB : B → ℝ → Prop}

/-- the parameters of the Gauss-Chebyshev rule are only computed for segments without a third branch point -/
theorem freeEdges_of_params (HP : ParSound P R RB) {n : Nat} {x' : Nat → ℂ} {es : List (Edge W)} (hes : ∀ ed ∈ es, x' ed.a ≠ x' ed.b) {data : List (YData A)}
    (hlen : data.length = es.length) {u : Nat → Nat → ℂ} (hu : ExactData R 2 n x' es data u) {g fuel : Nat} {prec : Int} {par : Nat → GcPar}
    (hpar : ∀ (k : Nat) (yd : YData A), data[k]? = some yd → gcParams P D fuel ((List.range (n - 2)).map yd.u) g prec = .ok (par k) ∧ 1 < (par k).r ∧ (par k).r ≤ (par k).r0) :
    FreeEdges x' n es := by
  intro f hf k hk ha hb t t1 t2 e
  obtain ⟨l, hl, rfl⟩ := List.getElem_of_mem hf
  have hd : data[l]? = some (data[l]'(by omega)) := List.getElem?_eq_getElem (by omega)
  obtain ⟨-, v2, v3⟩ := hu l _ _ (List.getElem?_eq_getElem hl) hd
  obtain ⟨p1, p2, p3⟩ := hpar l _ hd
  obtain ⟨τ, hτ, hx⟩ := v3.pts
  obtain ⟨i, hi, rfl⟩ := hτ.surjOn (show k ∈ {k | k < n ∧ k ≠ es[l].a ∧ k ≠ es[l].b} from ⟨hk, ha, hb⟩)
  have hi' : i < n - 2 := hi
  have hsep := gcParams_sep HP (u' := (List.range (n - 2)).map (u l)) (by
    rw [List.forall₂_map_left_iff, List.forall₂_map_right_iff, List.forall₂_same]
    exact fun k _ => v2 k) p1 p2 p3 (u l i) (List.mem_map.2 ⟨i, List.mem_range.2 hi', rfl⟩)
  have hut : u l i = t := by
    have h1 := (hx i hi').trans e
    unfold edgePt at h1
    have h2 : (x' es[l].b - x' es[l].a) / 2 ≠ 0 := div_ne_zero (sub_ne_zero.2 (hes _ hf).symm) two_ne_zero
    exact mul_right_cancel₀ h2 (add_left_cancel h1)
  rw [hut, rOf_of_mem t1 t2] at hsep
  linarith

/-- integral of `x^i dx / y` over a loop written as a combination of elementary cycles, `Y k` being the determination of `y` on edge number `k` -/
noncomputable def loopPeriod (x : Nat → ℂ) (es : List (Edge W)) (Y : Nat → ℝ → ℂ) (i : Nat) (l : List Gamma) : ℂ :=
  (l.map fun t => (t.coeff : ℂ) * match es[t.index]? with
    | some ed => cycleInt (x ed.a) (x ed.b) i (Y t.index) t.shift
    | none => 0).sum

/-- **C51 (partial).** Curve `y^2 = ∏ (x - x_k)` with `n ≥ 3` distinct branch points given by balls, `g` differentials.  `es` is a list of as many edges as `abel_jacobi_init_poly` asks for, growing as a tree.  Suppose the
data of the edges are computed, the rows of the matrix of integrals are computed by the Gauss-Chebyshev rule (hypotheses as in `C47_periods_partial`), the directions of the edges
with a common point are resolved and the intersection matrix is computed.  Then `symplectic_basis` returns `g` loops `alpha` and `g` loops `beta`, the period matrices of both
are computed, and there are continuous determinations `Y` of `y` on the edges for which: the matrix `c` holds the intersection numbers of the closed paths over the edges;
the loops are a symplectic basis for `c`, with `alpha_i . beta_i = +1`; entry `(i, k)` of the two matrices of periods contains the integral of `x^i dx / y` over `alpha_k`, respectively `beta_k`. -/
theorem C51_periods_partial (xg : XGcd) (E : Encloses X exact R) {F : Fns A} (HF : EnclosesFns F exactFns R) (HP : ParSound P R RB) {T : Tests A} (hTs : SoundTests T R)
    {n : Nat} (hn : 3 ≤ n) {c : Sec} (h : secInit 2 n = .ok c) {x : Nat → A} {x' : Nat → ℂ} (hR : ∀ k, R (x k) (x' k)) (hx : Set.InjOn x' (Set.Iio n))
    {es : List (Edge W)} (hes : ∀ ed ∈ es, ed.a < n ∧ ed.b < n) (hlen : EdgeCount 2 n es.length) (hgr : GrowsAsTree (es.map fun f => (f.a, f.b)))
    {data : List (YData A)} (hdata : treeYdataInit X T x n 2 es = .ok data)
    {flag : Nat} {fuel : Nat} {prec : Int} {par : Nat → GcPar} {e : Nat → ℝ} {err : Nat → A → A}
    (hpar : ∀ (k : Nat) (yd : YData A), data[k]? = some yd → gcParams P D fuel ((List.range (n - 2)).map yd.u) c.shape.g prec = .ok (par k) ∧ (par k).e = some (e k) ∧
      1 < (par k).r ∧ (par k).r ≤ (par k).r0 ∧ 1 ≤ (par k).n)
    (herr : ∀ k v z z', R v z → ‖z - z'‖ ≤ e k → R (err k v) z')
    {ks : List Nat} (hks : ks.Perm (List.range es.length)) (hmono : ks.Pairwise fun k l => (par l).n.toNat ≤ (par k).n.toNat)
    (hf : ∀ (k j : Nat) (yd : YData A), j < es.length → data[k]? = some yd → RootsOk X T F R (n + 3) yd.u yd.n1 (n - 2) (par j).n.toNat flag)
    {I I' : Nat → Nat → A} (hI : ∀ k r, R (I k r) 0) {gc0 : GcInt A} (h0 : gc0.n = 0)
    (hrun : integralsTreeGc X T F c.shape flag data (fun k => (par k).n.toNat) err ks gc0 I = .ok I')
    (hres : Resolved X T x' es data) {cc : IMat} (hcc : intersectionTree (shiftOracle X T data 2) es 2 = .ok cc) :
    ∃ (Y : Nat → ℝ → ℂ) (ca cb : Nat → ℂ) (Q : Mat (es.length * (2 - 1))) (al be : List (List Gamma)) (om0 om1 : Nat → Nat → A),
      Branches 2 n x' es Y ca cb ∧ HoldsNumbers 2 es ca cb cc ∧
      (∀ fuel, 1 ≤ fuel → symplecticBasis xg fuel (shiftOracle X T data 2) es 2 c.shape.g = .ok (al, be)) ∧
      IsSymplecticBasis es.length (2 - 1) c.shape.g (fun s t => cc (s.1 * (2 - 1) + s.2) (t.1 * (2 - 1) + t.2)) Q al be ∧
      PositiveDual (fun s t => cc (s.1 * (2 - 1) + s.2) (t.1 * (2 - 1) + t.2)) al be ∧ SignCoeffs (al ++ be) ∧
      periodMatrix X c.shape al es.length I' = .ok om0 ∧ periodMatrix X c.shape be es.length I' = .ok om1 ∧
      ∀ (i k : Nat) (a b : List Gamma), i < c.shape.g → al[k]? = some a → be[k]? = some b →
        R (om0 i k) (loopPeriod x' es Y i a) ∧ R (om1 i k) (loopPeriod x' es Y i b) := by
  have hne : ∀ ed ∈ es, ed.a < n ∧ ed.b < n ∧ x' ed.a ≠ x' ed.b := by
    intro ed hed
    obtain ⟨k, hk, rfl⟩ := List.getElem_of_mem hed
    have := (hgr k (by simpa using hk)).1
    exact ⟨(hes _ hed).1, (hes _ hed).2, fun h => by simpa using this (by simpa using hx (hes _ hed).1 (hes _ hed).2 h)⟩
  have hne2 : ∀ ed ∈ es, x' ed.a ≠ x' ed.b := fun ed hed => (hne ed hed).2.2
  obtain ⟨u, hu⟩ := exactData_exists E T hR (by norm_num) hne hdata
  have hdl := (treeYdataInit_get hdata).1
  have hfree := freeEdges_of_params HP hne2 hdl hu fun k yd hd => ⟨(hpar k yd hd).1, (hpar k yd hd).2.2.1, (hpar k yd hd).2.2.2.1⟩
  have hp := plainTree_balls E hTs le_rfl hx hes hgr hfree hdl hu hres hcc
  have hg : IsGenus 2 n c.shape.g := by
    have h1 := (C01_differentials_sum_to_genus (by omega) h).1
    have : ((c.shape.g : Nat) : Int) = c.g := by
      have h2 : 0 ≤ c.g := by
        unfold IsGenus at h1
        have h3 : ((Int.gcd 2 (n : Int) : Nat) : Int) ≤ 2 := Int.le_of_dvd (by norm_num) (Int.gcd_dvd_left _ _)
        omega
      unfold Sec.shape
      simp only
      omega
    rw [this]
    exact h1
  obtain ⟨Q, -, -, al, be, k1, k2, k3, k4⟩ := basis_of_pu xg le_rfl hcc (fun a b => hp.anti a b a.isLt b.isLt) (rank_of_plainTree le_rfl hlen hg (fun _ => ⟨_, _, _, _, _, hp⟩) ℚ)
    (pu_of_plainTree fun _ => ⟨_, _, _, _, _, hp⟩)
  have hterm : ∀ l ∈ al ++ be, ∀ t ∈ l, t.index < es.length ∧ t.shift < 2 ∧ -(2 ^ 62) < t.coeff ∧ t.coeff < 2 ^ 62 := by
    intro l hl t ht
    obtain ⟨-, w1, w2⟩ := (k2.terms l hl).1 t ht
    have w3 := k4 l hl t ht
    exact ⟨w1, by omega, by omega, by omega⟩
  obtain ⟨-, om0, a2, a3⟩ := periods_of E HF HP T hn h hne2 hdl hu hpar herr hks hmono hf hI h0 hrun al k2.lengths.1.ge fun l hl => hterm l (List.mem_append_left _ hl)
  obtain ⟨-, om1, b2, b3⟩ := periods_of E HF HP T hn h hne2 hdl hu hpar herr hks hmono hf hI h0 hrun be k2.lengths.2.ge fun l hl => hterm l (List.mem_append_right _ hl)
  refine ⟨_, _, _, Q, al, be, om0, om1, branches_of (by norm_num) hne2 hfree hdl hu, holdsNumbers_of le_rfl hp, k1, k2, k3, k4, a2, b2, fun i k a b hi ha hb => ⟨?_, ?_⟩⟩
  · have hk : k < c.shape.g := by
      have := (List.getElem?_eq_some_iff.1 ha).1
      rw [k2.lengths.1] at this
      exact this
    exact a3 i k a hi hk ha
  · have hk : k < c.shape.g := by
      have := (List.getElem?_eq_some_iff.1 hb).1
      rw [k2.lengths.2] at this
      exact this
    exact b3 i k b hi hk hb

end Hcp
