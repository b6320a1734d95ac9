import Verif.Proofs.Periods
import Verif.Props.Homology

/-!
# C16, C17: the period matrix
-/

namespace Hcp

/-- **C17.** For every curve descriptor returned by `sec_init`, every matrix of elementary integrals with
`rows` rows and every list of at least `g` loops whose terms name existing edges and sheets and have
coefficients below `2^62` in absolute value, `period_matrix` returns without any access outside its
arrays, and entry `(r,k)` is `∑ coeff · ζ^(-shift·j_r) · integrals[edge][r]` over the terms of loop `k`,
where differential number `r` is `x^i dx / y^(j_r)`. -/
theorem C17_period_matrix {m n : Int} {c : Sec} (hn : 2 ≤ n) (h : secInit m n = .ok c)
    (basis : List (List Gamma)) (hb : c.shape.g ≤ basis.length) {rows : Nat} (integrals : Nat → Nat → ℂ)
    (hT : ∀ l ∈ basis, ∀ t ∈ l, t.index < rows ∧ t.shift < c.shape.m ∧
      -(2 ^ 62) < t.coeff ∧ t.coeff < 2 ^ 62) :
    ∃ om, periodMatrix exact c.shape basis rows integrals = .ok om ∧
      ∀ r i j k lp, r < c.shape.g → Spec.diffOf c.shape.ni c.shape.j1 r = (i, j) →
        k < c.shape.g → basis[k]? = some lp →
        om r k = (lp.map fun t => (t.coeff : ℂ) * (Spec.zeta c.shape.m ^ (t.shift * j))⁻¹ *
          integrals t.index r).sum := by
  have hc := shape_good hn h
  obtain ⟨om, e, ho⟩ := periodRows_spec hc integrals c.shape.g 0 basis hb
    (fun l hl t ht => hT l (List.mem_of_mem_take hl) t ht)
  refine ⟨_, by simp only [periodMatrix, e, Res.ok_bind]; rfl, ?_⟩
  intro r i j k lp hr hij hk hlp
  obtain ⟨row, h1, h2⟩ := ho k lp hk hlp
  simp only [h1]
  rw [h2 r hr, hij]

/-- **C17 (enclosure).** On balls: if the balls of the matrix of integrals contain the exact elementary
integrals, the routine returns balls containing the exact combinations. -/
theorem C17_encloses {A : Type} {X : Arith A} {R : A → ℂ → Prop} (E : Encloses X exact R)
    {m n : Int} {c : Sec} (hn : 2 ≤ n) (h : secInit m n = .ok c)
    (basis : List (List Gamma)) (hb : c.shape.g ≤ basis.length) {rows : Nat}
    {integrals : Nat → Nat → A} {integrals' : Nat → Nat → ℂ}
    (hI : ∀ e r, R (integrals e r) (integrals' e r))
    (hT : ∀ l ∈ basis, ∀ t ∈ l, t.index < rows ∧ t.shift < c.shape.m ∧
      -(2 ^ 62) < t.coeff ∧ t.coeff < 2 ^ 62) :
    ∃ om om', periodMatrix X c.shape basis rows integrals = .ok om ∧
      periodMatrix exact c.shape basis rows integrals' = .ok om' ∧ ∀ r k, R (om r k) (om' r k) := by
  obtain ⟨om', e, -⟩ := C17_period_matrix hn h basis hb integrals' hT
  have hr := periodMatrix_rel E c.shape rows hI basis
  rw [e] at hr
  obtain ⟨om, e', hoo⟩ := hr.ok_left
  exact ⟨om, om', e', e, hoo⟩

/-- Instance: `y^2 = f_3(x)` (genus 1), the loops `2 γ_0 - γ_1^(1)` on two edges. -/
example : ∃ c : Sec, secInit 2 3 = .ok c ∧ c.shape.g ≤ [[Gamma.mk 2 0 0, Gamma.mk (-1) 1 1]].length ∧
    ∀ l ∈ [[Gamma.mk 2 0 0, Gamma.mk (-1) 1 1]], ∀ t ∈ l, t.index < 2 ∧ t.shift < c.shape.m ∧
      -(2 ^ 62) < t.coeff ∧ t.coeff < 2 ^ 62 := ⟨_, rfl, by decide, by decide⟩

/-- **C16 (partial).** A coefficient that `symplectic_basis` accepts and whose absolute value is below `2^62`
is used with its exact value: it occurs as such in the sum of C17.  Missing: coefficients
of absolute value between `2^62` and `2^63`, see `C16_large_coefficient_fails`. -/
theorem C16_small_coefficients_partial {x : Int} (h1 : -(2 ^ 62) < x) (h2 : x < 2 ^ 62) :
    FitsSlong x ∧ slongAsFmpz x = .ok x :=
  ⟨by unfold FitsSlong slongMin slongMax; omega, slongAsFmpz_ok h1 h2⟩

/-- **C16 (negation).** Every coefficient from `2^62` to `2^63 - 1` and from `-2^63` to `-2^62` is accepted and stored
by `set_loops` but makes `period_matrix` interpret the word as an invalid big integer:
undefined behaviour, for every arithmetic, every curve and every integrals. -/
theorem C16_large_coefficient_fails {A : Type} (X : Arith A) (c : Shape) (hg : 0 < c.g) (integrals : Nat → Nat → A)
    {x : Int} (hx : FitsSlong x) (hbig : 2 ^ 62 ≤ x ∨ x ≤ -(2 ^ 62)) :
    ∃ lp : List Gamma, setLoops (fun j => if j = 0 then x else 0) 1 1 1 0 = .ok lp ∧ lp = [⟨x, 0, 0⟩] ∧
      ∀ basis, (periodMatrix X c (lp :: basis) 1 integrals).isUb := by
  have hx0 : x ≠ 0 := by rintro rfl; omega
  refine ⟨[⟨x, 0, 0⟩], ?_, rfl, ?_⟩
  · simp [setLoops, skipZero, hx0, hx]
  · intro basis
    obtain ⟨g, hg'⟩ : ∃ g, c.g = g + 1 := ⟨c.g - 1, by omega⟩
    have : ∃ w, slongAsFmpz x = .ub w := by
      unfold slongAsFmpz
      split
      · exact ⟨_, rfl⟩
      · rw [if_pos (by omega)]; exact ⟨_, rfl⟩
    obtain ⟨w, hw⟩ := this
    simp only [periodMatrix, hg', periodRows, periodsLoop, addTerms, addTerm, hw]
    trivial

/-- the sparse matrix row used in `C16_large_coefficient_fails` is the one a unimodular base change can have. -/
example : FitsSlong (2 ^ 62) ∧ FitsSlong (-(2 ^ 63)) ∧ ¬ FitsSlong (2 ^ 63) := by decide

/-- **C16/C17 (end to end).** The loops returned by `symplectic_basis` meet all the conditions of C17
on indices and sheets, hence `period_matrix` is the exact combination as soon as their coefficients are
below `2^62`. -/
theorem C17_on_symplectic_basis {W : Type} {m n : Int} {c : Sec} (hn : 2 ≤ n) (h : secInit m n = .ok c)
    {e : List (Edge W)} {I : Nat × Nat → Nat × Nat → Int} {P : Mat (e.length * (c.shape.m - 1))}
    {al be : List (List Gamma)} (hb : IsSymplecticBasis e.length (c.shape.m - 1) c.shape.g I P al be)
    (hsmall : ∀ l ∈ al ++ be, ∀ t ∈ l, -(2 ^ 62) < t.coeff ∧ t.coeff < 2 ^ 62)
    (integrals : Nat → Nat → ℂ) :
    ∃ oa ob, periodMatrix exact c.shape al e.length integrals = .ok oa ∧
      periodMatrix exact c.shape be e.length integrals = .ok ob ∧
      ∀ r i j k x y, r < c.shape.g → Spec.diffOf c.shape.ni c.shape.j1 r = (i, j) →
        al[k]? = some x → be[k]? = some y →
        oa r k = (x.map fun t => (t.coeff : ℂ) * (Spec.zeta c.shape.m ^ (t.shift * j))⁻¹ *
          integrals t.index r).sum ∧
        ob r k = (y.map fun t => (t.coeff : ℂ) * (Spec.zeta c.shape.m ^ (t.shift * j))⁻¹ *
          integrals t.index r).sum := by
  have hT : ∀ l ∈ al ++ be, ∀ t ∈ l, t.index < e.length ∧ t.shift < c.shape.m ∧
      -(2 ^ 62) < t.coeff ∧ t.coeff < 2 ^ 62 := by
    intro l hl t ht
    obtain ⟨-, h2, h3⟩ := (hb.terms l hl).1 t ht
    exact ⟨h2, by omega, hsmall l hl t ht⟩
  obtain ⟨oa, e1, h1⟩ := C17_period_matrix hn h al hb.lengths.1.ge integrals
    (fun l hl => hT l (List.mem_append_left _ hl))
  obtain ⟨ob, e2, h2⟩ := C17_period_matrix hn h be hb.lengths.2.ge integrals
    (fun l hl => hT l (List.mem_append_right _ hl))
  refine ⟨oa, ob, e1, e2, ?_⟩
  intro r i j k x y hr hij hx hy
  have hk : k < c.shape.g := by
    have := (List.getElem?_eq_some_iff.1 hx).1
    have := hb.lengths.1
    omega
  exact ⟨h1 r i j k x hr hij hk hx, h2 r i j k y hr hij hk hy⟩

end Hcp
