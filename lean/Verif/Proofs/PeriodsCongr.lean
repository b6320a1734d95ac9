import Verif.Proofs.Periods

/-!
# The matrix of periods reads the cells of the integrals inside the matrix only
-/

namespace Hcp

variable {A : Type} {X : Arith A}

theorem scalarAddmul_congr {sz ro vsz : Nat} {v v' : Nat → A} (h : ∀ i < vsz, v i = v' i) (vo len : Nat) (c : A) (x : Nat → A) :
    scalarAddmul X sz ro vsz v vo len c x = scalarAddmul X sz ro vsz v' vo len c x := by
  have e : rdV vsz v = rdV vsz v' := by
    funext i
    unfold rdV
    split
    · rename_i hi
      rw [h i hi]
    · rfl
  unfold scalarAddmul
  rw [e]

theorem addBlocks_congr {c : Shape} (l : Nat) (coeff : Int) {ii ii' : Nat → A} (h : ∀ i < c.g, ii i = ii' i) (ni : List Nat) :
    ∀ (j off : Nat) (x : Nat → A), addBlocks X c l coeff ii j off ni x = addBlocks X c l coeff ii' j off ni x := by
  induction ni with
  | nil => intros; rfl
  | cons a ni ih =>
    intro j off x
    unfold addBlocks
    simp only [scalarAddmul_congr h, ih]

theorem addTerm_congr {c : Shape} {rows : Nat} {I I' : Nat → Nat → A} (h : ∀ k < rows, ∀ i < c.g, I k i = I' k i) (t : Gamma) (x : Nat → A) :
    addTerm X c rows I t x = addTerm X c rows I' t x := by
  unfold addTerm
  split
  · rename_i ht
    simp only [scalarAddmul_congr (h _ ht), addBlocks_congr t.shift _ (h _ ht)]
  · rfl

theorem addTerms_congr {c : Shape} {rows : Nat} {I I' : Nat → Nat → A} (h : ∀ k < rows, ∀ i < c.g, I k i = I' k i) (l : List Gamma) :
    ∀ x : Nat → A, addTerms X c rows I l x = addTerms X c rows I' l x := by
  induction l with
  | nil => intros; rfl
  | cons t l ih =>
    intro x
    unfold addTerms
    simp only [addTerm_congr h, ih]

theorem periodRows_congr {c : Shape} {rows : Nat} {I I' : Nat → Nat → A} (h : ∀ k < rows, ∀ i < c.g, I k i = I' k i) (cnt : Nat) :
    ∀ (k : Nat) (basis : List (List Gamma)), periodRows X c rows I cnt k basis = periodRows X c rows I' cnt k basis := by
  induction cnt with
  | zero => intros; rfl
  | succ cnt ih =>
    intro k basis
    cases basis with
    | nil => rfl
    | cons lp basis =>
      unfold periodRows periodsLoop
      simp only [addTerms_congr h, ih]

/-- only the cells of the `rows × g` matrix of integrals are read -/
theorem periodMatrix_congr {c : Shape} {rows : Nat} {I I' : Nat → Nat → A} (h : ∀ k < rows, ∀ i < c.g, I k i = I' k i) (basis : List (List Gamma)) :
    periodMatrix X c basis rows I = periodMatrix X c basis rows I' := by
  unfold periodMatrix
  rw [periodRows_congr h]

end Hcp
