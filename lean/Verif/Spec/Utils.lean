import Verif.Model.Utils
import Mathlib.Analysis.Complex.Basic

/-!
# Specification: lexicographic order and sound comparisons (C37)
-/

namespace Hcp.Spec

/-- lexicographic order of the complex numbers, real part first -/
def LexLt (x y : ℂ) : Prop := x.re < y.re ∨ x.re = y.re ∧ x.im < y.im

/-- `R b z`: the ball `b` contains `z`; the operations of Arb are correct. -/
structure CmpSound {B T : Type} (O : CmpOps B T) (R : B → ℂ → Prop) (RT : T → ℝ → Prop) : Prop where
  subRe : ∀ {a b x y}, R a x → R b y → RT (O.subRe a b) (x.re - y.re)
  subIm : ∀ {a b x y}, R a x → R b y → RT (O.subIm a b) (x.im - y.im)
  /-- a ball around zero contains zero -/
  hasZero : ∀ {t}, RT t 0 → O.hasZero t = true
  /-- a positive ball has only positive elements -/
  pos : ∀ {t v}, RT t v → O.pos t = true → 0 < v
  /-- a ball without zero which is not positive has only negative elements -/
  neg : ∀ {t v}, RT t v → O.hasZero t = false → O.pos t = false → v < 0

/-- the balls are fine enough to see whether `x` is left of `y`, or, when the real parts agree, whether it is below -/
def Decided {B T : Type} (O : CmpOps B T) (p q : B × ℂ) : Prop :=
  (p.2.re ≠ q.2.re → O.hasZero (O.subRe p.1 q.1) = false) ∧
  (p.2.re = q.2.re → O.hasZero (O.subIm p.1 q.1) = false)

/-- result of a sorting routine with the comparison: a permutation in which no element compares greater than a later one -/
def SortResult {B T : Type} (O : CmpOps B T) (l s : List (B × ℂ)) : Prop :=
  s.Perm l ∧ s.Pairwise fun p q => cmpLex O p.1 q.1 ≤ 0

end Hcp.Spec
