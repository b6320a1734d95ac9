import Verif.Model.Arith
import Mathlib.Analysis.SpecialFunctions.Pow.Complex

/-!
# Exact complex arithmetic, and what "enclosure" means
-/

namespace Hcp

/-- The mathematical value of each primitive.  Principal branches: `arg` in `(-pi, pi]`.
The totalised values (`x / 0 = 0`, `log 0 = 0`) are those of Mathlib. -/
noncomputable def exact : Arith ℂ where
  zero := 0
  one := 1
  add := (· + ·)
  sub := (· - ·)
  mul := (· * ·)
  neg := fun x => -x
  div := (· / ·)
  inv := fun x => x⁻¹
  pow := fun x k => x ^ k
  ofInt := fun k => (k : ℂ)
  mul2exp := fun x k => x * (2 : ℂ) ^ k
  root := fun m x => x ^ ((m : ℂ)⁻¹)
  sqrt := fun x => x ^ ((2 : ℂ)⁻¹)
  unitRoot := fun n => Complex.exp (2 * Real.pi * Complex.I / n)
  log := Complex.log
  exp := Complex.exp
  divI := fun x => x / Complex.I
  pi := (Real.pi : ℂ)

/-- `Encloses X Y R`: every primitive of `X` preserves the relation `R` to the corresponding
primitive of `Y`.  With `Y = exact` and `R b z` meaning "the ball `b` contains `z`", this is the inclusion
property that Arb documents for its functions (an operation that is undefined on part of its
input returns the indeterminate ball, which contains everything). -/
structure Encloses {A B : Type} (X : Arith A) (Y : Arith B) (R : A → B → Prop) : Prop where
  zero : R X.zero Y.zero
  one : R X.one Y.one
  add : ∀ {a b c d}, R a b → R c d → R (X.add a c) (Y.add b d)
  sub : ∀ {a b c d}, R a b → R c d → R (X.sub a c) (Y.sub b d)
  mul : ∀ {a b c d}, R a b → R c d → R (X.mul a c) (Y.mul b d)
  neg : ∀ {a b}, R a b → R (X.neg a) (Y.neg b)
  div : ∀ {a b c d}, R a b → R c d → R (X.div a c) (Y.div b d)
  inv : ∀ {a b}, R a b → R (X.inv a) (Y.inv b)
  pow : ∀ {a b} (k), R a b → R (X.pow a k) (Y.pow b k)
  ofInt : ∀ k, R (X.ofInt k) (Y.ofInt k)
  mul2exp : ∀ {a b} (k), R a b → R (X.mul2exp a k) (Y.mul2exp b k)
  root : ∀ {a b} (m), R a b → R (X.root m a) (Y.root m b)
  sqrt : ∀ {a b}, R a b → R (X.sqrt a) (Y.sqrt b)
  unitRoot : ∀ n, R (X.unitRoot n) (Y.unitRoot n)
  log : ∀ {a b}, R a b → R (X.log a) (Y.log b)
  exp : ∀ {a b}, R a b → R (X.exp a) (Y.exp b)
  divI : ∀ {a b}, R a b → R (X.divI a) (Y.divI b)
  pi : R X.pi Y.pi

end Hcp
