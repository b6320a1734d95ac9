import Verif.Model.Main
import Verif.Spec.CurvePoly
import Verif.Spec.Cli
import Mathlib.Algebra.Squarefree.Basic
import Mathlib.Algebra.Polynomial.Eval.Coeff

/-!
# What the program `periods` promises
-/

namespace Hcp
open Spec

variable {A B C W : Type} {O : MatOps}

/-- `x` lists the roots of `P` -/
def RootsOf (P : Polynomial ℤ) (x : Nat → ℂ) : Prop :=
  P.map (Int.castRingHom ℂ) = Polynomial.C (P.leadingCoeff : ℂ) * ∏ k ∈ Finset.range P.natDegree, (Polynomial.X - Polynomial.C (x k))

/-- What is assumed on the libraries: those of `AjEnv.Sound` for each polynomial; `fmpz_poly_degree` is the degree, `-1` for zero; `fmpz_poly_is_squarefree` is right from degree 2 on; at each precision of at least two bits the
balls returned by `arb_fmpz_poly_complex_roots` for a squarefree polynomial contain its roots, in some order. -/
structure MainEnv.Sound (E : MainEnv A B C W O) (R : A → ℂ → Prop) (RB : B → ℝ → Prop) (RC : {n m : Nat} → O.C n m → Matrix (Fin n) (Fin m) ℂ → Prop) : Prop where
  aj : ∀ p, (E.aj p).Sound R RB RC
  degree0 : E.degree (fun _ => 0) = -1
  degree : ∀ P : Polynomial ℤ, P ≠ 0 → E.degree P.coeff = P.natDegree
  sqfree : ∀ P : Polynomial ℤ, 2 ≤ P.natDegree → (E.sqfree P.coeff = true ↔ Squarefree (P.map (Int.castRingHom ℚ)))
  roots : ∀ P : Polynomial ℤ, 2 ≤ P.natDegree → Squarefree (P.map (Int.castRingHom ℚ)) → ∀ p, 2 ≤ p → ∃ x, RootsOf P x ∧ ∀ k, R ((E.aj P.coeff).roots p k) (x k)

/-- The conditions of C56 on a run, for the roots `x`. -/
structure GoodRun (V : AjEnv A B C W O) (R : A → ℂ → Prop) (fuel : Nat) (c : Sec) (flag : Nat) (n : Nat) (x : Nat → ℂ) (out : AjOut A W O c.shape.g) : Prop where
  resolved : out.type ≠ .d2 → Resolved (V.ar 64) (V.tests 64) x out.tree.e out.data
  free : out.type = .de ∨ (out.type = .gc ∧ flag &&& ajNoInt ≠ 0) → FreeEdges x n out.tree.e
  gc : out.type = .gc → flag &&& ajNoInt = 0 → GcGood V R fuel c.shape flag out.intprec out.tree.e out.data
  de : out.type = .de → flag &&& ajNoInt = 0 → DeGood V R c.shape flag out.intprec x out.tree.e out.data

/-- the object asked for by the commands -/
def asked (cmds : List Cmd) : Obj :=
  if Cmd.flag .tree ∈ cmds then .tree else if Cmd.flag .int ∈ cmds then .integrals else if Cmd.flag .big ∈ cmds then .omega else .tau

/-- the object printed is the given field of the result of the computation -/
def ShownIs {g : Nat} (s : Shown A W O g) (out : AjOut A W O g) : Obj → Prop
  | .tree => s = .tree out.tree
  | .integrals => ∃ I, s = .integrals I ∧ out.integrals = some I
  | .omega => ∃ om0 om1, s = .omega om0 om1 ∧ out.omega = some (om0, om1)
  | .tau => ∃ om0 om1 t, s = .tau t ∧ out.omega = some (om0, om1) ∧ out.tau = some t

end Hcp
