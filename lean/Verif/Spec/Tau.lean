import Verif.Model.Tau
import Mathlib.Data.Complex.Basic
import Mathlib.LinearAlgebra.Matrix.NonsingularInverse
import Mathlib.LinearAlgebra.Matrix.Charpoly.Basic

/-!
# What the matrix routines of Arb guarantee
-/

namespace Hcp

/-- the complex matrix with given real and imaginary parts -/
noncomputable def cmat {n m : Nat} (x y : Matrix (Fin n) (Fin m) ℝ) : Matrix (Fin n) (Fin m) ℂ :=
  Matrix.of fun i j => (x i j : ℂ) + (y i j : ℂ) * Complex.I

/-- Inclusion properties: `RM a a'` means that the matrix of balls `a` contains the real matrix `a'`, etc.  The linear solvers, when
they succeed, certify that every matrix of the ball is invertible and enclose the solution. -/
structure MatEncl (O : MatOps) (RM : {n m : Nat} → O.M n m → Matrix (Fin n) (Fin m) ℝ → Prop)
    (RC : {n m : Nat} → O.C n m → Matrix (Fin n) (Fin m) ℂ → Prop) (RK : O.K → ℂ → Prop) : Prop where
  real : ∀ {n m : Nat} {a : O.C n m} {a'}, RC a a' → RM (O.real a) (a'.map Complex.re)
  imag : ∀ {n m : Nat} {a : O.C n m} {a'}, RC a a' → RM (O.imag a) (a'.map Complex.im)
  join : ∀ {n m : Nat} {x y : O.M n m} {x' y'}, RM x x' → RM y y' → RC (O.join x y) (cmat x' y')
  rmul : ∀ {n k m : Nat} {x : O.M n k} {y : O.M k m} {x' y'}, RM x x' → RM y y' → RM (O.rmul x y) (x' * y')
  radd : ∀ {n m : Nat} {x y : O.M n m} {x' y'}, RM x x' → RM y y' → RM (O.radd x y) (x' + y')
  rsub : ∀ {n m : Nat} {x y : O.M n m} {x' y'}, RM x x' → RM y y' → RM (O.rsub x y) (x' - y')
  lu : ∀ {n : Nat} {a : O.M n n} {a' l}, RM a a' → O.lu a = some l →
    a'.det ≠ 0 ∧ ∀ {m : Nat} {b : O.M n m} {b'}, RM b b' → RM (O.luSolve l b) (a'⁻¹ * b')
  solve : ∀ {n m : Nat} {a : O.C n n} {b x : O.C n m} {a' b'}, RC a a' → RC b b' → O.solve a b = some x →
    a'.det ≠ 0 ∧ RC x (a'⁻¹ * b')
  det : ∀ {n : Nat} {a : O.C n n} {a'}, RC a a' → O.detHasZero a = false → a'.det ≠ 0
  mulI : ∀ {n m : Nat} {a : O.C n m} {a'}, RC a a' → RC (O.mulI a) (Complex.I • a')
  cmul : ∀ {n k m : Nat} {x : O.C n k} {y : O.C k m} {x' y'}, RC x x' → RC y y' → RC (O.cmul x y) (x' * y')
  charpoly : ∀ {n : Nat} {a : O.C n n} {a'} (k : Nat), RC a a' → RK (O.charpoly a k) (a'.charpoly.coeff k)
  kdiv : ∀ {x y x' y'}, RK x x' → RK y y' → RK (O.kdiv x y) (x' / y')
  smul : ∀ {n m : Nat} {a : O.C n m} {c a' c'}, RC a a' → RK c c' → RC (O.smul a c) (c' • a')
  saddmul : ∀ {n m : Nat} {x a : O.C n m} {c x' a' c'}, RC x x' → RC a a' → RK c c' →
    RC (O.saddmul x a c) (x' + c' • a')

open Classical in
/-- exact matrices; the direct solver gives up always, so that the other strategies are exercised. -/
noncomputable def exactMat : MatOps where
  M n m := Matrix (Fin n) (Fin m) ℝ
  C n m := Matrix (Fin n) (Fin m) ℂ
  K := ℂ
  Lu n := Matrix (Fin n) (Fin n) ℝ
  real a := a.map Complex.re
  imag a := a.map Complex.im
  join := cmat
  rmul a b := a * b
  radd a b := a + b
  rsub a b := a - b
  lu a := if a.det ≠ 0 then some a else none
  luSolve l b := l⁻¹ * b
  solve _ _ := none
  detHasZero a := decide (a.det = 0)
  mulI a := Complex.I • a
  cmul a b := a * b
  charpoly a k := a.charpoly.coeff k
  kdiv x y := x / y
  smul a c := c • a
  saddmul x a c := x + c • a

theorem exactMat_encl : MatEncl exactMat (fun a b => a = b) (fun a b => a = b) (fun a b => a = b) where
  real := by rintro _ _ _ _ rfl; rfl
  imag := by rintro _ _ _ _ rfl; rfl
  join := by rintro _ _ _ _ _ _ rfl rfl; rfl
  rmul := by rintro _ _ _ _ _ _ _ rfl rfl; rfl
  radd := by rintro _ _ _ _ _ _ rfl rfl; rfl
  rsub := by rintro _ _ _ _ _ _ rfl rfl; rfl
  lu := by
    rintro n a _ l rfl h
    simp only [exactMat] at h
    split at h
    · rename_i h0
      cases h
      exact ⟨h0, by rintro _ _ _ rfl; rfl⟩
    · cases h
  solve := by rintro _ _ _ _ _ _ _ _ _ h; cases h
  det := by
    rintro n a _ rfl h
    simpa [exactMat] using h
  mulI := by rintro _ _ _ _ rfl; rfl
  cmul := by rintro _ _ _ _ _ _ _ rfl rfl; rfl
  charpoly := by rintro _ _ _ _ rfl; rfl
  kdiv := by rintro _ _ _ _ rfl rfl; rfl
  smul := by rintro _ _ _ _ _ _ rfl rfl; rfl
  saddmul := by rintro _ _ _ _ _ _ _ _ rfl rfl rfl; rfl

end Hcp
