import Verif.Basic

/-!
# Model of `arb/tau_matrix.c`

The matrix routines of Arb are parameters: `M n m` is the type of `arb_mat_t`, `C n m` of `acb_mat_t` with `n` rows and
`m` columns, `K` of `acb_t`.
-/

namespace Hcp

/-- matrix routines of Arb called by `tau_matrix.c` -/
structure MatOps where
  M : Nat → Nat → Type
  C : Nat → Nat → Type
  K : Type
  /-- factorisation and permutation of `arb_mat_lu` -/
  Lu : Nat → Type
  /-- matrix of the real parts of the entries, the loop of `acb_mat_real` (tau_matrix.c 11-18) -/
  real : {n m : Nat} → C n m → M n m
  /-- `acb_mat_imag` (tau_matrix.c 20-27) -/
  imag : {n m : Nat} → C n m → M n m
  /-- `acb_mat_set_real` and `acb_mat_set_imag` (tau_matrix.c 29-45) -/
  join : {n m : Nat} → M n m → M n m → C n m
  /-- `arb_mat_mul` -/
  rmul : {n k m : Nat} → M n k → M k m → M n m
  /-- `arb_mat_add` -/
  radd : {n m : Nat} → M n m → M n m → M n m
  /-- `arb_mat_sub` -/
  rsub : {n m : Nat} → M n m → M n m → M n m
  /-- `arb_mat_lu`, `none` when it returns `0` -/
  lu : {n : Nat} → M n n → Option (Lu n)
  /-- `arb_mat_solve_lu_precomp` -/
  luSolve : {n m : Nat} → Lu n → M n m → M n m
  /-- `acb_mat_solve`, `none` when it returns `0` -/
  solve : {n m : Nat} → C n n → C n m → Option (C n m)
  /-- `acb_contains_zero` of `acb_mat_det` -/
  detHasZero : {n : Nat} → C n n → Bool
  /-- `acb_mat_scalar_mul_acb` by `i` -/
  mulI : {n m : Nat} → C n m → C n m
  /-- `acb_mat_mul` -/
  cmul : {n k m : Nat} → C n k → C k m → C n m
  /-- coefficients of `acb_mat_charpoly` -/
  charpoly : {n : Nat} → C n n → Nat → K
  /-- `acb_div` -/
  kdiv : K → K → K
  /-- `acb_mat_scalar_mul_acb (., B, c)` -/
  smul : {n m : Nat} → C n m → K → C n m
  /-- `acb_mat_scalar_addmul_acb (X, A, c)` -/
  saddmul : {n m : Nat} → C n m → C n m → K → C n m

variable (O : MatOps)

/-- second half of `acb_mat_solve_real` (tau_matrix.c 78-98), after the factorisation of the real part.  The variables `d`, `c`, `b`, `a`, `x`
overwritten in place by the code get a new name at each assignment. -/
def solveRealLu {n m : Nat} (LU : O.Lu n) (a b : O.M n n) (c d : O.M n m) : Option (O.C n m) :=
  let d1 := O.luSolve LU d
  let c1 := O.radd c (O.rmul b d1)
  let t := O.luSolve LU b
  let a1 := O.radd a (O.rmul b t)
  match O.lu a1 with
  | none => none
  | some LU1 =>
    let x := O.luSolve LU1 c1
    some (O.join x (O.rsub d1 (O.rmul t x)))

/-- `acb_mat_solve_real` (tau_matrix.c 47-110) with `n` and `m` not zero; `none` when it returns `0` (`X` is then unchanged). -/
def solveReal {n m : Nat} (A : O.C n n) (B : O.C n m) : Option (O.C n m) :=
  match O.lu (O.real A) with
  | none => none
  | some LU => solveRealLu O LU (O.real A) (O.imag A) (O.real B) (O.imag B)

/-- the loop of `acb_mat_solve_charpoly` (tau_matrix.c 125-129): `cnt` indices remain from `k`; state `(AB, X)`. -/
def charpolyLoop {n m : Nat} (A : O.C n n) (chi : Nat → O.K) : (cnt k : Nat) → O.C n m → O.C n m → O.C n m
  | 0, _, _, X => X
  | cnt + 1, k, AB, X =>
    let AB1 := O.cmul A AB
    charpolyLoop A chi cnt (k + 1) AB1 (O.saddmul X AB1 (chi k))

/-- `acb_mat_solve_charpoly` (tau_matrix.c 112-133); the degree of the characteristic polynomial is `n ≥ 1`. -/
def solveCharpoly {n m : Nat} (A : O.C n n) (B : O.C n m) : O.C n m :=
  let c := O.charpoly A
  let chi : Nat → O.K := fun k => O.kdiv (c k) (c 0)
  charpolyLoop O A chi (n - 1) 2 B (O.smul B (chi 1))

/-- `acb_mat_solve_multi` (tau_matrix.c 135-179) -/
def solveMulti {n m : Nat} (A : O.C n n) (B : O.C n m) : Res (O.C n m) :=
  match O.solve A B with
  | some X => .ok X
  | none =>
    if O.detHasZero A then .abort "matrix is not invertible"
    else match solveReal O A B with
      | some X => .ok X
      | none => match solveReal O (O.mulI A) (O.mulI B) with
        | some X => .ok X
        | none => .ok (solveCharpoly O A B)

/-- `tau_matrix` (tau_matrix.c 181-184) -/
def tauMatrix {n m : Nat} (omega0 : O.C n n) (omega1 : O.C n m) : Res (O.C n m) := solveMulti O omega0 omega1

end Hcp
