import Verif.Model.Intersection
import Verif.Model.Symplectic
import Verif.Model.Constants

/-!
# Model of `arb/symplectic_basis.c`, `arb/homol.c` and `arb/period_matrix.c`
-/

namespace Hcp

/-- `gamma_t` (abel_jacobi.h 105-111): the term `coeff * gamma_index^(shift)` of a loop. -/
structure Gamma where
  coeff : Int
  shift : Nat
  index : Nat
  deriving DecidableEq, Repr

/-- `count_coeffs` (symplectic_basis.c 9-17), the loop from `j`, `cnt = len - j` entries remaining; `c` is
the current count. -/
def countCoeffs (row : Nat → Int) : (cnt j c : Nat) → Nat
  | 0, _, c => c
  | cnt + 1, j, c => countCoeffs row cnt (j + 1) (if row j ≠ 0 then c + 1 else c)

/-- `for (; fmpz_is_zero(row + j); j++);` (symplectic_basis.c 26), where `cnt` entries of the row remain
from `j` on. -/
def skipZero (row : Nat → Int) : (cnt j : Nat) → Res Nat
  | 0, _ => .ub "row entry out of range"
  | cnt + 1, j => if row j = 0 then skipZero row cnt (j + 1) else .ok j

/-- `set_loops` (symplectic_basis.c 19-36): `n` terms remain to be stored, scanning from `j`. -/
def setLoops (row : Nat → Int) (len m1 : Nat) : (n j : Nat) → Res (List Gamma)
  | 0, _ => .ok []
  | n + 1, j => do
    let j' ← skipZero row (len - j) j
    if ¬ FitsSlong (row j') then .abort "coefficient too large in basis" else do
    if m1 = 0 then .ub "division by zero" else do
    let rest ← setLoops row len m1 n (j' + 1)
    .ok ({ coeff := row j', shift := j' % m1, index := j' / m1 } :: rest)

/-- one loop of the basis (symplectic_basis.c 68-71, 74-77): the row `i` of the `len × len` matrix `p`. -/
def basisLoop {r : Nat} (p : Mat r) (m1 i : Nat) : Res (List Gamma) :=
  if h : i < r then
    let row : Nat → Int := fun j => if hj : j < r then p ⟨i, h⟩ ⟨j, hj⟩ else 0
    setLoops row r m1 (countCoeffs row r 0 0) 0
  else .ub "row out of range"

/-- the loop over `i` (symplectic_basis.c 62-82): `cnt = g - i` iterations remain. -/
def basisLoops {r : Nat} (p : Mat r) (m1 : Nat) : (cnt i : Nat) → Res (List (List Gamma) × List (List Gamma))
  | 0, _ => .ok ([], [])
  | cnt + 1, i => do
    let a ← basisLoop p m1 (2 * i)
    let b ← basisLoop p m1 (2 * i + 1)
    let rest ← basisLoops p m1 cnt (i + 1)
    .ok (a :: rest.1, b :: rest.2)

/-- an `fmpz_mat_t` filled through pointers, seen as a matrix -/
def IMat.toMat (r : Nat) (c : IMat) : Mat r := fun a b => c a.val b.val

/-- `symplectic_basis` (symplectic_basis.c 38-84): loops `alpha`, `beta`. -/
def symplecticBasis {W : Type} (xg : XGcd) (fuel : Nat) (o : ShiftOracle) (e : List (Edge W)) (m g : Nat) :
    Res (List (List Gamma) × List (List Gamma)) := do
  let c ← intersectionTree o e m
  let st ← symplecticReduction xg fuel (c.toMat (e.length * (m - 1))) g
  basisLoops st.P (m - 1) g 0

/-- `(fmpz *) &coeff` (period_matrix.c 21): FLINT's `fmpz` is a word holding either a value of absolute
value at most `COEFF_MAX = 2^62 - 1`, or (second highest bit set) an encoded pointer.  Any other word is
not a valid `fmpz`. -/
def slongAsFmpz (c : Int) : Res Int :=
  if 2 ^ 62 ≤ c then .ub "word decoded as a pointer"
  else if c ≤ -(2 ^ 62) then .ub "invalid fmpz word"
  else .ok c

variable {A : Type} (X : Arith A)

/-- the loop over `j` of `periods_loop` (period_matrix.c 30-40); the list is the tail of `c.ni` from `j`,
`off` the common offset of `r` and `ii`. -/
def addBlocks (c : Shape) (l : Nat) (coeff : Int) (ii : Nat → A) :
    (j off : Nat) → List Nat → (Nat → A) → Res (Nat → A)
  | _, _, [], x => .ok x
  | j, off, nij :: rest, x => do
    let z ← rdV c.m (unitRoots X c.m) (((c.m - l) * (c.j1 + j)) % c.m)
    let x1 ← scalarAddmul X c.g off c.g ii off nij (X.mul z (X.ofInt coeff)) x
    addBlocks c l coeff ii (j + 1) (off + nij) rest x1

/-- the body of the loop over the terms of `periods_loop` (period_matrix.c 20-41). -/
def addTerm (c : Shape) (rows : Nat) (integrals : Nat → Nat → A) (t : Gamma) (x : Nat → A) :
    Res (Nat → A) :=
  if t.index < rows then do
    let coeff ← slongAsFmpz t.coeff
    if t.shift = 0 then scalarAddmul X c.g 0 c.g (integrals t.index) 0 c.g (X.ofInt coeff) x
    else addBlocks X c t.shift coeff (integrals t.index) 0 0 c.ni x
  else .ub "row of integrals out of range"

/-- the loop over the terms of `periods_loop`. -/
def addTerms (c : Shape) (rows : Nat) (integrals : Nat → Nat → A) : List Gamma → (Nat → A) → Res (Nat → A)
  | [], x => .ok x
  | t :: ts, x => do
    let x1 ← addTerm X c rows integrals t x
    addTerms c rows integrals ts x1

/-- `periods_loop` (period_matrix.c 9-45); `integrals` is a matrix of `rows` rows of `c.g` cells.
Simplification: the product `(c.m - l) * (c.j1 + j)` does not overflow (`m < 2^31`). -/
def periodsLoop (c : Shape) (rows : Nat) (integrals : Nat → Nat → A) (loop : List Gamma) : Res (Nat → A) :=
  addTerms X c rows integrals loop fun _ => X.zero

/-- the loop of `period_matrix` (period_matrix.c 55-56) over the remaining loops. -/
def periodRows (c : Shape) (rows : Nat) (integrals : Nat → Nat → A) : (cnt k : Nat) → List (List Gamma) →
    Res (List (Nat → A))
  | 0, _, _ => .ok []
  | _ + 1, _, [] => .ub "loop out of range"
  | cnt + 1, k, lp :: basis => do
    let row ← periodsLoop X c rows integrals lp
    let rest ← periodRows c rows integrals cnt (k + 1) basis
    .ok (row :: rest)

/-- `period_matrix` (period_matrix.c 47-61): the `g × g` matrix after the transposition of line 57, as a
function of (row, column). -/
def periodMatrix (c : Shape) (basis : List (List Gamma)) (rows : Nat) (integrals : Nat → Nat → A) :
    Res (Nat → Nat → A) := do
  let om ← periodRows X c rows integrals c.g 0 basis
  .ok fun r k => match om[k]? with
    | some row => row r
    | none => X.zero

end Hcp
