import Verif.Basic
import Mathlib.Data.Matrix.Mul
import Mathlib.Data.Int.GCD

/-!
# `arb/fmpz_mat_extras.c` and `arb/symplectic_reduction.c`

An `r × r` `fmpz_mat` is a function on pairs of in-range indices.  Row and
column indices that the C code could take out of range are natural numbers and
are checked (outcome `ub`).
-/

namespace Hcp

/-- an `r × r` integer matrix (`fmpz_mat_t` with `m->r = m->c = r`) -/
abbrev Mat (r : Nat) := Matrix (Fin r) (Fin r) ℤ

variable {r : Nat}

/-- `row_swap` (fmpz_mat_extras.c 11-15). -/
def rowSwap (M : Mat r) (i1 i2 : Fin r) : Mat r :=
  fun a b => if a = i1 then M i2 b else if a = i2 then M i1 b else M a b

/-- `col_swap` (fmpz_mat_extras.c 17-23). -/
def colSwap (M : Mat r) (j1 j2 : Fin r) : Mat r :=
  fun a b => if b = j1 then M a j2 else if b = j2 then M a j1 else M a b

/-- `col_neg` (fmpz_mat_extras.c 25-31). -/
def colNeg (M : Mat r) (j : Fin r) : Mat r :=
  fun a b => if b = j then - M a b else M a b

/-- `row_neg` (fmpz_mat_extras.c 33-39). -/
def rowNeg (M : Mat r) (i : Fin r) : Mat r :=
  fun a b => if a = i then - M a b else M a b

/-- `col_addmul` (fmpz_mat_extras.c 41-47): column `j` += `v` * column `k`. -/
def colAddmul (M : Mat r) (j k : Fin r) (v : ℤ) : Mat r :=
  fun a b => if b = j then M a j + v * M a k else M a b

/-- `row_addmul` (fmpz_mat_extras.c 49-55): row `i` += `v` * row `k`. -/
def rowAddmul (M : Mat r) (i k : Fin r) (v : ℤ) : Mat r :=
  fun a b => if a = i then M i b + v * M k b else M a b

/-- `row_bezout` (fmpz_mat_extras.c 59-77).  Row `i2` is written last. -/
def rowBezout (M : Mat r) (i1 i2 : Fin r) (a b c d : ℤ) : Mat r :=
  fun x y => if x = i2 then c * M i1 y + d * M i2 y
    else if x = i1 then a * M i1 y + b * M i2 y else M x y

/-- `col_bezout` (fmpz_mat_extras.c 78-96). -/
def colBezout (M : Mat r) (j1 j2 : Fin r) (a b c d : ℤ) : Mat r :=
  fun x y => if y = j2 then c * M x j1 + d * M x j2
    else if y = j1 then a * M x j1 + b * M x j2 else M x y

/-- the pair of matrices `(p, m)` modified by `symplectic_reduction` -/
structure St (r : Nat) where
  P : Mat r
  M : Mat r

/-- Specification of `fmpz_xgcd(g, u, v, a, b)` (FLINT): `g = gcd(a,b) ≥ 0` and `u a + v b = g`.
The function is a parameter of the model. -/
structure XGcd where
  run : ℤ → ℤ → ℤ × ℤ × ℤ
  gcd_eq : ∀ a b, (run a b).1 = (Int.gcd a b : ℤ)
  bezout : ∀ a b, (run a b).2.1 * a + (run a b).2.2 * b = (run a b).1

/-- a concrete extended gcd meeting the specification -/
def XGcd.std : XGcd where
  run a b := ((Int.gcd a b : ℤ), Int.gcdA a b, Int.gcdB a b)
  gcd_eq _ _ := rfl
  bezout a b := by
    have := Int.gcd_eq_gcd_ab a b
    simp only [this, mul_comm]

/-- `swap_step` (symplectic_reduction.c 24-32). -/
def swapStep (st : St r) (i1 i2 : Nat) : Res (St r) :=
  if i1 = i2 then .ok st
  else if h : i1 < r ∧ i2 < r then
    .ok { P := rowSwap st.P ⟨i1, h.1⟩ ⟨i2, h.2⟩
          M := colSwap (rowSwap st.M ⟨i1, h.1⟩ ⟨i2, h.2⟩) ⟨i1, h.1⟩ ⟨i2, h.2⟩ }
  else .ub "swap_step: row index out of range"

/-- `neg_step` (symplectic_reduction.c 34-40). -/
def negStep (st : St r) (i : Fin r) : St r where
  P := rowNeg st.P i
  M := colNeg (rowNeg st.M i) i

/-- `transvect_step` (symplectic_reduction.c 41-47). -/
def transvectStep (st : St r) (i1 i2 : Fin r) (q : ℤ) : St r where
  P := rowAddmul st.P i1 i2 q
  M := colAddmul (rowAddmul st.M i1 i2 q) i1 i2 q

/-- `bezout_step` (symplectic_reduction.c 49-74); `fmpz_divexact` is exact division. -/
def bezoutStep (xg : XGcd) (st : St r) (i k : Fin r) (a b : ℤ) : St r :=
  let g := (xg.run a b).1
  let u := (xg.run a b).2.1
  let v := (xg.run a b).2.2
  let u1 := -(b / g)
  let v1 := a / g
  { P := rowBezout st.P i k u v u1 v1
    M := colBezout (rowBezout st.M i k u v u1 v1) i k u v u1 v1 }

/-- the in-range indices `lo ≤ k < hi` in ascending order, as run through by
`for (k = lo; k < hi; k++)`.  In all uses `hi = len ≤ m->r = r`, since `len`
starts at `m->r` and only decreases. -/
def idxRange (r lo hi : Nat) : List (Fin r) :=
  (List.finRange r).filter (fun k => lo ≤ k.val ∧ k.val < hi)

/-- the loop of `pivot_line` (symplectic_reduction.c 83-95) on the remaining
columns, with the current best value `v` and its position `jv`. -/
def pivotGo (M : Mat r) (i : Fin r) : List (Fin r) → ℤ → Nat → Nat
  | [], _, jv => jv
  | j :: js, v, jv =>
    if M i j = 0 then pivotGo M i js v jv
    else if (M i j).natAbs = 1 then j.val
    else if v = 0 ∨ v.natAbs > (M i j).natAbs then pivotGo M i js (M i j) j.val
    else pivotGo M i js v jv

/-- `pivot_line` (symplectic_reduction.c 77-98): position of the pivot on line
`i`, or `len`.  (If `i ≥ r` the loop is empty, because `i < j < len ≤ r`.) -/
def pivotLine (M : Mat r) (i len : Nat) : Nat :=
  if h : i < r then pivotGo M ⟨i, h⟩ (idxRange r (i + 1) len) 0 len else len

/-- the first `while` of `symplectic_reduction` (symplectic_reduction.c
114-121), by recursion on `len`.  Returns the new `len` and the pivot column,
or `none` for the early `return` of lines 119-120.  When `len` has reached 0 the C code calls
`swap_step(p, m, i, -1)`. -/
def findPivot (d : Nat) : Nat → St r → Res (St r × Nat × Option Nat)
  | 0, _ => .ub "swap_step: row index -1"
  | len + 1, st =>
    let j := pivotLine st.M (2 * d) (len + 1)
    if j = len + 1 then do
      let st' ← swapStep st (2 * d) len
      if len = 2 * d then .ok (st', len, none) else findPivot d len st'
    else .ok (st, len + 1, some j)

/-- "clear row i" (symplectic_reduction.c 138-151) on the remaining columns. -/
def clearRowI (xg : XGcd) (i j : Fin r) : List (Fin r) → St r → St r
  | [], st => st
  | k :: ks, st =>
    if st.M i k = 0 then clearRowI xg i j ks st
    else if st.M i j ∣ st.M i k then
      clearRowI xg i j ks (transvectStep st k j (-(st.M i k / st.M i j)))
    else clearRowI xg i j ks (bezoutStep xg st j k (st.M i j) (st.M i k))

/-- "clear row j" (symplectic_reduction.c 152-170); the Boolean is the C
variable `cleared`. -/
def clearRowJ (xg : XGcd) (i j : Fin r) : List (Fin r) → St r → Bool → St r × Bool
  | [], st, cl => (st, cl)
  | k :: ks, st, cl =>
    if st.M j k = 0 then clearRowJ xg i j ks st cl
    else if st.M i j ∣ st.M j k then
      clearRowJ xg i j ks (transvectStep st k i (st.M j k / st.M i j)) cl
    else clearRowJ xg i j ks (bezoutStep xg st i k (st.M j i) (st.M j k)) false

/-- `while(!cleared)` (symplectic_reduction.c 133-172); `fuel` bounds the number of passes. -/
def sweep (xg : XGcd) (i j : Fin r) (ks : List (Fin r)) : Nat → St r → Res (St r)
  | 0, _ => .diverge
  | fuel + 1, st =>
    let st1 := clearRowI xg i j ks st
    let res := clearRowJ xg i j ks st1 true
    if res.2 then .ok res.1 else sweep xg i j ks fuel res.1

/-- "move j to i + 1" (symplectic_reduction.c 123-125). -/
def movePivot (d j0 : Nat) (st : St r) : Res (St r) :=
  if j0 ≠ 2 * d + 1 then swapStep st j0 (2 * d + 1) else .ok st

/-- the part of the main loop after a pivot has been found in column `j0`
(symplectic_reduction.c 123-172). -/
def reduceBlock (xg : XGcd) (fuel d len j0 : Nat) (st : St r) : Res (St r) := do
  let st1 ← movePivot d j0 st
  if h : 2 * d + 1 < r then
    let i : Fin r := ⟨2 * d, by omega⟩
    let j : Fin r := ⟨2 * d + 1, h⟩
    let st2 := if st1.M i j < 0 then negStep st1 j else st1
    sweep xg i j (idxRange r (2 * d + 2) len) fuel st2
  else .ub "row index out of range"

/-- the main loop (symplectic_reduction.c 109-173): `todo = g - d` iterations remain. -/
def reduceLoop (xg : XGcd) (fuel : Nat) : (todo d len : Nat) → St r → Res (St r)
  | 0, _, _, st => .ok st
  | todo + 1, d, len, st => do
    match ← findPivot d len st with
    | (st', _, none) => .ok st'
    | (st', len', some j0) => do
      let st'' ← reduceBlock xg fuel d len' j0 st'
      reduceLoop xg fuel todo (d + 1) len' st''

/-- `symplectic_reduction` (symplectic_reduction.c 100-174). -/
def symplecticReduction (xg : XGcd) (fuel : Nat) (M : Mat r) (g : Nat) : Res (St r) :=
  reduceLoop xg fuel g 0 r { P := 1, M := M }

/-- the inner loop of `is_symplectic_j` (fmpz_mat_extras.c 127-133) over the columns `js`. -/
def isSympRow (M : Mat r) (i0 i1 : Fin r) : List (Fin r) → Bool
  | [] => true
  | j :: js =>
    if j ≠ i1 ∧ M i0 j ≠ 0 then false
    else if j ≠ i0 ∧ M i1 j ≠ 0 then false
    else isSympRow M i0 i1 js

/-- `is_symplectic_j` (fmpz_mat_extras.c 119-140): `todo` rows pairs remain, from pair `i`. -/
def isSympGo (M : Mat r) (g2 : Nat) : (todo i : Nat) → Res Bool
  | 0, _ => .ok true
  | todo + 1, i =>
    if h : 2 * i + 1 < r ∧ g2 ≤ r then
      let i0 : Fin r := ⟨2 * i, by omega⟩
      let i1 : Fin r := ⟨2 * i + 1, h.1⟩
      if isSympRow M i0 i1 (idxRange r 0 g2) then
        if - M i0 i1 = M i1 i0 then isSympGo M g2 todo (i + 1) else .ok false
      else .ok false
    else .ub "index out of range"

/-- `is_symplectic_j(m, g, g2)` (fmpz_mat_extras.c 119-140). -/
def isSymplecticJ (M : Mat r) (g g2 : Nat) : Res Bool := isSympGo M g2 g 0

end Hcp
