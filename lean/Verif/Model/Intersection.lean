import Verif.Model.Tree

/-!
# Model of `arb/intersections_tree.c` (integer part)

The integer matrix is a function of its two indices together with its size; every write is checked.
The entries written are `1` and `-1`, which are small `fmpz`, so plain assignment is right.
-/

namespace Hcp

/-- contents of an `fmpz_mat_t` -/
abbrev IMat := Nat → Nat → Int

/-- `*c(i,j) = v` on a `size × size` matrix. -/
def wr (size : Nat) (c : IMat) (i j : Nat) (v : Int) : Res IMat :=
  if i < size ∧ j < size then .ok fun x y => if x = i ∧ y = j then v else c x y
  else .ub "matrix entry out of range"

/-- `(sp % m + m) % m` (intersections_tree.c 23-24), C remainder; no overflow for shifts in the range of
`shift_number`. -/
def normShift (sp : Int) (m : Nat) : Nat := (((sp.tmod m) + m).tmod m).toNat

/-- the two stores under `if (l < m - 1)` (intersections_tree.c 27-32 and 33-38); `v` is `1`
in the first and `-1` in the second. -/
def fillPair (size m i j k s : Nat) (v : Int) (c : IMat) : Res IMat :=
  let l := (k + s) % m
  if l < m - 1 then do
    let c1 ← wr size c (i + k) (j + l) v
    wr size c1 (j + l) (i + k) (-v)
  else .ok c

/-- the loop on `k` of `fill_block` (intersections_tree.c 25-39); `cnt = m - 1 - k`. -/
def fillLoop (size m i j sp sm : Nat) : (cnt k : Nat) → IMat → Res IMat
  | 0, _, c => .ok c
  | cnt + 1, k, c => do
    let c1 ← fillPair size m i j k sp 1 c
    let c2 ← fillPair size m i j k sm (-1) c1
    fillLoop size m i j sp sm cnt (k + 1) c2

/-- `fill_block` (intersections_tree.c 18-40). -/
def fillBlock (size : Nat) (c : IMat) (i j : Nat) (sp sm : Int) (m : Nat) : Res IMat :=
  fillLoop size m i j (normShift sp m) (normShift sm m) (m - 1) 0 c

/-- what the numerical part of the file provides: `shift_number` for the two types and
`is_neg_abad`, as functions of the two edge indices. -/
structure ShiftOracle where
  abad : Nat → Nat → Res Int
  abbd : Nat → Nat → Res Int
  neg : Nat → Nat → Bool

variable {W : Type}

/-- body of the inner loop (intersections_tree.c 165-191). -/
def interPair (o : ShiftOracle) (size m k l : Nat) (ek el : Edge W) (c : IMat) : Res IMat :=
  if ek.a ≠ el.a ∧ ek.b ≠ el.a then .ok c
  else if el.a = ek.a then do
    let s ← o.abad k l
    if o.neg k l then fillBlock size c (k * (m - 1)) (l * (m - 1)) (-s) (-1 - s) m
    else fillBlock size c (k * (m - 1)) (l * (m - 1)) (1 - s) (-s) m
  else if el.a = ek.b then do
    let s ← o.abbd k l
    fillBlock size c (k * (m - 1)) (l * (m - 1)) (-s) (1 - s) m
  else .abort "invalid tree"

/-- inner loop on `l` (intersections_tree.c 163-192); the list is the tail of the edge array from `l`. -/
def interRow (o : ShiftOracle) (size m k : Nat) (ek : Edge W) : (l : Nat) → List (Edge W) → IMat → Res IMat
  | _, [], c => .ok c
  | l, el :: rest, c => do
    let c1 ← interPair o size m k l ek el c
    interRow o size m k ek (l + 1) rest c1

/-- outer loop on `k` (intersections_tree.c 154-193). -/
def interLoop (o : ShiftOracle) (size m : Nat) : (k : Nat) → List (Edge W) → IMat → Res IMat
  | _, [], c => .ok c
  | k, ek :: rest, c => do
    let c1 ← fillBlock size c (k * (m - 1)) (k * (m - 1)) 1 (-1) m
    let c2 ← interRow o size m k ek (k + 1) rest c1
    interLoop o size m (k + 1) rest c2

/-- `intersection_tree` (intersections_tree.c 144-194) on the matrix of size
`tree->n * (m - 1)` allocated by `symplectic_basis` (symplectic_basis.c 41-46). -/
def intersectionTree (o : ShiftOracle) (e : List (Edge W)) (m : Nat) : Res IMat :=
  interLoop o (e.length * (m - 1)) m 0 e fun _ _ => 0

end Hcp
