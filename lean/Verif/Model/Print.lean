import Verif.Model.Homology
import Verif.Model.Tree
import Mathlib.Data.Rat.Defs
import Mathlib.Algebra.Order.Ring.Rat

/-!
# Model of the printing functions of `arb/utils.c` (`--gp`) and `arb/spanning_tree.c` (`--tree`)

The text sent to the standard output is a list of characters.
-/

namespace Hcp

/-- value of an `arf_t`: a (dyadic) rational number, an infinity or not a number -/
inductive Arf where
  | fin (q : ℚ)
  | pinf
  | ninf
  | nan

/-- `arf_sgn` of Arb: the sign; documented to be `0` for NaN -/
def Arf.sgn : Arf → Int
  | .fin q => if 0 < q then 1 else if q < 0 then -1 else 0
  | .pinf => 1
  | .ninf => -1
  | .nan => 0

/-- `arf_printd` of Arb (text printed for a number with a given number of digits). -/
structure PrintLib where
  printd : Arf → Int → List Char

variable (L : PrintLib)

/-- body of the loop of `_acb_vec_arf_printd` (utils.c 63-86) without the separator. -/
def printEntry (d : Int) (z : Arf × Arf) : List Char :=
  (if z.1.sgn = 0 ∧ z.2.sgn = 0 then ['0'] else []) ++
  (if z.1.sgn ≠ 0 then
    L.printd z.1 d ++ (if 0 < z.2.sgn then [' ', '+', ' '] else if z.2.sgn < 0 then [' '] else [])
   else []) ++
  (if z.2.sgn ≠ 0 then L.printd z.2 d ++ [' ', '*', ' ', 'I'] else [])

/-- `_acb_vec_arf_printd` (utils.c 56-88), the loop from `k` on: `sep` is printed before all entries but the one of index `0`.  Simplification: `sep` is used as a format, the callers give `", "` which has no directive. -/
def printVec (d : Int) (sep : List Char) : (k : Nat) → List (Arf × Arf) → List Char
  | _, [] => []
  | k, z :: zs => (if k ≠ 0 then sep else []) ++ printEntry L d z ++ printVec d sep (k + 1) zs

/-- the loop of `acb_mat_print_gp` (utils.c 97-102) from `i` on. -/
def printRows (d : Int) : (i : Nat) → List (List (Arf × Arf)) → List Char
  | _, [] => []
  | i, row :: rows => (if i ≠ 0 then [';'] else []) ++ printVec L d [',', ' '] 0 row ++ printRows d (i + 1) rows

/-- `acb_mat_print_gp` (utils.c 90-104) on the midpoints (real part, imaginary part) of the matrix, given by its rows. -/
def printGp (d : Int) (rows : List (List (Arf × Arf))) : List Char :=
  '[' :: printRows L d 0 rows ++ [']']

/-- `%ld` of `printf` for a non negative number -/
def fmtNat (n : Nat) : List Char := Nat.toDigits 10 n

/-- `%ld` of `printf` -/
def fmtInt (c : Int) : List Char := (if c < 0 then ['-'] else []) ++ Nat.toDigits 10 c.natAbs

/-- `loop_print` (homol.c 23-29), the loop from `k` on. -/
def printLoop : (k : Nat) → List Gamma → List Char
  | _, [] => []
  | k, x :: l => (if k ≠ 0 then ['+', ' '] else []) ++ fmtInt x.coeff ++ ['*', 'g', '_'] ++ fmtNat x.index ++ ['^', '('] ++ fmtNat x.shift ++ [')'] ++ printLoop (k + 1) l

variable {W : Type}

/-- the loop of `tree_print` (spanning_tree.c 157-158). -/
def printEdges : List (Edge W) → List Char
  | [] => []
  | e :: es => [',', '['] ++ fmtNat e.a ++ [','] ++ fmtNat e.b ++ [']'] ++ printEdges es

/-- `tree_print` (spanning_tree.c 152-160); `lf` is the text of `%lf` for the parameter of the tree.  The loop runs up to `tree->n`; with fewer edges set it reads memory that was not initialised. -/
def printTree (lf : W → List Char) (t : Tree W) : Res (List Char) :=
  if t.e.length < t.n then .ub "edge not set"
  else .ok (['\n', '['] ++ lf t.r ++ [',', ' '] ++ fmtNat t.n ++ printEdges (t.e.take t.n) ++ [']', '\n'])

end Hcp
