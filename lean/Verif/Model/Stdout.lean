import Verif.Model.Main
import Verif.Model.Print

/-!
# Model of the text printed by `main` of `arb/example/periods.c`

Without `-v`: the messages of the verbose mode are not modelled.
-/

namespace Hcp

variable {A B C W : Type} {O : MatOps}

/-- What the printing uses of the libraries: `arf_printd` (in `L`), the midpoints of a complex ball, the cells of a matrix, the text of `%lf`, the conversion `(slong) (prec * .301)` of a `double`, `acb_mat_printd` of Arb and
`mag_print` as used by `acb_mat_print_error` (the number and the position printed are those of `printError`; here only their text). -/
structure TextLib (A W : Type) (O : MatOps) where
  L : PrintLib
  mid : A → Arf × Arf
  cell : {n m : Nat} → O.C n m → Nat → Nat → A
  lf : W → List Char
  dflt : Int → Int
  printd : List (List A) → Int → List Char
  error : List (List A) → List Char

/-- the rows of a matrix with `nr` rows and `nc` columns -/
def rowsOf (nr nc : Nat) (f : Nat → Nat → A) : List (List A) := (List.range nr).map fun i => (List.range nc).map (f i)

/-- the call `f_print (matrix, digits)` (periods.c 201-210), `f_print` being chosen by the options (periods.c 75, 160, 162) -/
def fPrintText (T : TextLib A W O) (f : FPrint) (d : Int) (rows : List (List A)) : List Char :=
  match f with
  | .printd => T.printd rows d
  | .gp => printGp T.L d (rows.map (·.map T.mid))
  | .error => T.error rows

/-- the number of digits (periods.c 74, 164, 179-180) -/
def textDigits (T : TextLib A W O) (o : Opts) : Int := if o.digits = 0 then T.dflt o.prec else o.digits

/-- the text of an object (periods.c 195-211).  The matrix of integrals has `tree->n` rows and `g` columns, the others `g` rows and columns (aj_struct.c 47-50). -/
def Shown.text (T : TextLib A W O) (f : FPrint) (d : Int) {g : Nat} (nr : Nat) : Shown A W O g → Res (List Char)
  | .tree t => do
    let s ← printTree T.lf t
    .ok (s ++ ['\n'])
  | .integrals I => .ok (fPrintText T f d (rowsOf nr g I) ++ ['\n'])
  | .omega om0 om1 => .ok (fPrintText T f d (rowsOf g g om0) ++ ['\n'] ++ fPrintText T f d (rowsOf g g om1) ++ ['\n'])
  | .tau t => .ok (fPrintText T f d (rowsOf g g (T.cell t)) ++ ['\n'])

/-- the text printed by a run (periods.c 193-212): nothing with `--bench` -/
def MainRun.text (T : TextLib A W O) (r : MainRun A W O) : Res (List Char) :=
  match r.shown with
  | none => .ok []
  | some s => s.text T r.o.fPrint (textDigits T r.o) (treeEdges r.c).toNat

/-- `main` as a function from the arguments to the text of the standard output; `none` is the usage message -/
noncomputable def periodsText (E : MainEnv A B C W O) (T : TextLib A W O) (fuel : Nat) (args : List (List Char)) : Res (Option (List Char)) := do
  let r ← periodsMain E fuel args
  match r with
  | none => .ok none
  | some r => do
    let s ← r.text T
    .ok (some s)

end Hcp
