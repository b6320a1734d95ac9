import Verif.Model.Cli
import Verif.Spec.Parse
import Mathlib.NumberTheory.BernoulliPolynomials

/-!
# Command lines, independently of the loop of `main`
-/

namespace Hcp.Spec

/-- options without operand that only set a bit -/
inductive FlagOpt where
  | de | big | int | tree | trim | rootdef | rootturn | rootprod | desame
  deriving DecidableEq, Repr

def FlagOpt.text : FlagOpt → List Char
  | .de => "--de".toList
  | .big => "--big".toList
  | .int => "--int".toList
  | .tree => "--tree".toList
  | .trim => "--trim".toList
  | .rootdef => "--rootdef".toList
  | .rootturn => "--rootturn".toList
  | .rootprod => "--rootprod".toList
  | .desame => "--desame".toList

/-- number of the bit in the `flag` argument of `abel_jacobi_compute` -/
def FlagOpt.bit : FlagOpt → Nat
  | .de => 0
  | .big => 1
  | .int => 2
  | .tree => 3
  | .trim => 4
  | .rootdef => 5
  | .rootturn => 6
  | .rootprod => 7
  | .desame => 8

/-- options with one numeric operand -/
inductive NumOpt where
  | m | prec | digits | bench | xn1 | exp | bern | bernrev
  deriving DecidableEq, Repr

def NumOpt.text : NumOpt → List Char
  | .m => "-m".toList
  | .prec => "--prec".toList
  | .digits => "--digits".toList
  | .bench => "--bench".toList
  | .xn1 => "--xn1".toList
  | .exp => "--exp".toList
  | .bern => "--bern".toList
  | .bernrev => "--bernrev".toList

/-- one command of the command line -/
inductive Cmd where
  | verbose
  | flag (f : FlagOpt)
  | num (k : NumOpt) (v : List Char)
  | gp
  | error
  | stoll
  | pol (s : List Char)
  | coeffs (n : List Char) (cs : List (List Char))
  deriving DecidableEq, Repr

/-- its arguments -/
def Cmd.args : Cmd → List (List Char)
  | .verbose => ["-v".toList]
  | .flag f => [f.text]
  | .num k v => [k.text, v]
  | .gp => ["--gp".toList]
  | .error => ["--error".toList]
  | .stoll => ["--stoll".toList]
  | .pol s => ["--pol".toList, s]
  | .coeffs n cs => "--coeffs".toList :: n :: cs

/-- the command chooses the curve -/
def Cmd.isCurve : Cmd → Bool
  | .num .xn1 _ => true
  | .num .exp _ => true
  | .num .bern _ => true
  | .num .bernrev _ => true
  | .stoll => true
  | .pol _ => true
  | .coeffs _ _ => true
  | _ => false

/-- `--coeffs n` is followed by the `n + 1` coefficients, unless the command line ends before -/
def Complete : List Cmd → Prop
  | [] => True
  | .coeffs n cs :: rest => (cs.length = (atol n + 1).toNat ∨ cs.length ≤ (atol n + 1).toNat ∧ rest = []) ∧ Complete rest
  | _ :: rest => Complete rest

/-- the whole argument vector -/
def argv (cmds : List Cmd) : List (List Char) := (cmds.map Cmd.args).flatten

/-- options whose operand is mandatory -/
def operandOptions : List (List Char) :=
  ["-m".toList, "--prec".toList, "--digits".toList, "--bench".toList, "--xn1".toList, "--exp".toList, "--bern".toList,
    "--bernrev".toList, "--pol".toList, "--coeffs".toList]

/-! ## Polynomials documented by the usage message (periods.c 44-68) -/

/-- `p` is the polynomial documented for the command; `F` gives the degree and the numerators of Bernoulli and exponential polynomials. -/
def Documented (F : Families) (p : IPoly) : Cmd → Prop
  | .num .xn1 v => ∀ k : Nat, p k = (if (k : Int) = atol v then 1 else 0) - (if k = 0 then 1 else 0)
  | .num .exp v => ∀ k : Nat, p k = if (k : Int) ≤ (F.exp (atol v)).1 then (F.exp (atol v)).2 k else 0
  | .num .bern v => ∀ k : Nat, p k = if (k : Int) ≤ (F.bern (atol v)).1 then (F.bern (atol v)).2 k else 0
  | .num .bernrev v => ∀ k : Nat, p k = if (k : Int) ≤ atol v then (F.bern (atol v)).2 (atol v - k).toNat else 0
  | .stoll => ∀ k : Nat, p k = [247747600, -985905640, 567207969, 2396040466, 52485681, -470135160, 82342800].getD k 0
  | .pol s => polyParse s.length (fun _ => 0) s = .ok (some p)
  | .coeffs n cs => (∀ j : Nat, (j : Int) ≤ atol n → p (atol n - j).toNat = atol (cs.getD j [])) ∧
      ∀ k : Nat, (k : Int) > atol n → p k = 0
  | _ => True

/-- the numerators of the Bernoulli polynomials, as `arith_bernoulli_polynomial` gives them -/
def BernoulliNumerators (F : Families) : Prop :=
  ∀ n : Nat, (F.bern n).1 = n ∧ ∃ D : Int, D ≠ 0 ∧ ∀ k : Nat, ((F.bern n).2 k : ℚ) = D * (Polynomial.bernoulli n).coeff k

end Hcp.Spec
