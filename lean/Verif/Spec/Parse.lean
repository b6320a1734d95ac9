import Verif.Model.Parse
import Mathlib.Algebra.Polynomial.Basic
import Mathlib.Algebra.Polynomial.Degree.Defs

/-!
# Notation of integer polynomials, independently of the parser
-/

namespace Hcp.Spec

/-- `Literal w v`: the text `w` is an integer literal (white space, optional sign, decimal digits) of value `v`. -/
inductive Literal : List Char → Int → Prop
  | pos (sp ds : List Char) (h1 : ∀ c ∈ sp, isSpaceC c = true) (h2 : ∀ c ∈ ds, c.isDigit = true) (h3 : ds ≠ []) :
      Literal (sp ++ ds) (Nat.ofDigitChars 10 ds 0)
  | plus (sp ds : List Char) (h1 : ∀ c ∈ sp, isSpaceC c = true) (h2 : ∀ c ∈ ds, c.isDigit = true) (h3 : ds ≠ []) :
      Literal (sp ++ '+' :: ds) (Nat.ofDigitChars 10 ds 0)
  | neg (sp ds : List Char) (h1 : ∀ c ∈ sp, isSpaceC c = true) (h2 : ∀ c ∈ ds, c.isDigit = true) (h3 : ds ≠ []) :
      Literal (sp ++ '-' :: ds) (-Nat.ofDigitChars 10 ds 0)

/-- the part of a term after the coefficient: nothing, `x`, `x^`, or `x^` followed by an integer literal -/
inductive Power where
  | none | x | caret
  | lit (w : List Char) (v : Int)

def Power.str : Power → List Char
  | .none => []
  | .x => ['x']
  | .caret => ['x', '^']
  | .lit w _ => 'x' :: '^' :: w

def Power.exp : Power → Int
  | .none => 0
  | .x => 1
  | .caret => 1
  | .lit _ v => v

/-- A written term: run of signs, optional number, stars, power. -/
structure Written where
  signs : List Char
  num : Option (List Char × Int)
  mid : List Char
  pow : Power

namespace Written

def numStr (t : Written) : List Char := match t.num with
  | none => []
  | some (w, _) => w

def numVal (t : Written) : Int := match t.num with
  | none => 1
  | some (_, v) => v

/-- the text -/
def str (t : Written) : List Char := t.signs ++ t.numStr ++ t.mid ++ t.pow.str

/-- well-formed terms -/
structure WF (t : Written) : Prop where
  signs : ∀ c ∈ t.signs, c = ' ' ∨ c = '+' ∨ c = '-'
  num : ∀ w v, t.num = some (w, v) → Literal w v
  noNum : t.num = none → t.mid = [] ∧ t.pow ≠ .none
  mid : ∀ c ∈ t.mid, c = ' ' ∨ c = '*'
  pow : ∀ w v, t.pow = .lit w v → Literal w v

/-- mathematical meaning of the coefficient: every minus sign changes the sign -/
def coef (t : Written) : Int := (-1) ^ (t.signs.count '-') * t.numVal

/-- mathematical exponent -/
def exp (t : Written) : Int := t.pow.exp

/-- what the program stores: any number of minus signs counts for one, numbers are clamped -/
def stored (t : Written) : Int := clampLong t.numVal * (if '-' ∈ t.signs then -1 else 1)

/-- the term is regular: at most one minus sign, number and exponent in range -/
structure Regular (t : Written) : Prop where
  oneMinus : t.signs.count '-' ≤ 1
  numFits : FitsSlong t.numVal
  expFits : FitsSlong t.exp

end Written

/-- mathematical value of a list of terms: coefficient of `x^k` -/
def value (ts : List Written) (k : Nat) : Int := (ts.map fun t => if t.exp = (k : Int) then t.coef else 0).sum

/-- the text of a list of terms -/
def text (ts : List Written) : List Char := (ts.map Written.str).flatten

/-- A term written with plain decimal digits only. -/
structure Plain (t : Written) : Prop where
  wf : t.WF
  num : ∀ w v, t.num = some (w, v) → ∀ c ∈ w, c.isDigit = true
  pow : ∀ w v, t.pow = .lit w v → ∀ c ∈ w, c.isDigit = true
  noCaret : t.pow ≠ .caret

/-- `u` may be written after `t`: it begins by a sign, or by a space when `t` ends with a power. -/
def Follows (t u : Written) : Prop :=
  u.signs.head? = some '+' ∨ u.signs.head? = some '-' ∨ u.signs.head? = some ' ' ∧ t.pow ≠ .none

/-! ## Printing, as `fmpz_poly_print_pretty` does -/

def monomial (c e : Nat) : List Char :=
  if e = 0 then Nat.toDigits 10 c
  else (if c = 1 then [] else Nat.toDigits 10 c ++ ['*']) ++ (if e = 1 then ['x'] else 'x' :: '^' :: Nat.toDigits 10 e)

def prettyTerms (a : Nat → Int) : Nat → Bool → List Char
  | 0, _ => []
  | k + 1, first =>
    if a k = 0 then prettyTerms a k first
    else (if a k < 0 then ['-'] else if first then [] else ['+']) ++ monomial (a k).natAbs k ++ prettyTerms a k false

open Classical in
/-- canonical notation of an integer polynomial -/
noncomputable def pretty (P : Polynomial Int) : List Char :=
  if P = 0 then ['0'] else prettyTerms P.coeff (P.natDegree + 1) true

end Hcp.Spec
