import Verif.Model.Stdout
import Verif.Spec.Main
import Verif.Spec.PrintGp

/-!
# The text printed by `periods --gp`, read line by line by GP
-/

namespace Hcp
open Spec

variable {A B C W : Type} {O : MatOps}

/-- the matrices on the lines of a text; empty lines are ignored -/
def Spec.gpLines (s : List Char) : Option (List (List (List (ℚ × ℚ)))) := ((s.splitOn '\n').filter (· ≠ [])).mapM gpMatrix

/-- The number `v` with error `e` in the real part and `e'` in the imaginary part, printed with `d` digits, for the complex number `z`. -/
def Spec.Close (d : Int) (ρ : ℝ × ℝ) (v : ℚ × ℚ) (z : ℂ) : Prop :=
  |(v.1 : ℝ) - z.re| ≤ ρ.1 + (|z.re| + ρ.1) * 10 ^ (1 - d) ∧ |(v.2 : ℝ) - z.im| ≤ ρ.2 + (|z.im| + ρ.2) * 10 ^ (1 - d)

/-- What is assumed of the balls: `rad` gives the radii of a ball (nothing if one of them is infinite); a ball with finite radii has finite midpoints and the numbers in it are at most at these distances from them;
the cells of a matrix enclosing a matrix enclose its entries. -/
structure TextLib.Sound (T : TextLib A W O) (R : A → ℂ → Prop) (RC : {n m : Nat} → O.C n m → Matrix (Fin n) (Fin m) ℂ → Prop) (rad : A → Option (ℝ × ℝ)) : Prop where
  ball : ∀ a z ρ, R a z → rad a = some ρ → ∃ q : ℚ × ℚ, T.mid a = (.fin q.1, .fin q.2) ∧ |z.re - q.1| ≤ ρ.1 ∧ |z.im - q.2| ≤ ρ.2
  cell : ∀ {n m : Nat} (t : O.C n m) (M : Matrix (Fin n) (Fin m) ℂ), RC t M → ∀ (i : Fin n) (j : Fin m), R (T.cell t i j) (M i j)

/-- no midpoint is infinite -/
def NoInf (z : Arf × Arf) : Prop := z.1 ≠ .pinf ∧ z.1 ≠ .ninf ∧ z.2 ≠ .pinf ∧ z.2 ≠ .ninf

/-- no midpoint of the matrices printed is infinite -/
def Shown.NoInf (T : TextLib A W O) {g : Nat} (nr : Nat) : Shown A W O g → Prop
  | .tree _ => True
  | .integrals I => ∀ i < nr, ∀ j < g, Hcp.NoInf (T.mid (I i j))
  | .omega om0 om1 => ∀ i < g, ∀ j < g, Hcp.NoInf (T.mid (om0 i j)) ∧ Hcp.NoInf (T.mid (om1 i j))
  | .tau t => ∀ i < g, ∀ j < g, Hcp.NoInf (T.mid (T.cell t i j))

/-- The matrix `M'` read from the text has the shape of the matrix `z` and is close to it: every entry whose ball has finite radii differs from the exact value by at most the radii and the rounding to `d` digits. -/
def ReadClose (d : Int) (rad : A → Option (ℝ × ℝ)) {nr nc : Nat} (M' : List (List (ℚ × ℚ))) (a : Nat → Nat → A) (z : Fin nr → Fin nc → ℂ) : Prop :=
  M'.length = nr ∧ (∀ row ∈ M', row.length = nc) ∧ ∀ (i : Fin nr) (j : Fin nc) (row : List (ℚ × ℚ)) (v : ℚ × ℚ), M'[i.1]? = some row → row[j.1]? = some v → ∀ ρ, rad (a i j) = some ρ → Close d ρ v (z i j)

/-- the integral of the differential of index `r` along the loop over the edge `k` of the tree, for the determination `Z k` of `y` -/
noncomputable def edgeValue (s : Nat → ℂ) (m : Nat) (x : Nat → ℂ) (c : Shape) (es : List (Edge W)) (Z : Nat → ℝ → ℂ) (k : Fin es.length) (r : Fin c.g) : ℂ :=
  s (diffOf c.ni c.j1 r).2 * cycleIntM m (x (es.get k).a) (x (es.get k).b) (diffOf c.ni c.j1 r).1 (diffOf c.ni c.j1 r).2 (Z k) 0

/-- the period of the differential of index `r` along the loop `k`, with the factor of C59 -/
noncomputable def periodValue (s : Nat → ℂ) (m : Nat) (x : Nat → ℂ) (c : Shape) (es : List (Edge W)) (Z : Nat → ℝ → ℂ) (loops : List (List Gamma)) (r k : Fin c.g) : ℂ :=
  s (diffOf c.ni c.j1 r).2 * periodsOf m x es Z c loops r k

/-- What the text says, for each of the objects: for `--tree`, the edges; for `--int`, one matrix, of the integrals over the edges; for `--big`, two matrices, of the periods; by default the matrix `tau`. -/
def TextRight (T : TextLib A W O) (rad : A → Option (ℝ × ℝ)) (d : Int) (txt : List Char) (s : Nat → ℂ) (m : Nat) (x : Nat → ℂ) (c : Sec) (out : AjOut A W O c.shape.g) (Z : Nat → ℝ → ℂ) (tau : Matrix (Fin c.shape.g) (Fin c.shape.g) ℂ) : Obj → Prop
  | .tree => gpTree txt = some (T.lf out.tree.r, out.tree.e.length, out.tree.e.map fun e => (e.a, e.b))
  | .integrals => ∃ I M', out.integrals = some I ∧ gpLines txt = some [M'] ∧ ReadClose d rad M' I (edgeValue s m x c.shape out.tree.e Z)
  | .omega => ∃ om0 om1 M0 M1, out.omega = some (om0, om1) ∧ gpLines txt = some [M0, M1] ∧ ReadClose d rad M0 om0 (periodValue s m x c.shape out.tree.e Z out.loopA) ∧
      ReadClose d rad M1 om1 (periodValue s m x c.shape out.tree.e Z out.loopB)
  | .tau => ∃ t M', out.tau = some t ∧ gpLines txt = some [M'] ∧ ReadClose d rad M' (T.cell t) tau

end Hcp
