import Verif.Spec.Crossing
import Mathlib.Algebra.BigOperators.Finprod
import Mathlib.Data.Sign.Basic

/-!
# Edges which meet, and the intersection numbers of all their lifts

Two closed paths on `y^m = ∏ (x - x_k)` over two segments may meet at common branch points (`Spec/Crossing`) and over the common inner points of the segments.
-/

namespace Hcp.Spec

/-- parameters of the common points of two open segments -/
def InnerMeet (a b c d : ℂ) : Set (ℝ × ℝ) :=
  {p | -1 < p.1 ∧ p.1 < 1 ∧ -1 < p.2 ∧ p.2 < 1 ∧ edgePt a b p.1 = edgePt c d p.2}

/-- the two closed segments have no common point besides common ends -/
def MeetAtEnds (a b c d : ℂ) : Prop :=
  ∀ s t : ℝ, -1 ≤ s → s ≤ 1 → -1 ≤ t → t ≤ 1 → edgePt a b s = edgePt c d t → (s = -1 ∨ s = 1) ∧ (t = -1 ∨ t = 1)

/-- `+1` if the direction `e` points to the left of the direction `d`, `-1` if it points to the right, `0` if they are parallel -/
noncomputable def sideSign (d e : ℂ) : ℚ := ((SignType.sign (d.re * e.im - d.im * e.re) : ℤ) : ℚ)

/-- The lift number `s` of the edge from `a` to `b`, followed back by the lift number `s + 1`, over an inner point where the branch of `y` has the value `y`: the values of `y` on the two
ways and the directions. -/
noncomputable def innerPassages (m : Nat) (a b : ℂ) (y : ℂ) (s : Nat) : List (ℂ × ℂ) :=
  [(zeta m ^ s * y, b - a), (zeta m ^ (s + 1) * y, a - b)]

open Classical in
/-- intersection number over an inner point: only passages with the same value of `y` are at the same point of the curve; `+1` when the second path goes from the right to the left of the first one. -/
noncomputable def innerNumber (p q : List (ℂ × ℂ)) : ℚ :=
  (p.map fun u => (q.map fun v => if u.1 = v.1 then sideSign u.2 v.2 else 0).sum).sum

/-- a closed path over an edge: start and end, the branch of `y` on the edge, its rays at both ends, the number of the lift -/
structure EdgePath where
  a : Nat
  b : Nat
  Y : ℝ → ℂ
  ca : ℂ
  cb : ℂ
  lift : Nat

/-- intersection number of two closed paths over edges: contributions of the common branch points and of the common inner points. -/
noncomputable def closedNumber (m : Nat) (x : Nat → ℂ) (p q : EdgePath) : ℚ :=
  pathNumber (passages m p.a p.b p.ca p.cb p.lift) (passages m q.a q.b q.ca q.cb q.lift) +
    ∑ᶠ (t : ℝ × ℝ) (_ : t ∈ InnerMeet (x p.a) (x p.b) (x q.a) (x q.b)),
      innerNumber (innerPassages m (x p.a) (x p.b) (p.Y t.1) p.lift) (innerPassages m (x q.a) (x q.b) (q.Y t.2) q.lift)

end Hcp.Spec
