import Verif.Spec.Sheet

/-!
# Intersection numbers of paths on the curve

The curve is `y^m = ∏ (x - x_k)`.  Near a branch point `v` the function `y` is a coordinate on the curve which vanishes at `v`.  So a path through `v` is
seen in the `y`-plane as a path through `0`: it arrives along one ray and leaves along another one.  The intersection number of two closed paths
which only meet at branch points is the sum over these points of the crossing numbers of the rays.
-/

namespace Hcp.Spec

/-- going counterclockwise from the ray of `o`, the ray of `z` comes strictly before the ray of `i` -/
def Between (o i z : ℂ) : Prop :=
  ∃ φ ψ : ℝ, 0 < φ ∧ φ < ψ ∧ ψ ≤ 2 * Real.pi ∧ Turns z o φ ∧ Turns i o ψ

open Classical in
/-- the part of the ray of `z` which is on the left of a path arriving along the ray of `i` and leaving along the ray of `o`; one half if the path itself contains this ray, as
the mean of the two ways to push it off. -/
noncomputable def leftSide (i o z : ℂ) : ℚ :=
  if Between o i z then 1 else if Turns z o 0 ∨ Turns z i 0 then 1 / 2 else 0

/-- a path through `0`: the rays of arrival and of departure -/
structure Passage where
  inn : ℂ
  out : ℂ

/-- crossing number of two paths through `0`: `+1` when the second one goes from the right to the left of the first one -/
noncomputable def crossing (p q : Passage) : ℚ := leftSide p.inn p.out q.out - leftSide p.inn p.out q.inn

/-- The lift number `s` of an edge whose branch of `y` leaves the start along the ray of `ca` and the end along the ray of `cb`, followed back by the lift number `s + 1`: the vertices
it passes through, with the rays of arrival and departure. -/
noncomputable def passages (m : Nat) (a b : Nat) (ca cb : ℂ) (s : Nat) : List (Nat × Passage) :=
  [(a, ⟨zeta m ^ (s + 1) * ca, zeta m ^ s * ca⟩), (b, ⟨zeta m ^ s * cb, zeta m ^ (s + 1) * cb⟩)]

/-- intersection number of two closed paths, given by their passages through the branch points -/
noncomputable def pathNumber (p q : List (Nat × Passage)) : ℚ :=
  (p.map fun u => (q.map fun v => if u.1 = v.1 then crossing u.2 v.2 else 0).sum).sum

/-- `Y` is a continuous determination of `y` on the segment from `a` to `b`, for the curve `y^m = ∏_{k<n} (x - x_k)` -/
def IsBranchM (m n : Nat) (x : Nat → ℂ) (a b : ℂ) (Y : ℝ → ℂ) : Prop :=
  ContinuousOn Y (Set.Icc (-1) 1) ∧ ∀ t ∈ Set.Icc (-1 : ℝ) 1, Y t ^ m = ∏ k ∈ Finset.range n, (edgePt a b t - x k)

/-- at the end `t0` of the segment, `Y` vanishes along the ray of `c` -/
def LeavesAlong (Y : ℝ → ℂ) (t0 : ℝ) (c : ℂ) : Prop :=
  c ≠ 0 ∧ Filter.Tendsto (fun t => Y t / ‖Y t‖) (nhdsWithin t0 (Set.Ioo (-1) 1)) (nhds (c / ‖c‖))

end Hcp.Spec

namespace Hcp.Spec

/-- the determination of `y` given by the numbers stored for an edge: `C y(t) (1 - t^2)^(1/m)` -/
noncomputable def branchY (m n n1 : Nat) (u : Nat → ℂ) (t : ℝ) : ℂ :=
  u n * edgeY m n1 (n - 2) u t * (((1 - t ^ 2) ^ ((m : ℝ)⁻¹) : ℝ) : ℂ)

end Hcp.Spec
