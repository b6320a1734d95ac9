import Mathlib.Combinatorics.SimpleGraph.Acyclic
import Mathlib.Order.Basic

/-!
# Specification for the spanning tree

Edges are ordered pairs of vertices; independent of the model.
-/

namespace Hcp.Spec

/-- `v` is an end point of some edge of the list. -/
def Touches (es : List (Nat × Nat)) (v : Nat) : Prop := ∃ e ∈ es, v = e.1 ∨ v = e.2

/-- The list is a tree grown from its first edge: each edge joins two distinct vertices; apart from
the first one, it starts at a vertex already reached and ends at a new vertex. -/
def GrowsAsTree (es : List (Nat × Nat)) : Prop :=
  ∀ k (h : k < es.length),
    es[k].1 ≠ es[k].2 ∧ ¬ Touches (es.take k) es[k].2 ∧ (k ≠ 0 → Touches (es.take k) es[k].1)

/-- The graph on `len` vertices whose edges are the pairs of the list. -/
def graphOf (len : Nat) (es : List (Nat × Nat)) : SimpleGraph (Fin len) :=
  SimpleGraph.fromRel fun u v => (u.val, v.val) ∈ es

end Hcp.Spec

namespace Hcp.Spec

variable {W : Type} [LinearOrder W]

/-- weight of the unordered pair `{u, v}` -/
def pairWeight (wt : Nat → Nat → W) (u v : Nat) : W := wt (min u v) (max u v)

/-- graph of the pairs of weight at least `c` -/
def heavy (len : Nat) (wt : Nat → Nat → W) (c : W) : SimpleGraph (Fin len) where
  Adj u v := u ≠ v ∧ c ≤ pairWeight wt u.val v.val
  symm := ⟨by
    intro u v h
    refine ⟨h.1.symm, ?_⟩
    have := h.2
    unfold pairWeight at *
    rwa [min_comm, max_comm]⟩
  loopless := ⟨fun _ h => h.1 rfl⟩

end Hcp.Spec
