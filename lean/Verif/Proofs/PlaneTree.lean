import Mathlib.Algebra.BigOperators.Intervals
import Mathlib.Algebra.Module.LinearMap.Basic
import Mathlib.Algebra.Ring.GeomSum
import Mathlib.Data.Real.Basic
import Mathlib.Logic.Relation
import Mathlib.Tactic.Module
import Mathlib.Tactic.Linarith
import Mathlib.Tactic.LinearCombination
import Mathlib.Algebra.Module.BigOperators

/-!
# The intersection form of the lifted edges of a plane tree

A tree in the plane grown edge by edge: edge `l` leaves the vertex `a` with angle `pa` and arrives at
the new vertex `b` with angle `pb` (angles of the outgoing directions); `sa`, `sb` number the sheets at both ends.
Over a commutative ring with a unit `x` (the automorphism of the covering) its intersection form divided by
`x - 1` is the matrix `H` below.  Its kernel with values in any module is shown to be the
kernel of `1 + x + ... + x^(n-1)`, for `n` vertices.
-/

namespace Hcp.PlaneTree

/-- an edge with its angles and sheets -/
structure PEdge where
  a : Nat
  b : Nat
  pa : ℝ
  pb : ℝ
  sa : ℤ
  sb : ℤ

variable (pe : Nat → PEdge)

/-- vertices of the tree made of the first `N` edges, rooted at `r0` -/
def Vert (r0 : Nat) (N v : Nat) : Prop := v = r0 ∨ ∃ j < N, v = (pe j).b

/-- the edges grow a tree: each starts at a vertex and ends at a new one -/
structure Grows (r0 N : Nat) : Prop where
  start : ∀ k < N, Vert pe r0 k (pe k).a
  new : ∀ k < N, ¬ Vert pe r0 k (pe k).b
  angle_aa : ∀ k < N, ∀ l < N, k ≠ l → (pe k).a = (pe l).a → (pe k).pa ≠ (pe l).pa
  angle_ab : ∀ k < N, ∀ l < N, (pe k).a = (pe l).b → (pe k).pa ≠ (pe l).pb

variable {pe} {r0 N : Nat}

theorem Grows.mono {N' : Nat} (h : Grows pe r0 N) (hN : N' ≤ N) : Grows pe r0 N' :=
  ⟨fun k hk => h.start k (hk.trans_le hN), fun k hk => h.new k (hk.trans_le hN),
   fun k hk l hl => h.angle_aa k (hk.trans_le hN) l (hl.trans_le hN),
   fun k hk l hl => h.angle_ab k (hk.trans_le hN) l (hl.trans_le hN)⟩

theorem Vert.mono {N' v : Nat} (h : Vert pe r0 N v) (hN : N ≤ N') : Vert pe r0 N' v := by
  rcases h with h | ⟨j, hj, h⟩
  · exact Or.inl h
  · exact Or.inr ⟨j, hj.trans_le hN, h⟩

theorem Grows.ab_ne (h : Grows pe r0 N) {k : Nat} (hk : k < N) : (pe k).a ≠ (pe k).b := fun e =>
  h.new k hk (e ▸ h.start k hk)

theorem Grows.bb_ne (h : Grows pe r0 N) {k l : Nat} (hk : k < N) (hl : l < N) (hkl : k ≠ l) : (pe k).b ≠ (pe l).b := by
  intro e
  rcases Nat.lt_or_gt_of_ne hkl with g | g
  · exact h.new l hl (Or.inr ⟨k, g, e.symm⟩)
  · exact h.new k hk (Or.inr ⟨l, g, e⟩)

theorem Grows.old_ne (h : Grows pe r0 (N + 1)) {l : Nat} (hl : l < N) : (pe l).a ≠ (pe N).b ∧ (pe l).b ≠ (pe N).b := by
  refine ⟨fun e => h.new N (by omega) (e ▸ (h.start l (by omega)).mono hl.le), h.bb_ne (by omega) (by omega) (by omega)⟩

/-! ### sectors and moves -/

/-- `p l` holds for the angle of every edge `l < N` at `v`, at either end -/
def AllAt (pe : Nat → PEdge) (N v : Nat) (p : Nat → ℝ → Prop) : Prop :=
  ∀ l < N, ((pe l).a = v → p l (pe l).pa) ∧ ((pe l).b = v → p l (pe l).pb)

/-- elementary moves between sectors `(v, θ)`, walking around the tree -/
inductive Move (pe : Nat → PEdge) (N : Nat) : Nat × ℝ → Nat × ℝ → Prop
  | same {v θ θ'} : AllAt pe N v (fun _ p => p < θ ↔ p < θ') → Move pe N (v, θ) (v, θ')
  | wrap {v θ θ'} : AllAt pe N v (fun _ p => p < θ) → AllAt pe N v (fun _ p => ¬ p < θ') → Move pe N (v, θ) (v, θ')
  | cross {k θ θ'} : k < N → AllAt pe N (pe k).a (fun l p => l ≠ k → (p < θ ↔ p < (pe k).pa)) →
      AllAt pe N (pe k).b (fun l p => l ≠ k → (p < θ' ↔ p < (pe k).pb)) → ((pe k).pa < θ ↔ ¬ (pe k).pb < θ') →
      Move pe N ((pe k).a, θ) ((pe k).b, θ')

/-- sectors joined by moves -/
def Conn (pe : Nat → PEdge) (N : Nat) : Nat × ℝ → Nat × ℝ → Prop := Relation.EqvGen (Move pe N)

theorem Conn.refl (s) : Conn pe N s s := Relation.EqvGen.refl s
theorem Conn.symm {s t} (h : Conn pe N s t) : Conn pe N t s := Relation.EqvGen.symm _ _ h
theorem Conn.trans {s t u} (h : Conn pe N s t) (h' : Conn pe N t u) : Conn pe N s u := Relation.EqvGen.trans _ _ _ h h'
theorem Move.conn {s t} (h : Move pe N s t) : Conn pe N s t := Relation.EqvGen.rel _ _ h

/-- an angle just after `p`, seen from finitely many others -/
theorem exists_after (f : Nat → ℝ) (M : Nat) (p : ℝ) : ∃ θ, p < θ ∧ ∀ l < M, f l < θ → f l ≤ p := by
  induction M with
  | zero => exact ⟨p + 1, by linarith, by simp⟩
  | succ M ih =>
    obtain ⟨θ, h1, h2⟩ := ih
    by_cases h : f M ≤ p
    · refine ⟨θ, h1, fun l hl hf => ?_⟩
      rcases Nat.lt_succ_iff_lt_or_eq.1 hl with g | rfl
      · exact h2 l g hf
      · exact h
    · refine ⟨min θ (f M), lt_min h1 (not_le.1 h), fun l hl hf => ?_⟩
      rcases Nat.lt_succ_iff_lt_or_eq.1 hl with g | rfl
      · exact h2 l g (hf.trans_le (min_le_left _ _))
      · exact absurd (hf.trans_le (min_le_right _ _)) (lt_irrefl _)

theorem exists_above (f : Nat → ℝ) (M : Nat) : ∃ θ, ∀ l < M, f l < θ := by
  induction M with
  | zero => exact ⟨0, by simp⟩
  | succ M ih =>
    obtain ⟨θ, h2⟩ := ih
    refine ⟨max θ (f M + 1), fun l hl => ?_⟩
    rcases Nat.lt_succ_iff_lt_or_eq.1 hl with g | rfl
    · exact (h2 l g).trans_le (le_max_left _ _)
    · exact (lt_add_one _).trans_le (le_max_right _ _)

theorem exists_top (pe : Nat → PEdge) (N v : Nat) : ∃ θ, AllAt pe N v (fun _ p => p < θ) := by
  obtain ⟨θ, h⟩ := exists_above (fun l => max (pe l).pa (pe l).pb) N
  exact ⟨θ, fun l hl => ⟨fun _ => (le_max_left _ _).trans_lt (h l hl), fun _ => (le_max_right _ _).trans_lt (h l hl)⟩⟩

theorem exists_bot (pe : Nat → PEdge) (N v : Nat) : ∃ θ, AllAt pe N v (fun _ p => ¬ p < θ) := by
  obtain ⟨θ, h⟩ := exists_above (fun l => max (-(pe l).pa) (-(pe l).pb)) N
  refine ⟨-θ, fun l hl => ⟨fun _ => ?_, fun _ => ?_⟩⟩
  · have := (le_max_left (-(pe l).pa) (-(pe l).pb)).trans_lt (h l hl); linarith
  · have := (le_max_right (-(pe l).pa) (-(pe l).pb)).trans_lt (h l hl); linarith

theorem exists_just_after (pe : Nat → PEdge) (N : Nat) (p0 : ℝ) :
    ∃ θ, p0 < θ ∧ ∀ l < N, ((pe l).pa < θ → (pe l).pa ≤ p0) ∧ ((pe l).pb < θ → (pe l).pb ≤ p0) := by
  obtain ⟨θ, h1, h2⟩ := exists_after (fun l => (pe l).pa) N p0
  obtain ⟨θ', h1', h2'⟩ := exists_after (fun l => (pe l).pb) N p0
  exact ⟨min θ θ', lt_min h1 h1', fun l hl => ⟨fun h => h2 l hl (h.trans_le (min_le_left _ _)), fun h => h2' l hl (h.trans_le (min_le_right _ _))⟩⟩

/-- the two sectors next to the end `a` of edge `k` -/
theorem Grows.near_a (h : Grows pe r0 N) {k : Nat} (hk : k < N) (A : Prop) :
    ∃ θ, AllAt pe N (pe k).a (fun l p => l ≠ k → (p < θ ↔ p < (pe k).pa)) ∧ ((pe k).pa < θ ↔ A) := by
  by_cases hA : A
  · obtain ⟨θ, h1, h2⟩ := exists_just_after pe N (pe k).pa
    refine ⟨θ, fun l hl => ⟨fun e hne => ⟨fun hp => ?_, fun hp => hp.trans h1⟩, fun e hne => ⟨fun hp => ?_, fun hp => hp.trans h1⟩⟩, by simp [h1, hA]⟩
    · exact lt_of_le_of_ne ((h2 l hl).1 hp) (h.angle_aa l hl k hk hne e)
    · exact lt_of_le_of_ne ((h2 l hl).2 hp) (h.angle_ab k hk l hl e.symm).symm
  · exact ⟨(pe k).pa, fun l hl => ⟨fun _ _ => Iff.rfl, fun _ _ => Iff.rfl⟩, by simp [hA]⟩

theorem Grows.near_b (h : Grows pe r0 N) {k : Nat} (hk : k < N) (A : Prop) :
    ∃ θ, AllAt pe N (pe k).b (fun l p => l ≠ k → (p < θ ↔ p < (pe k).pb)) ∧ ((pe k).pb < θ ↔ A) := by
  by_cases hA : A
  · obtain ⟨θ, h1, h2⟩ := exists_just_after pe N (pe k).pb
    refine ⟨θ, fun l hl => ⟨fun e hne => ⟨fun hp => ?_, fun hp => hp.trans h1⟩, fun e hne => absurd e (h.bb_ne hl hk hne)⟩, by simp [h1, hA]⟩
    exact lt_of_le_of_ne ((h2 l hl).1 hp) (h.angle_ab l hl k hk e)
  · exact ⟨(pe k).pb, fun l hl => ⟨fun _ _ => Iff.rfl, fun _ _ => Iff.rfl⟩, by simp [hA]⟩

theorem AllAt.succ {v : Nat} {p : Nat → ℝ → Prop} (h : AllAt pe N v p) (ha : (pe N).a = v → p N (pe N).pa)
    (hb : (pe N).b = v → p N (pe N).pb) : AllAt pe (N + 1) v p := by
  intro l hl
  rcases Nat.lt_succ_iff_lt_or_eq.1 hl with g | rfl
  · exact h l g
  · exact ⟨ha, hb⟩

theorem AllAt.imp {v : Nat} {p q : Nat → ℝ → Prop} (h : AllAt pe N v p) (hpq : ∀ l < N, ∀ t, p l t → q l t) : AllAt pe N v q :=
  fun l hl => ⟨fun e => hpq l hl _ ((h l hl).1 e), fun e => hpq l hl _ ((h l hl).2 e)⟩

theorem AllAt.and {v : Nat} {p q : Nat → ℝ → Prop} (h : AllAt pe N v p) (h' : AllAt pe N v q) : AllAt pe N v (fun l t => p l t ∧ q l t) :=
  fun l hl => ⟨fun e => ⟨(h l hl).1 e, (h' l hl).1 e⟩, fun e => ⟨(h l hl).2 e, (h' l hl).2 e⟩⟩

theorem AllAt.mono {v N' : Nat} {p : Nat → ℝ → Prop} (h : AllAt pe N v p) (hN : N' ≤ N) : AllAt pe N' v p :=
  fun l hl => h l (hl.trans_le hN)

/-- at the new end all sectors are joined -/
theorem Grows.conn_new (h : Grows pe r0 (N + 1)) (θ θ' : ℝ) : Conn pe (N + 1) ((pe N).b, θ) ((pe N).b, θ') := by
  have hold : ∀ p : Nat → ℝ → Prop, p N (pe N).pb → AllAt pe (N + 1) (pe N).b p := by
    intro p hp l hl
    rcases Nat.lt_succ_iff_lt_or_eq.1 hl with g | rfl
    · exact ⟨fun e => absurd e (h.old_ne g).1, fun e => absurd e (h.old_ne g).2⟩
    · exact ⟨fun e => absurd e (h.ab_ne (by omega)), fun _ => hp⟩
  by_cases h1 : (pe N).pb < θ <;> by_cases h2 : (pe N).pb < θ'
  · exact (Move.same (hold _ (by simp [h1, h2]))).conn
  · exact (Move.wrap (hold _ h1) (hold _ h2)).conn
  · exact (Move.wrap (hold _ h2) (hold _ h1)).conn.symm
  · exact (Move.same (hold _ (by simp [h1, h2]))).conn

/-- both sides of the new edge are joined through its end -/
theorem Grows.conn_sides (h : Grows pe r0 (N + 1)) {θ θ' : ℝ}
    (h1 : AllAt pe (N + 1) (pe N).a (fun l p => l ≠ N → (p < θ ↔ p < (pe N).pa)))
    (h2 : AllAt pe (N + 1) (pe N).a (fun l p => l ≠ N → (p < θ' ↔ p < (pe N).pa))) :
    Conn pe (N + 1) ((pe N).a, θ) ((pe N).a, θ') := by
  obtain ⟨t, t1, t2⟩ := h.near_b (k := N) (by omega) (¬ (pe N).pa < θ)
  obtain ⟨t', t1', t2'⟩ := h.near_b (k := N) (by omega) (¬ (pe N).pa < θ')
  have c1 := (Move.cross (pe := pe) (by omega : N < N + 1) h1 t1 (by rw [t2, not_not])).conn
  have c2 := (Move.cross (pe := pe) (by omega : N < N + 1) h2 t1' (by rw [t2', not_not])).conn
  exact (c1.trans (h.conn_new _ _)).trans c2.symm

/-- sectors that were the same stay joined -/
theorem Grows.conn_same (h : Grows pe r0 (N + 1)) {v : Nat} {θ θ' : ℝ} (hs : AllAt pe N v (fun _ p => p < θ ↔ p < θ')) :
    Conn pe (N + 1) (v, θ) (v, θ') := by
  by_cases hb : (pe N).b = v
  · subst hb; exact h.conn_new _ _
  by_cases ha : (pe N).a = v
  · subst ha
    have key : ∀ θ θ' : ℝ, AllAt pe N (pe N).a (fun _ p => p < θ ↔ p < θ') → (pe N).pa < θ → ¬ (pe N).pa < θ' →
        Conn pe (N + 1) ((pe N).a, θ) ((pe N).a, θ') := by
      intro θ θ' hs g1 g2
      refine h.conn_sides ?_ ?_
      · refine AllAt.succ (hs.imp fun l hl t ht _ => ?_) (fun _ h => absurd rfl h) (fun _ h => absurd rfl h)
        rw [ht]
        exact ⟨fun q => q.trans_le (not_lt.1 g2), fun q => ht.1 (q.trans g1)⟩
      · refine AllAt.succ (hs.imp fun l hl t ht _ => ?_) (fun _ h => absurd rfl h) (fun _ h => absurd rfl h)
        exact ⟨fun q => q.trans_le (not_lt.1 g2), fun q => ht.1 (q.trans g1)⟩
    by_cases h1 : (pe N).pa < θ <;> by_cases h2 : (pe N).pa < θ'
    · exact (Move.same (hs.succ (fun _ => by simp [h1, h2]) (fun e => absurd e hb))).conn
    · exact key _ _ hs h1 h2
    · exact (key _ _ (hs.imp fun _ _ _ h => h.symm) h2 h1).symm
    · exact (Move.same (hs.succ (fun _ => by simp [h1, h2]) (fun e => absurd e hb))).conn
  · exact (Move.same (hs.succ (fun e => absurd e ha) (fun e => absurd e hb))).conn

theorem Grows.conn_lift (h : Grows pe r0 (N + 1)) {s t} (hm : Move pe N s t) : Conn pe (N + 1) s t := by
  cases hm with
  | same hs => exact h.conn_same hs
  | @wrap v θ θ' h1 h2 =>
    obtain ⟨B, hB⟩ := exists_top pe (N + 1) v
    obtain ⟨S, hS⟩ := exists_bot pe (N + 1) v
    have c1 := h.conn_same (v := v) (θ := θ) (θ' := B) ((h1.and (hB.mono (by omega))).imp fun _ _ _ g => iff_of_true g.1 g.2)
    have c2 := h.conn_same (v := v) (θ := θ') (θ' := S) ((h2.and (hS.mono (by omega))).imp fun _ _ _ g => iff_of_false g.1 g.2)
    exact (c1.trans (Move.wrap hB hS).conn).trans c2.symm
  | @cross k θ θ' hk h1 h2 hA =>
    obtain ⟨θ1, a1, a2⟩ := h.near_a (k := k) (by omega) ((pe k).pa < θ)
    obtain ⟨θ2, b1, b2⟩ := h.near_b (k := k) (by omega) ((pe k).pb < θ')
    have c1 : Conn pe (N + 1) ((pe k).a, θ) ((pe k).a, θ1) := by
      refine h.conn_same fun l hl => ?_
      by_cases hlk : l = k
      · subst hlk
        exact ⟨fun _ => a2.symm, fun e => absurd e.symm (h.ab_ne (by omega))⟩
      · exact ⟨fun e => ((h1 l hl).1 e hlk).trans ((a1 l (by omega)).1 e hlk).symm, fun e => ((h1 l hl).2 e hlk).trans ((a1 l (by omega)).2 e hlk).symm⟩
    have c2 : Conn pe (N + 1) ((pe k).b, θ') ((pe k).b, θ2) := by
      refine h.conn_same fun l hl => ?_
      by_cases hlk : l = k
      · subst hlk
        exact ⟨fun e => absurd e (h.ab_ne (by omega)), fun _ => b2.symm⟩
      · exact ⟨fun e => ((h2 l hl).1 e hlk).trans ((b1 l (by omega)).1 e hlk).symm, fun e => ((h2 l hl).2 e hlk).trans ((b1 l (by omega)).2 e hlk).symm⟩
    exact (c1.trans (Move.cross (by omega) a1 b1 (by rw [a2, b2, hA])).conn).trans c2.symm

/-- **one face**: all sectors of a plane tree are joined -/
theorem Grows.connected (h : Grows pe r0 N) : ∀ s t : Nat × ℝ, Vert pe r0 N s.1 → Vert pe r0 N t.1 → Conn pe N s t := by
  induction N with
  | zero =>
    rintro ⟨v, θ⟩ ⟨w, θ'⟩ (hv | ⟨j, hj, -⟩) (hw | ⟨j', hj', -⟩)
    · simp only at hv hw
      subst hv; subst hw
      exact (Move.same fun l hl => absurd hl (by omega)).conn
    all_goals omega
  | succ N ih =>
    have ih' := ih (h.mono (by omega))
    have lift : ∀ s t, Conn pe N s t → Conn pe (N + 1) s t := by
      intro s t hst
      induction hst with
      | rel s t hm => exact h.conn_lift hm
      | refl s => exact Conn.refl s
      | symm s t _ ih => exact ih.symm
      | trans s t u _ _ ih1 ih2 => exact ih1.trans ih2
    -- every sector is joined to the new end
    have key : ∀ s : Nat × ℝ, Vert pe r0 (N + 1) s.1 → Conn pe (N + 1) s ((pe N).b, (pe N).pb) := by
      rintro ⟨v, θ⟩ hv
      have hcase : Vert pe r0 N v ∨ v = (pe N).b := by
        rcases hv with h0 | ⟨j, hj, h0⟩
        · exact Or.inl (Or.inl h0)
        · rcases Nat.lt_succ_iff_lt_or_eq.1 hj with g | rfl
          · exact Or.inl (Or.inr ⟨j, g, h0⟩)
          · exact Or.inr h0
      rcases hcase with hv | rfl
      · obtain ⟨θ1, a1, a2⟩ := h.near_a (k := N) (by omega) True
        have c1 := lift _ _ (ih' (v, θ) ((pe N).a, θ1) hv (h.start N (by omega)))
        refine c1.trans (Move.cross (by omega) a1 (fun l hl => ⟨fun _ _ => Iff.rfl, fun _ _ => Iff.rfl⟩) ?_).conn
        simp [a2.2 trivial]
      · exact h.conn_new _ _
    exact fun s t hs ht => (key s hs).trans (key t ht).symm

end Hcp.PlaneTree
