import Verif.Proofs.StripLeaf

/-!
# Vectors orthogonal to all the loops of a plane tree

The values of such a vector around the tree are translates of its values on the last edge, which are periodic.
-/

namespace Hcp.PlaneTree

section frm
variable {m : Nat} [NeZero m] {pe : Nat → PEdge} {N r0 : Nat}

/-- intersection of the loop `(k, α)` with a vector supported on the first `N` edges -/
noncomputable def frm (pe : Nat → PEdge) (N : Nat) {G : Type*} [AddCommGroup G] (Z : Nat → ZMod m → G) (k : Nat) (α : ZMod m) : G :=
  ∑ l ∈ Finset.range N, ∑ β, Ent pe k l (β - α) • Z l β

theorem frm_congr {G : Type*} [AddCommGroup G] {Z Z' : Nat → ZMod m → G} (h : ∀ l < N, ∀ β, Z l β = Z' l β) (k : Nat) (α : ZMod m) : frm pe N Z k α = frm pe N Z' k α :=
  Finset.sum_congr rfl fun l hl => Finset.sum_congr rfl fun β _ => by rw [h l (Finset.mem_range.1 hl)]

theorem frm_succ {G : Type*} [AddCommGroup G] {Z : Nat → ZMod m → G} (h : ∀ β, Z N β = 0) (k : Nat) (α : ZMod m) : frm pe (N + 1) Z k α = frm pe N Z k α := by
  unfold frm
  rw [Finset.sum_range_succ, add_eq_left]
  exact Finset.sum_eq_zero fun β _ => by rw [h, smul_zero]

theorem frm_add {G : Type*} [AddCommGroup G] (Z Z' : Nat → ZMod m → G) (k : Nat) (α : ZMod m) : frm pe N (fun l β => Z l β + Z' l β) k α = frm pe N Z k α + frm pe N Z' k α := by
  unfold frm
  simp only [smul_add, Finset.sum_add_distrib]

theorem frm_sub {G : Type*} [AddCommGroup G] (Z Z' : Nat → ZMod m → G) (k : Nat) (α : ZMod m) : frm pe N (fun l β => Z l β - Z' l β) k α = frm pe N Z k α - frm pe N Z' k α := by
  unfold frm
  simp only [smul_sub, Finset.sum_sub_distrib]

theorem frm_map {G H : Type*} [AddCommGroup G] [AddCommGroup H] (φ : G →+ H) (Z : Nat → ZMod m → G) (k : Nat) (α : ZMod m) : frm pe N (fun l β => φ (Z l β)) k α = φ (frm pe N Z k α) := by
  unfold frm
  simp only [map_sum, map_zsmul]

omit [NeZero m] in
theorem gfun_map {G H : Type*} [AddCommGroup G] [AddCommGroup H] (φ : G →+ H) (Z : Nat → ZMod m → G) (k : Nat) (α : ZMod m) : gfun pe N (fun l β => φ (Z l β)) k α = φ (gfun pe N Z k α) := by
  unfold gfun wf
  simp only [map_sum, map_zsmul, map_sub]

omit [NeZero m] in
theorem gfun_sub {G : Type*} [AddCommGroup G] (Z Z' : Nat → ZMod m → G) (k : Nat) (α : ZMod m) : gfun pe N (fun l β => Z l β - Z' l β) k α = gfun pe N Z k α - gfun pe N Z' k α := by
  unfold gfun wf
  simp only [smul_sub, Finset.sum_sub_distrib]
  abel

omit [NeZero m] in
theorem gfun_add {G : Type*} [AddCommGroup G] (Z Z' : Nat → ZMod m → G) (k : Nat) (α : ZMod m) : gfun pe N (fun l β => Z l β + Z' l β) k α = gfun pe N Z k α + gfun pe N Z' k α := by
  unfold gfun wf
  simp only [smul_add, Finset.sum_add_distrib]
  abel

/-- the form by differences -/
theorem Grows.frm_eq {G : Type*} [AddCommGroup G] (hg : Grows pe r0 N) (Z : Nat → ZMod m → G) {k : Nat} (hk : k < N) (α : ZMod m) :
    frm pe N Z k α = gfun pe N Z k (α + 1) - gfun pe N Z k α := hg.form_eq Z hk α

omit [NeZero m] in
theorem Ent_anti (hg : Grows pe r0 N) {k l : Nat} (hk : k < N) (hl : l < N) (d : ZMod m) : Ent pe l k (-d) = - Ent pe k l d := by
  by_cases h : k = l
  · subst h
    unfold Ent
    rw [if_pos rfl, if_pos rfl, Jf_neg, Jf_neg]
    norm_num
  · exact Ent_antisymm hg hk hl h d

/-- the form is antisymmetric -/
theorem Grows.frm_skew {F : Type*} [CommRing F] (hg : Grows pe r0 N) (X Y : Nat → ZMod m → F) :
    ∑ k ∈ Finset.range N, ∑ α, X k α * frm pe N Y k α = - ∑ k ∈ Finset.range N, ∑ α, Y k α * frm pe N X k α := by
  unfold frm
  simp only [Finset.mul_sum]
  have e : ∀ (X Y : Nat → ZMod m → F), ∑ k ∈ Finset.range N, ∑ α, ∑ l ∈ Finset.range N, ∑ β, X k α * Ent pe k l (β - α) • Y l β =
      ∑ k ∈ Finset.range N, ∑ l ∈ Finset.range N, ∑ α, ∑ β, X k α * Ent pe k l (β - α) • Y l β :=
    fun X Y => Finset.sum_congr rfl fun k _ => Finset.sum_comm
  rw [e, e, Finset.sum_comm, ← Finset.sum_neg_distrib]
  refine Finset.sum_congr rfl fun l hl => ?_
  rw [← Finset.sum_neg_distrib]
  refine Finset.sum_congr rfl fun k hk => ?_
  rw [Finset.sum_comm, ← Finset.sum_neg_distrib]
  refine Finset.sum_congr rfl fun β _ => ?_
  rw [← Finset.sum_neg_distrib]
  refine Finset.sum_congr rfl fun α _ => ?_
  have := Ent_anti hg (Finset.mem_range.1 hl) (Finset.mem_range.1 hk) (α - β)
  rw [neg_sub] at this
  rw [this]
  simp only [zsmul_eq_mul, Int.cast_neg]
  ring

/-- orthogonal to all loops -/
def IsKer (pe : Nat → PEdge) (N : Nat) {G : Type*} [AddCommGroup G] (Z : Nat → ZMod m → G) : Prop := ∀ k < N, ∀ α, frm pe N Z k α = 0

theorem const_of_step {G : Type*} {f : ZMod m → G} (h : ∀ α, f (α + 1) = f α) (α : ZMod m) : f α = f 0 := by
  have : ∀ n : Nat, f (n : ZMod m) = f 0 := by
    intro n
    induction n with
    | zero => simp
    | succ n ih => rw [Nat.cast_succ, h, ih]
  have h2 := this α.val
  rwa [ZMod.natCast_zmod_val] at h2

theorem Grows.ker_gfun {G : Type*} [AddCommGroup G] (hg : Grows pe r0 N) {Z : Nat → ZMod m → G} (hZ : IsKer pe N Z) {k : Nat} (hk : k < N) (α : ZMod m) : gfun pe N Z k α = gfun pe N Z k 0 := by
  refine const_of_step (fun α => ?_) α
  have := hZ k hk α
  rw [hg.frm_eq Z hk, sub_eq_zero] at this
  exact this

/-- the rows of all loops but the last are enough -/
theorem Grows.ker_of {G : Type*} [AddCommGroup G] (hg : Grows pe r0 N) {Z : Nat → ZMod m → G} (h : ∀ k < N, ∀ α, α ≠ -1 → frm pe N Z k α = 0) : IsKer pe N Z := by
  intro k hk α
  by_cases hα : α = -1
  · have hs : ∑ α, frm pe N Z k α = 0 := by
      simp only [hg.frm_eq Z hk]
      rw [Finset.sum_sub_distrib, sub_eq_zero]
      exact Fintype.sum_equiv (Equiv.addRight (1 : ZMod m)) _ _ fun _ => rfl
    rw [Finset.sum_eq_single α (fun β _ hβ => h k hk β (by rw [← hα]; exact hβ)) (fun h => absurd (Finset.mem_univ _) h)] at hs
    exact hs
  · exact h k hk α hα

end frm

section face
variable {m : Nat} [NeZero m] {pe : Nat → PEdge} {N r0 : Nat}

open scoped Classical in
/-- half edges of a vertex before a direction -/
noncomputable def before (pe : Nat → PEdge) (N : Nat) (s : Nat × ℝ) : Finset (Nat × Bool) := (halves pe N s.1).filter fun h => hang pe h < s.2

theorem mem_before {s : Nat × ℝ} {h : Nat × Bool} : h ∈ before pe N s ↔ (h.1 < N ∧ hv pe h = s.1) ∧ hang pe h < s.2 := by
  unfold before
  rw [Finset.mem_filter, mem_halves]

theorem AllAt.half {v : Nat} {p : Nat → ℝ → Prop} (h : AllAt pe N v p) {j : Nat × Bool} (hj : j.1 < N) (hv' : hv pe j = v) : p j.1 (hang pe j) := by
  obtain ⟨l, x⟩ := j
  cases x
  · exact (h l hj).1 hv'
  · exact (h l hj).2 hv'

/-- the values at two sectors of a vector orthogonal to all loops are translates, up to a constant -/
def Shifts (pe : Nat → PEdge) (N m : Nat) [NeZero m] (s s' : Nat × ℝ) : Prop :=
  ∃ j : ZMod m, ∀ (F : Type) [AddCommGroup F] (Z : Nat → ZMod m → F), IsKer pe N Z → ∃ c : F, ∀ t, wf pe N Z s'.1 (before pe N s') t = wf pe N Z s.1 (before pe N s) (t + j) + c

theorem Grows.shifts_move (hg : Grows pe r0 N) {s s' : Nat × ℝ} (hm : Move pe N s s') : Shifts pe N m s s' := by
  cases hm with
  | @same v θ θ' h =>
    refine ⟨0, fun F _ Z _ => ⟨0, fun t => ?_⟩⟩
    have : before pe N (v, θ') = before pe N (v, θ) := by
      ext j
      rw [mem_before, mem_before]
      exact and_congr_right fun hj => (h.half hj.1 hj.2).symm
    rw [this, add_zero, add_zero]
  | @wrap v θ θ' h h' =>
    refine ⟨-1, fun F _ Z _ => ⟨0, fun t => ?_⟩⟩
    have e1 : before pe N (v, θ) = halves pe N v := by
      ext j
      rw [mem_before, mem_halves]
      exact ⟨fun hj => hj.1, fun hj => ⟨hj, h.half hj.1 hj.2⟩⟩
    have e2 : before pe N (v, θ') = ∅ := by
      rw [Finset.eq_empty_iff_forall_notMem]
      intro j hj
      rw [mem_before] at hj
      exact h'.half hj.1.1 hj.1.2 hj.2
    rw [e1, e2, wf_full, neg_add_cancel_right, add_zero]
  | @cross k θ θ' hk h h' hx =>
    have hab := hg.ab_ne hk
    have hmemh : ∀ h : Nat × Bool, h.1 < N → h ∈ halves pe N (hv pe h) := fun h hh => (mem_halves pe).2 ⟨hh, rfl⟩
    have ea : ∀ j : Nat × Bool, j ≠ (k, false) → (j ∈ before pe N ((pe k).a, θ) ↔ j ∈ below pe N (k, false)) := by
      intro j hj
      rw [mem_before]
      unfold below
      rw [Finset.mem_filter, mem_halves]
      refine and_congr_right fun hj' => ?_
      refine h.half hj'.1 hj'.2 fun e => ?_
      obtain ⟨l, x⟩ := j
      dsimp only at e
      subst e
      cases x
      · exact hj rfl
      · exact hab hj'.2.symm
    have eb : ∀ j : Nat × Bool, j ≠ (k, true) → (j ∈ before pe N ((pe k).b, θ') ↔ j ∈ below pe N (k, true)) := by
      intro j hj
      rw [mem_before]
      unfold below
      rw [Finset.mem_filter, mem_halves]
      refine and_congr_right fun hj' => ?_
      refine h'.half hj'.1 hj'.2 fun e => ?_
      obtain ⟨l, x⟩ := j
      dsimp only at e
      subst e
      cases x
      · exact hab hj'.2
      · exact hj rfl
    refine ⟨((pe k).sa : ZMod m) - (pe k).sb, fun F _ Z hZ => ⟨- gfun pe N Z k 0, fun t => ?_⟩⟩
    have hgc := hg.ker_gfun hZ hk (t - (pe k).sb)
    have ht : t + (((pe k).sa : ZMod m) - (pe k).sb) = t - (pe k).sb + (pe k).sa := by ring
    have ht2 : t = t - (pe k).sb + (pe k).sb := by ring
    rw [ht]
    rw [← hgc]
    unfold gfun
    rw [← ht2]
    by_cases hp : (pe k).pa < θ
    · have hp' : ¬ (pe k).pb < θ' := hx.1 hp
      have e1 : before pe N ((pe k).a, θ) = insert (k, false) (below pe N (k, false)) := by
        ext j
        by_cases hj : j = (k, false)
        · subst hj
          exact ⟨fun _ => Finset.mem_insert_self _ _, fun _ => mem_before.2 ⟨⟨hk, rfl⟩, hp⟩⟩
        · rw [ea j hj, Finset.mem_insert]
          exact ⟨Or.inr, fun g => g.resolve_left hj⟩
      have e2 : before pe N ((pe k).b, θ') = below pe N (k, true) := by
        ext j
        by_cases hj : j = (k, true)
        · subst hj
          exact ⟨fun g => absurd (mem_before.1 g).2 hp', fun g => absurd g (not_mem_below _)⟩
        · exact eb j hj
      rw [e1, e2]
      abel
    · have hp' : (pe k).pb < θ' := by
        by_contra g
        exact hp (hx.2 g)
      have e1 : before pe N ((pe k).a, θ) = below pe N (k, false) := by
        ext j
        by_cases hj : j = (k, false)
        · subst hj
          exact ⟨fun g => absurd (mem_before.1 g).2 hp, fun g => absurd g (not_mem_below _)⟩
        · exact ea j hj
      have e2 : before pe N ((pe k).b, θ') = insert (k, true) (below pe N (k, true)) := by
        ext j
        by_cases hj : j = (k, true)
        · subst hj
          exact ⟨fun _ => Finset.mem_insert_self _ _, fun _ => mem_before.2 ⟨⟨hk, rfl⟩, hp'⟩⟩
        · rw [eb j hj, Finset.mem_insert]
          exact ⟨Or.inr, fun g => g.resolve_left hj⟩
      have i1 := wf_insert Z (below_sub (k, false)) (hmemh (k, false) hk) (not_mem_below (k, false)) (t - (pe k).sb + (pe k).sa)
      have i2 := wf_insert Z (below_sub (k, true)) (hmemh (k, true) hk) (not_mem_below (k, true)) t
      simp only [hv, hsg, hsh, if_true, Bool.false_eq_true, if_false, add_sub_cancel_right, one_smul, neg_smul] at i1 i2
      rw [e1, e2, i1, i2]
      abel

theorem Grows.shifts (hg : Grows pe r0 N) {s s' : Nat × ℝ} (hc : Conn pe N s s') : Shifts pe N m s s' := by
  induction hc with
  | rel s s' h => exact hg.shifts_move h
  | refl s => exact ⟨0, fun F _ Z _ => ⟨0, fun t => by rw [add_zero, add_zero]⟩⟩
  | symm s s' _ ih =>
    obtain ⟨j, ih⟩ := ih
    refine ⟨-j, fun F _ Z hZ => ?_⟩
    obtain ⟨c, hc⟩ := ih F Z hZ
    refine ⟨-c, fun t => ?_⟩
    have := hc (t + -j)
    rw [neg_add_cancel_right] at this
    rw [this]
    abel
  | trans s s' s'' _ _ ih ih' =>
    obtain ⟨j, ih⟩ := ih
    obtain ⟨j', ih'⟩ := ih'
    refine ⟨j' + j, fun F _ Z hZ => ?_⟩
    obtain ⟨c, hc⟩ := ih F Z hZ
    obtain ⟨c', hc'⟩ := ih' F Z hZ
    refine ⟨c + c', fun t => ?_⟩
    rw [hc', hc, ← add_assoc, ← add_assoc]

/-- values of a vector orthogonal to the loops of a tree along a new edge -/
theorem Grows.new_edge {q : Nat} (hg : Grows pe r0 (q + 2)) : ∃ j : ZMod m, ∀ (F : Type) [AddCommGroup F] (R : Nat → ZMod m → F), (∀ α, R (q + 1) α = 0) → IsKer pe (q + 1) R →
    ∃ c : F, ∀ α, gfun pe (q + 2) R (q + 1) α = c - R q (α + j) := by
  have hg1 := hg.mono (Nat.le_succ (q + 1))
  have hleaf : ∀ l < q + 1, (pe l).a ≠ (pe q).b := by
    intro l hl e
    exact hg1.new q (by omega) (e ▸ (hg1.start l hl).mono (by omega))
  have hleaf2 : ∀ l < q + 2, (pe l).a ≠ (pe (q + 1)).b := by
    intro l hl e
    exact hg.new (q + 1) (by omega) (e ▸ (hg.start l hl).mono (by omega))
  obtain ⟨θ, hθ⟩ := exists_bot pe (q + 1) (pe q).b
  obtain ⟨j, hj⟩ := hg1.shifts (m := m) (hg1.connected ((pe q).b, θ) ((pe (q + 1)).a, (pe (q + 1)).pa) (Or.inr ⟨q, by omega, rfl⟩) (hg.start (q + 1) (by omega)))
  refine ⟨(pe (q + 1)).sa + j - (pe q).sb - 1, fun F _ R hR hK => ?_⟩
  obtain ⟨c, hc⟩ := hj F R hK
  refine ⟨c, fun α => ?_⟩
  have hb : before pe (q + 1) ((pe q).b, θ) = ∅ := by
    rw [Finset.eq_empty_iff_forall_notMem]
    intro j hj
    rw [mem_before] at hj
    exact hθ.half hj.1.1 hj.1.2 hj.2
  have h1 := hc (α + (pe (q + 1)).sa)
  rw [hb] at h1
  dsimp only at h1
  rw [hg1.leaf_wf (by omega) hleaf] at h1
  rw [hg.leaf_gfun (by omega) hleaf2, hR, add_zero]
  have h2 : wf pe (q + 2) R (pe (q + 1)).a (insert (q + 1, false) (below pe (q + 2) (q + 1, false))) (α + (pe (q + 1)).sa) =
      wf pe (q + 1) R (pe (q + 1)).a (before pe (q + 1) ((pe (q + 1)).a, (pe (q + 1)).pa)) (α + (pe (q + 1)).sa) := by
    unfold wf
    have hsub : halves pe (q + 1) (pe (q + 1)).a ⊆ halves pe (q + 2) (pe (q + 1)).a := by
      intro h hh
      rw [mem_halves] at hh ⊢
      exact ⟨by omega, hh.2⟩
    rw [← Finset.sum_subset hsub]
    · refine Finset.sum_congr rfl fun h hh => ?_
      rw [mem_halves] at hh
      have hne : h ≠ (q + 1, false) := by
        rintro rfl
        simp at hh
      have : h ∈ insert (q + 1, false) (below pe (q + 2) (q + 1, false)) ↔ h ∈ before pe (q + 1) ((pe (q + 1)).a, (pe (q + 1)).pa) := by
        rw [Finset.mem_insert, mem_before]
        unfold below
        rw [Finset.mem_filter, mem_halves]
        constructor
        · intro g
          exact ⟨hh, (g.resolve_left hne).2⟩
        · intro g
          exact Or.inr ⟨⟨by omega, hh.2⟩, g.2⟩
      simp only [this]
    · intro h hh hn
      rw [mem_halves] at hh hn
      have : h.1 = q + 1 := by
        by_contra hc
        exact hn ⟨by omega, hh.2⟩
      rw [this, hR, smul_zero]
  have e : α + ((pe (q + 1)).sa + j - (pe q).sb - 1 : ZMod m) = α + (pe (q + 1)).sa + j - (pe q).sb - 1 := by ring
  rw [h2, h1, e]
  abel

end face

end Hcp.PlaneTree
