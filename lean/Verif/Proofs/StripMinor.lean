import Verif.Proofs.TreeRank
import Verif.Proofs.PUReduce
import Mathlib.Data.Finset.Max
import Mathlib.LinearAlgebra.Matrix.ToLinearEquiv
import Mathlib.Algebra.Field.ZMod

/-!
# Principal minors on sets of consecutive strips

The lifts of the edges of a plane tree are strips between disks, `m` for each edge.  The vectors orthogonal to a set of loops made of consecutive strips are the functions on the faces of the surface: this does
not depend on the field, and gives minors `0, ±1`.
-/

namespace Hcp.PlaneTree

section half
variable (pe : Nat → PEdge)

/-- the vertex of a half edge: `(l, false)` is the start of the edge `l`, `(l, true)` its end -/
def hv (h : Nat × Bool) : Nat := if h.2 then (pe h.1).b else (pe h.1).a

/-- its angle -/
noncomputable def hang (h : Nat × Bool) : ℝ := if h.2 then (pe h.1).pb else (pe h.1).pa

/-- its sheet -/
def hsh (h : Nat × Bool) : ℤ := if h.2 then (pe h.1).sb else (pe h.1).sa

/-- its sign -/
def hsg (h : Nat × Bool) : ℤ := if h.2 then -1 else 1

/-- half edges at a vertex -/
def halves (N v : Nat) : Finset (Nat × Bool) := (Finset.range N ×ˢ Finset.univ).filter fun h => hv pe h = v

theorem mem_halves {N v : Nat} {h : Nat × Bool} : h ∈ halves pe N v ↔ h.1 < N ∧ hv pe h = v := by
  simp [halves]

open scoped Classical in
/-- those before `h` -/
noncomputable def below (N : Nat) (h : Nat × Bool) : Finset (Nat × Bool) := (halves pe N (hv pe h)).filter fun j => hang pe j < hang pe h

open scoped Classical in
/-- sum of the weights met from a fixed place, when the half edges of `A` have been met on sheet `s` -/
noncomputable def wf {m : Nat} {G : Type*} [AddCommGroup G] (N : Nat) (Z : Nat → ZMod m → G) (v : Nat) (A : Finset (Nat × Bool)) (s : ZMod m) : G :=
  ∑ h ∈ halves pe N v, hsg h • Z h.1 (s - hsh pe h - if h ∈ A then 0 else 1)

end half

section
variable {pe : Nat → PEdge} {N m : Nat} {G : Type*} [AddCommGroup G] (Z : Nat → ZMod m → G)

theorem wf_sub {v : Nat} {A : Finset (Nat × Bool)} (hA : A ⊆ halves pe N v) (s : ZMod m) :
    wf pe N Z v A s = wf pe N Z v ∅ s + ∑ h ∈ A, hsg h • (Z h.1 (s - hsh pe h) - Z h.1 (s - hsh pe h - 1)) := by
  classical
  have e : ∑ h ∈ A, hsg h • (Z h.1 (s - hsh pe h) - Z h.1 (s - hsh pe h - 1)) =
      ∑ h ∈ halves pe N v, if h ∈ A then hsg h • (Z h.1 (s - hsh pe h) - Z h.1 (s - hsh pe h - 1)) else 0 := by
    rw [← Finset.sum_filter]
    congr 1
    ext h
    simp only [Finset.mem_filter]
    exact ⟨fun g => ⟨hA g, g⟩, fun g => g.2⟩
  rw [e]
  unfold wf
  rw [← Finset.sum_add_distrib]
  refine Finset.sum_congr rfl fun h _ => ?_
  by_cases g : h ∈ A
  · simp [g, smul_sub]
  · simp [g]

theorem wf_insert {v : Nat} {A : Finset (Nat × Bool)} (hA : A ⊆ halves pe N v) {h : Nat × Bool} (hh : h ∈ halves pe N v) (hn : h ∉ A) (s : ZMod m) :
    wf pe N Z v (insert h A) s = wf pe N Z v A s + hsg h • (Z h.1 (s - hsh pe h) - Z h.1 (s - hsh pe h - 1)) := by
  classical
  have hi : insert h A ⊆ halves pe N v := Finset.insert_subset hh hA
  rw [wf_sub Z hi, wf_sub Z hA, Finset.sum_insert hn]
  abel

theorem wf_full (v : Nat) (s : ZMod m) : wf pe N Z v (halves pe N v) s = wf pe N Z v ∅ (s + 1) := by
  unfold wf
  refine Finset.sum_congr rfl fun h hh => ?_
  rw [if_pos hh, if_neg (by simp)]
  congr 2
  ring

/-- telescoping along the angles -/
theorem telescope (ang : Nat × Bool → ℝ) (Φ : Finset (Nat × Bool) → ℤ) (S : Finset (Nat × Bool)) (hinj : Set.InjOn ang S) :
    ∑ h ∈ S, (Φ (insert h (S.filter fun j => ang j < ang h)) - Φ (S.filter fun j => ang j < ang h)) = Φ S - Φ ∅ := by
  classical
  induction S using Finset.induction_on_max_value ang with
  | empty => simp
  | insert x S hx hmax ih =>
    have hlt : ∀ y ∈ S, ang y < ang x := by
      intro y hy
      refine lt_of_le_of_ne (hmax y hy) fun e => hx ?_
      have := hinj (by simp [hy]) (by simp) e
      rwa [← this]
    have e1 : (insert x S).filter (fun j => ang j < ang x) = S := by
      ext y
      simp only [Finset.mem_filter, Finset.mem_insert]
      constructor
      · rintro ⟨rfl | g, g2⟩
        · exact absurd g2 (lt_irrefl _)
        · exact g
      · exact fun g => ⟨Or.inr g, hlt y g⟩
    have e2 : ∀ h ∈ S, (insert x S).filter (fun j => ang j < ang h) = S.filter fun j => ang j < ang h := by
      intro h hh
      rw [Finset.filter_insert, if_neg (not_lt.2 (hlt h hh).le)]
    rw [Finset.sum_insert hx, e1, Finset.sum_congr rfl fun h hh => by rw [e2 h hh], ih (hinj.mono (by simp))]
    ring

end

/-- a function with given differences -/
theorem exists_primitive {m : Nat} [NeZero m] (f : ZMod m → ℤ) (h : ∑ α, f α = 0) : ∃ Z : ZMod m → ℤ, (∀ α, Z α - Z (α - 1) = f α) ∧ Z (-1) = 0 := by
  have hm := Nat.pos_of_ne_zero (NeZero.ne m)
  have hz : ∑ i ∈ Finset.range m, f (i : ZMod m) = 0 := by
    rw [← h, ← Fin.sum_univ_eq_sum_range (fun i => f (i : ZMod m)) m]
    refine Fintype.sum_equiv (ZMod.finEquiv m).toEquiv _ _ fun i => ?_
    congr 1
    obtain ⟨k, rfl⟩ : ∃ k, m = k + 1 := ⟨m - 1, by omega⟩
    exact Fin.cast_val_eq_self i
  have h1 : (-1 : ZMod m).val + 1 = m := by
    obtain ⟨k, rfl⟩ : ∃ k, m = k + 1 := ⟨m - 1, by omega⟩
    rw [ZMod.val_neg_one]
  refine ⟨fun α => ∑ i ∈ Finset.range (α.val + 1), f (i : ZMod m), fun α => ?_, ?_⟩
  · dsimp only
    by_cases h0 : α = 0
    · subst h0
      rw [zero_sub, h1, hz]
      simp
    · have e : (α - 1).val + 1 = α.val := by
        have hpos : 0 < α.val := Nat.pos_of_ne_zero fun e => h0 ((ZMod.val_eq_zero α).1 e)
        have h2 : (1 : ZMod m).val ≤ α.val := (ZMod.val_one_eq_one_mod m).trans_le ((Nat.mod_le 1 m).trans hpos)
        rw [ZMod.val_sub h2, ZMod.val_one_eq_one_mod]
        have : 1 < m := lt_of_le_of_lt hpos (ZMod.val_lt α)
        rw [Nat.mod_eq_of_lt this]
        omega
      rw [e, Finset.sum_range_succ, ZMod.natCast_zmod_val]
      ring
  · dsimp only
    rw [h1, hz]

section
variable {pe : Nat → PEdge} {N r0 : Nat}

/-- a potential on the vertices of a tree -/
theorem Grows.potential {G : Type*} [AddCommGroup G] : ∀ {N : Nat}, Grows pe r0 N → ∀ γ : Nat → G, ∃ κ : Nat → G, ∀ k < N, κ (pe k).b = κ (pe k).a + γ k
  | 0, _, _ => ⟨0, fun k hk => absurd hk (Nat.not_lt_zero k)⟩
  | N + 1, h, γ => by
    obtain ⟨κ, hκ⟩ := (h.mono (Nat.le_succ N)).potential γ
    have hb : ¬ Vert pe r0 N (pe N).b := h.new N (Nat.lt_succ_self N)
    have h1 : ∀ v, Vert pe r0 N v → v ≠ (pe N).b := fun v hv e => hb (e ▸ hv)
    refine ⟨Function.update κ (pe N).b (κ (pe N).a + γ N), fun k hk => ?_⟩
    have ha : (pe k).a ≠ (pe N).b := h1 _ ((h.start k hk).mono (by omega))
    rw [Function.update_of_ne ha]
    rcases Nat.lt_succ_iff_lt_or_eq.1 hk with g | rfl
    · rw [Function.update_of_ne (h1 _ (Or.inr ⟨k, g, rfl⟩)), hκ k g]
    · rw [Function.update_self]

/-- angles at a vertex are distinct -/
theorem Grows.ang_inj (h : Grows pe r0 N) (v : Nat) : Set.InjOn (hang pe) (halves pe N v) := by
  rintro ⟨k, x⟩ hk ⟨l, y⟩ hl e
  rw [Finset.mem_coe, mem_halves] at hk hl
  obtain ⟨hk, kv⟩ := hk
  obtain ⟨hl, lv⟩ := hl
  dsimp only at hk hl
  cases x <;> cases y <;> simp only [hv, hang, if_true, Bool.false_eq_true, if_false] at kv lv e
  · by_contra hne
    have hkl : k ≠ l := fun e => hne (by rw [e])
    exact h.angle_aa k hk l hl hkl (kv.trans lv.symm) e
  · exact absurd e (h.angle_ab k hk l hl (kv.trans lv.symm))
  · exact absurd e.symm (h.angle_ab l hl k hk (lv.trans kv.symm))
  · have : k = l := by
      have hb := kv.trans lv.symm
      rcases Nat.lt_trichotomy k l with g | g | g
      · exact absurd (Or.inr ⟨k, g, hb.symm⟩) (h.new l hl)
      · exact g
      · exact absurd (Or.inr ⟨l, g, hb⟩) (h.new k hk)
    rw [this]

end

section form
variable {pe : Nat → PEdge} {N r0 m : Nat} {G : Type*} [AddCommGroup G]

theorem sum_halves (v : Nat) (f : Nat × Bool → G) : ∑ h ∈ halves pe N v, f h =
    ∑ l ∈ Finset.range N, ((if (pe l).a = v then f (l, false) else 0) + (if (pe l).b = v then f (l, true) else 0)) := by
  unfold halves
  rw [Finset.sum_filter, Finset.sum_product]
  refine Finset.sum_congr rfl fun l _ => ?_
  rw [Fintype.sum_bool, add_comm]
  simp [hv]

theorem sum_Jf [NeZero m] (i : ℤ) (α : ZMod m) (Z : ZMod m → G) : ∑ β, Jf i (β - α) • Z β = Z (α + i + 1) - Z (α + i) := by
  have h1 : ∀ β : ZMod m, Jf i (β - α) • Z β = (if β = α + i + 1 then Z β else 0) - (if β = α + i then Z β else 0) := by
    intro β
    have e1 : β - α = (i : ZMod m) + 1 ↔ β = α + i + 1 := by rw [sub_eq_iff_eq_add]; constructor <;> intro h <;> rw [h] <;> ring
    have e2 : β - α = (i : ZMod m) ↔ β = α + i := by rw [sub_eq_iff_eq_add, add_comm]
    unfold Jf
    simp only [e1, e2]
    split_ifs <;> simp
  simp only [h1, Finset.sum_sub_distrib, Finset.sum_ite_eq', Finset.mem_univ, if_true]

variable (pe N) in
/-- value after the start of a strip minus value before its end -/
noncomputable def gfun (Z : Nat → ZMod m → G) (k : Nat) (α : ZMod m) : G :=
  wf pe N Z (pe k).a (insert (k, false) (below pe N (k, false))) (α + (pe k).sa) - wf pe N Z (pe k).b (below pe N (k, true)) (α + (pe k).sb)

theorem below_sub (h : Nat × Bool) : below pe N h ⊆ halves pe N (hv pe h) := Finset.filter_subset _ _

theorem not_mem_below (h : Nat × Bool) : h ∉ below pe N h := by
  unfold below
  simp

/-- the form on the loops, by the differences of `gfun` -/
theorem Grows.form_eq [NeZero m] (hg : Grows pe r0 N) (Z : Nat → ZMod m → G) {k : Nat} (hk : k < N) (α : ZMod m) :
    ∑ l ∈ Finset.range N, ∑ β, Ent pe k l (β - α) • Z l β = gfun pe N Z k (α + 1) - gfun pe N Z k α := by
  classical
  have hab : ∀ l < N, (pe l).a ≠ (pe l).b := fun l hl e => hg.new l hl (e ▸ hg.start l hl)
  unfold gfun wf
  simp only [sum_halves]
  rw [sub_sub_sub_comm, ← Finset.sum_sub_distrib, ← Finset.sum_sub_distrib, ← Finset.sum_sub_distrib]
  refine Finset.sum_congr rfl fun l hl => ?_
  rw [Finset.mem_range] at hl
  simp only [hsg, hsh, if_true, Bool.false_eq_true, if_false, one_smul, neg_smul]
  by_cases hkl : k = l
  · subst hkl
    have h1 : (k, true) ∉ below pe N (k, true) := not_mem_below _
    rw [if_pos rfl, if_neg (hab k hk).symm, if_neg (hab k hk).symm, if_pos rfl, if_neg (hab k hk), if_neg (hab k hk), if_pos rfl, if_pos rfl, if_pos (Finset.mem_insert_self _ _), if_neg h1]
    have : ∀ β : ZMod m, Ent pe k k (β - α) • Z k β = Jf 0 (β - α) • Z k β + Jf (-1) (β - α) • Z k β := by
      intro β
      rw [← add_smul]
      unfold Ent
      rw [if_pos rfl]
    simp only [this, Finset.sum_add_distrib, sum_Jf]
    have e1 : α + ((0 : ℤ) : ZMod m) + 1 = α + 1 + ((pe k).sa : ZMod m) - ((pe k).sa : ZMod m) - 0 := by push_cast; ring
    have e2 : α + ((0 : ℤ) : ZMod m) = α + ((pe k).sa : ZMod m) - ((pe k).sa : ZMod m) - 0 := by push_cast; ring
    have e3 : α + ((-1 : ℤ) : ZMod m) + 1 = α + 1 + ((pe k).sb : ZMod m) - ((pe k).sb : ZMod m) - 1 := by push_cast; ring
    have e4 : α + ((-1 : ℤ) : ZMod m) = α + ((pe k).sb : ZMod m) - ((pe k).sb : ZMod m) - 1 := by push_cast; ring
    rw [e1, e2, e3, e4]
    abel
  · have hbb : (pe l).b ≠ (pe k).b := by
      intro e
      rcases Nat.lt_trichotomy k l with g | g | g
      · exact hg.new l hl (Or.inr ⟨k, g, e⟩)
      · exact hkl g
      · exact hg.new k hk (Or.inr ⟨l, g, e.symm⟩)
    have hent : ∀ β : ZMod m, Ent pe k l (β - α) • Z l β =
        (if (pe l).a = (pe k).a then Jf ((pe k).sa - (pe l).sa - lt01 (pe k).pa (pe l).pa) (β - α) • Z l β else 0) -
        (if (pe l).a = (pe k).b then Jf ((pe k).sb - (pe l).sa - lt01 (pe k).pb (pe l).pa) (β - α) • Z l β else 0) -
        (if (pe l).b = (pe k).a then Jf ((pe k).sa - (pe l).sb - lt01 (pe k).pa (pe l).pb) (β - α) • Z l β else 0) := by
      intro β
      unfold Ent
      rw [if_neg hkl, sub_smul, sub_smul]
      simp only [eq_comm (a := (pe l).a), eq_comm (a := (pe l).b)]
      split_ifs <;> simp
    have hsum : ∀ (p : Prop) [Decidable p] (i : ℤ), ∑ β, (if p then Jf i (β - α) • Z l β else 0) = if p then Z l (α + i + 1) - Z l (α + i) else 0 := by
      intro p _ i
      split_ifs
      · exact sum_Jf i α (Z l)
      · simp
    simp only [hent, Finset.sum_sub_distrib, hsum, if_neg hbb]
    -- the three kinds of common vertices
    have key : ∀ (v : Nat × Bool) (u : Nat × Bool) (A : Finset (Nat × Bool)), hang pe u ≠ hang pe v → (u ∈ A ↔ hang pe u < hang pe v) →
        Z l (α + ((hsh pe v - hsh pe u - lt01 (hang pe v) (hang pe u) : ℤ) : ZMod m) + 1) - Z l (α + ((hsh pe v - hsh pe u - lt01 (hang pe v) (hang pe u) : ℤ) : ZMod m)) =
        Z l (α + 1 + (hsh pe v : ZMod m) - (hsh pe u : ZMod m) - if u ∈ A then 0 else 1) - Z l (α + (hsh pe v : ZMod m) - (hsh pe u : ZMod m) - if u ∈ A then 0 else 1) := by
      intro v u A hne hA
      by_cases g : hang pe u < hang pe v
      · rw [if_pos (hA.2 g)]
        have : lt01 (hang pe v) (hang pe u) = 0 := if_neg (not_lt.2 g.le)
        rw [this]
        congr 2 <;> push_cast <;> ring
      · rw [if_neg fun h => g (hA.1 h)]
        have : lt01 (hang pe v) (hang pe u) = 1 := if_pos (lt_of_le_of_ne (not_lt.1 g) hne.symm)
        rw [this]
        congr 2 <;> push_cast <;> ring
    have hbel : ∀ v u : Nat × Bool, u.1 < N → hv pe u = hv pe v → (u ∈ below pe N v ↔ hang pe u < hang pe v) := by
      intro v u hu e
      unfold below
      rw [Finset.mem_filter, mem_halves]
      exact ⟨fun g => g.2, fun g => ⟨⟨hu, e⟩, g⟩⟩
    have hins : ∀ u : Nat × Bool, u ≠ (k, false) → u.1 < N → hv pe u = (pe k).a → (u ∈ insert (k, false) (below pe N (k, false)) ↔ hang pe u < hang pe (k, false)) := by
      intro u hne hu e
      rw [Finset.mem_insert, hbel (k, false) u hu e]
      exact ⟨fun g => g.resolve_left hne, Or.inr⟩
    have hlk : ∀ x : Bool, (l, x) ≠ (k, false) := fun x e => hkl (Prod.mk.inj e).1.symm
    have t1 : (pe l).a = (pe k).a → _ := fun e => key (k, false) (l, false) (insert (k, false) (below pe N (k, false)))
      (hg.angle_aa l hl k hk (Ne.symm hkl) e) (hins (l, false) (hlk _) hl e)
    have t2 : (pe l).a = (pe k).b → _ := fun e => key (k, true) (l, false) (below pe N (k, true)) (hg.angle_ab l hl k hk e) (hbel (k, true) (l, false) hl e)
    have t3 : (pe l).b = (pe k).a → _ := fun e => key (k, false) (l, true) (insert (k, false) (below pe N (k, false)))
      (hg.angle_ab k hk l hl e.symm).symm (hins (l, true) (hlk _) hl e)
    simp only [hsh, hang, if_true, Bool.false_eq_true, if_false] at t1 t2 t3
    by_cases c1 : (pe l).a = (pe k).a
    · have c2 : (pe l).a ≠ (pe k).b := fun e => hab k hk (c1.symm.trans e)
      have c3 : (pe l).b ≠ (pe k).a := fun e => hab l hl (c1.trans e.symm)
      rw [if_pos c1, if_neg c2, if_neg c3, if_pos c1, if_pos c1, if_neg c3, if_neg c3, if_neg c2, if_neg c2, t1 c1]
      abel
    · rw [if_neg c1, if_neg c1, if_neg c1]
      by_cases c3 : (pe l).b = (pe k).a
      · have c2 : (pe l).a ≠ (pe k).b := by
          intro e
          rcases Nat.lt_trichotomy k l with g | g | g
          · exact hg.new l hl (c3 ▸ ((hg.start k hk).mono g.le))
          · exact hkl g
          · exact hg.new k hk (e ▸ ((hg.start l hl).mono g.le))
        rw [if_pos c3, if_pos c3, if_pos c3, if_neg c2, if_neg c2, if_neg c2, t3 c3]
        abel
      · rw [if_neg c3, if_neg c3, if_neg c3]
        by_cases c2 : (pe l).a = (pe k).b
        · rw [if_pos c2, if_pos c2, if_pos c2, t2 c2]
          abel
        · rw [if_neg c2, if_neg c2, if_neg c2]
          abel

end form

section transfer
variable {pe : Nat → PEdge} {N r0 m : Nat} {F : Type*} [AddCommGroup F]

/-- a vector of any group orthogonal to the loops between consecutive active strips gives an integral one -/
theorem Grows.transfer [NeZero m] (hg : Grows pe r0 N) (Z : Nat → ZMod m → F) (Act : Nat → ZMod m → Prop)
    (hconst : ∀ k < N, ∀ α α', Act k α → Act k α' → gfun pe N Z k α = gfun pe N Z k α') (hact : ∀ k < N, ∀ α, ¬ Act k α → Z k α = Z k (α - 1))
    {k0 : Nat} (hk0 : k0 < N) {α0 : ZMod m} (h0 : Z k0 α0 ≠ Z k0 (α0 - 1)) :
    ∃ Z' : Nat → ZMod m → ℤ, (∀ k < N, ∀ α, ¬ Act k α → Z' k α = Z' k (α - 1)) ∧ (∀ k < N, Z' k (-1) = 0) ∧
      (∀ k < N, ∀ α α', Act k α → Act k α' → gfun pe N Z' k α = gfun pe N Z' k α') ∧ Z' k0 α0 ≠ Z' k0 (α0 - 1) := by
  classical
  -- the potential
  have hγ : ∀ k, ∃ γ : F, k < N → ∀ α, Act k α → gfun pe N Z k α = γ := by
    intro k
    by_cases h : ∃ α, Act k α
    · obtain ⟨α, hα⟩ := h
      exact ⟨gfun pe N Z k α, fun hk α' h' => hconst k hk α' α h' hα⟩
    · exact ⟨0, fun _ α hα => absurd ⟨α, hα⟩ h⟩
  choose γ hγ using hγ
  obtain ⟨κ, hκ⟩ := hg.potential γ
  -- the function on the faces
  set W : Nat → Finset (Nat × Bool) → ZMod m → F := fun v A s => wf pe N Z v A s + κ v with hW
  have hmemh : ∀ h : Nat × Bool, h.1 < N → h ∈ halves pe N (hv pe h) := fun h hh => (mem_halves pe).2 ⟨hh, rfl⟩
  have hWi : ∀ h : Nat × Bool, h.1 < N → ∀ s, W (hv pe h) (insert h (below pe N h)) s = W (hv pe h) (below pe N h) s + hsg h • (Z h.1 (s - hsh pe h) - Z h.1 (s - hsh pe h - 1)) := by
    intro h hh s
    simp only [hW]
    rw [wf_insert Z (below_sub h) (hmemh h hh) (not_mem_below h)]
    abel
  set P0 : F := W (pe k0).a (insert (k0, false) (below pe N (k0, false))) (α0 + (pe k0).sa) with hP0
  set φ : F → ℤ := fun x => if x = P0 then 1 else 0 with hφ
  -- jumps
  set jump : Nat × Bool → ZMod m → ℤ := fun h s => φ (W (hv pe h) (insert h (below pe N h)) s) - φ (W (hv pe h) (below pe N h) s) with hjump
  set y : Nat → ZMod m → ℤ := fun k α => jump (k, false) (α + (pe k).sa) with hy
  have hyin : ∀ k < N, ∀ α, ¬ Act k α → ∀ x : Bool, jump (k, x) (α + hsh pe (k, x)) = 0 := by
    intro k hk α hα x
    simp only [hjump]
    rw [hWi (k, x) hk, add_sub_cancel_right, hact k hk α hα]
    simp
  have hyb : ∀ k < N, ∀ α, jump (k, true) (α + (pe k).sb) = - y k α := by
    intro k hk α
    by_cases hα : Act k α
    · have e := hγ k hk α hα
      have e1 : W (pe k).a (insert (k, false) (below pe N (k, false))) (α + (pe k).sa) = W (pe k).b (below pe N (k, true)) (α + (pe k).sb) := by
        simp only [hW]
        unfold gfun at e
        rw [sub_eq_iff_eq_add] at e
        rw [e, hκ k hk]
        abel
      have i1 := hWi (k, false) hk (α + (pe k).sa)
      have i2 := hWi (k, true) hk (α + (pe k).sb)
      simp only [hv, hsg, hsh, if_true, Bool.false_eq_true, if_false, add_sub_cancel_right, one_smul, neg_smul] at i1 i2
      have e2 : W (pe k).a (below pe N (k, false)) (α + (pe k).sa) = W (pe k).b (insert (k, true) (below pe N (k, true))) (α + (pe k).sb) := by
        rw [i2, ← e1, i1]
        abel
      simp only [hy, hjump, hv, if_true, Bool.false_eq_true, if_false]
      rw [e1, e2]
      ring
    · have h1 := hyin k hk α hα true
      have h2 := hyin k hk α hα false
      simp only [hsh, if_true, Bool.false_eq_true, if_false] at h1 h2
      rw [h1]
      simp only [hy]
      rw [h2, neg_zero]
  have hj : ∀ h : Nat × Bool, h.1 < N → ∀ s, jump h s = hsg h * y h.1 (s - hsh pe h) := by
    rintro ⟨k, x⟩ hk s
    cases x
    · simp only [hy, hsg, hsh, Bool.false_eq_true, if_false, one_mul, sub_add_cancel]
    · have := hyb k hk (s - (pe k).sb)
      rw [sub_add_cancel] at this
      simp only [hsg, hsh, if_true]
      rw [this]
      ring
  -- telescoping
  have htel : ∀ v (S : Finset (Nat × Bool)), S ⊆ halves pe N v → (∀ h ∈ S, S.filter (fun j => hang pe j < hang pe h) = below pe N h) → ∀ s,
      ∑ h ∈ S, jump h s = φ (W v S s) - φ (W v ∅ s) := by
    intro v S hS hbel s
    rw [← telescope (hang pe) (fun A => φ (W v A s)) S ((hg.ang_inj v).mono (by exact_mod_cast hS))]
    refine Finset.sum_congr rfl fun h hh => ?_
    have hvv : hv pe h = v := ((mem_halves pe).1 (hS hh)).2
    rw [hbel h hh]
    simp only [hjump, hvv]
  have hbelv : ∀ v, ∀ h ∈ halves pe N v, (halves pe N v).filter (fun j => hang pe j < hang pe h) = below pe N h := by
    intro v h hh
    unfold below
    rw [((mem_halves pe).1 hh).2]
  have hWfull : ∀ v s, W v (halves pe N v) s = W v ∅ (s + 1) := by
    intro v s
    simp only [hW, wf_full]
  -- total jumps vanish
  have hvert : ∀ v, ∑ h ∈ halves pe N v, hsg h * ∑ α, y h.1 α = 0 := by
    intro v
    have e1 : ∀ h ∈ halves pe N v, hsg h * ∑ α, y h.1 α = ∑ s, jump h s := by
      intro h hh
      rw [Finset.mul_sum, ← Fintype.sum_equiv (Equiv.addRight (hsh pe h : ZMod m)) (fun α => hsg h * y h.1 α) (fun s => jump h s) (fun α => ?_)]
      rw [hj h ((mem_halves pe).1 hh).1]
      simp
    rw [Finset.sum_congr rfl e1, Finset.sum_comm, Finset.sum_congr rfl fun s _ => htel v _ subset_rfl (hbelv v) s]
    simp only [hWfull]
    rw [Finset.sum_sub_distrib, Fintype.sum_equiv (Equiv.addRight (1 : ZMod m)) (fun s => φ (W v ∅ (s + 1))) (fun s => φ (W v ∅ s)) (fun s => rfl), sub_self]
  have htot : ∀ d, ∀ k < N, N - k ≤ d → ∑ α, y k α = 0 := by
    intro d
    induction d with
    | zero => intro k hk hd; omega
    | succ d ih =>
      intro k hk hd
      have h := hvert (pe k).b
      rw [sum_halves, Finset.sum_eq_single k] at h
      · have hab : (pe k).a ≠ (pe k).b := fun e => hg.new k hk (e ▸ hg.start k hk)
        rw [if_neg hab, if_pos rfl] at h
        simpa [hsg] using h
      · intro l hl hlk
        rw [Finset.mem_range] at hl
        have hbb : (pe l).b ≠ (pe k).b := by
          intro e
          rcases Nat.lt_trichotomy k l with g | g | g
          · exact hg.new l hl (Or.inr ⟨k, g, e⟩)
          · exact hlk g.symm
          · exact hg.new k hk (Or.inr ⟨l, g, e.symm⟩)
        rw [if_neg hbb, add_zero]
        by_cases c : (pe l).a = (pe k).b
        · have hkl : k < l := by
            by_contra g
            exact hg.new k hk (c ▸ ((hg.start l hl).mono (by omega)))
          rw [if_pos c, ih l hl (by omega), mul_zero]
        · rw [if_neg c]
      · intro g
        exact absurd (Finset.mem_range.2 hk) g
  have hprim : ∀ k, ∃ Z' : ZMod m → ℤ, k < N → (∀ α, Z' α - Z' (α - 1) = y k α) ∧ Z' (-1) = 0 := by
    intro k
    by_cases hk : k < N
    · obtain ⟨Z', h⟩ := exists_primitive (y k) (htot N k hk (Nat.sub_le _ _))
      exact ⟨Z', fun _ => h⟩
    · exact ⟨0, fun h => absurd h hk⟩
  choose Z' hZ' using hprim
  -- its sums are the values on the faces
  have hw1 : ∀ v (S : Finset (Nat × Bool)), S ⊆ halves pe N v → (∀ h ∈ S, S.filter (fun j => hang pe j < hang pe h) = below pe N h) → ∀ s,
      wf pe N Z' v S s - φ (W v S s) = wf pe N Z' v ∅ s - φ (W v ∅ s) := by
    intro v S hS hbel s
    rw [wf_sub Z' hS]
    have : ∑ h ∈ S, hsg h • (Z' h.1 (s - hsh pe h) - Z' h.1 (s - hsh pe h - 1)) = ∑ h ∈ S, jump h s := by
      refine Finset.sum_congr rfl fun h hh => ?_
      have hh' := ((mem_halves pe).1 (hS hh)).1
      rw [(hZ' h.1 hh').1, hj h hh', smul_eq_mul]
    rw [this, htel v S hS hbel]
    ring
  have hw2 : ∀ v s, wf pe N Z' v ∅ s - φ (W v ∅ s) = wf pe N Z' v ∅ 0 - φ (W v ∅ 0) := by
    intro v s
    have step : ∀ s, wf pe N Z' v ∅ (s + 1) - φ (W v ∅ (s + 1)) = wf pe N Z' v ∅ s - φ (W v ∅ s) := by
      intro s
      rw [← hw1 v _ subset_rfl (hbelv v) s, wf_full, hWfull]
    have : ∀ n : Nat, wf pe N Z' v ∅ (n : ZMod m) - φ (W v ∅ (n : ZMod m)) = wf pe N Z' v ∅ 0 - φ (W v ∅ 0) := by
      intro n
      induction n with
      | zero => simp
      | succ n ih => rw [Nat.cast_succ, step, ih]
    have h := this s.val
    rwa [ZMod.natCast_zmod_val] at h
  have hbelow : ∀ h : Nat × Bool, ∀ j ∈ below pe N h, (below pe N h).filter (fun i => hang pe i < hang pe j) = below pe N j := by
    intro h j hj
    have hj' := hj
    unfold below at hj' ⊢
    rw [Finset.mem_filter, mem_halves] at hj'
    rw [hj'.1.2]
    ext i
    simp only [Finset.mem_filter]
    exact ⟨fun g => ⟨g.1.1, g.2⟩, fun g => ⟨⟨g.1, g.2.trans hj'.2⟩, g.2⟩⟩
  have hinsert : ∀ h : Nat × Bool, h.1 < N → ∀ j ∈ insert h (below pe N h), (insert h (below pe N h)).filter (fun i => hang pe i < hang pe j) = below pe N j := by
    intro h hh j hj
    have hle : hang pe j ≤ hang pe h := by
      rcases Finset.mem_insert.1 hj with rfl | g
      · exact le_rfl
      · unfold below at g
        exact (Finset.mem_filter.1 g).2.le
    rw [Finset.filter_insert, if_neg (not_lt.2 hle)]
    rcases Finset.mem_insert.1 hj with rfl | g
    · unfold below
      ext i
      simp only [Finset.mem_filter]
      exact ⟨fun g => g.1, fun g => ⟨g, g.2⟩⟩
    · exact hbelow h j g
  refine ⟨Z', fun k hk α hα => ?_, fun k hk => (hZ' k hk).2, fun k hk α α' hα hα' => ?_, fun e => ?_⟩
  · have h1 := hyin k hk α hα false
    simp only [hsh, Bool.false_eq_true, if_false] at h1
    have h2 := (hZ' k hk).1 α
    simp only [hy] at h2
    rw [h1] at h2
    omega
  · have main : ∀ α, Act k α → gfun pe N Z' k α = (wf pe N Z' (pe k).a ∅ 0 - φ (W (pe k).a ∅ 0)) - (wf pe N Z' (pe k).b ∅ 0 - φ (W (pe k).b ∅ 0)) := by
      intro α hα
      have e := hγ k hk α hα
      have e1 : W (pe k).a (insert (k, false) (below pe N (k, false))) (α + (pe k).sa) = W (pe k).b (below pe N (k, true)) (α + (pe k).sb) := by
        simp only [hW]
        unfold gfun at e
        rw [sub_eq_iff_eq_add] at e
        rw [e, hκ k hk]
        abel
      have f1 := hw1 (pe k).a (insert (k, false) (below pe N (k, false))) (Finset.insert_subset (hmemh (k, false) hk) (below_sub (k, false))) (hinsert (k, false) hk) (α + (pe k).sa)
      have f2 := hw1 (pe k).b (below pe N (k, true)) (below_sub (k, true)) (hbelow (k, true)) (α + (pe k).sb)
      rw [hw2] at f1 f2
      rw [← f1, ← f2, e1]
      unfold gfun
      ring
    rw [main α hα, main α' hα']
  · have h2 := (hZ' k0 hk0).1 α0
    rw [e, sub_self] at h2
    simp only [hy, hjump, hv, Bool.false_eq_true, if_false] at h2
    have i1 := hWi (k0, false) hk0 (α0 + (pe k0).sa)
    simp only [hv, hsg, hsh, Bool.false_eq_true, if_false, add_sub_cancel_right, one_smul] at i1
    have hne : W (pe k0).a (below pe N (k0, false)) (α0 + (pe k0).sa) ≠ P0 := by
      intro g
      rw [← hP0, g] at i1
      apply h0
      rw [← sub_eq_zero]
      exact (left_eq_add.1 i1)
    rw [← hP0] at h2
    simp [hφ, hne] at h2

end transfer

section minor
variable {pe : Nat → PEdge} {N r0 : Nat} {κ : Type} [Fintype κ]

/-- the function on the strips given by coefficients of loops -/
def spread {G : Type*} [AddCommGroup G] {m : Nat} (f : κ → Nat × ZMod m) (w : κ → G) (k : Nat) (β : ZMod m) : G :=
  ∑ i, if f i = (k, β) then w i else 0

theorem spread_at {G : Type*} [AddCommGroup G] {m : Nat} {f : κ → Nat × ZMod m} (hf : Function.Injective f) (w : κ → G) (i : κ) : spread f w (f i).1 (f i).2 = w i := by
  classical
  unfold spread
  rw [Finset.sum_eq_single i]
  · simp
  · intro j _ hj
    rw [if_neg fun e => hj (hf e)]
  · intro h
    exact absurd (Finset.mem_univ i) h

theorem spread_off {G : Type*} [AddCommGroup G] {m : Nat} {f : κ → Nat × ZMod m} (w : κ → G) {k : Nat} {β : ZMod m} (h : ∀ i, f i ≠ (k, β)) : spread f w k β = 0 := by
  unfold spread
  exact Finset.sum_eq_zero fun i _ => if_neg (h i)

theorem spread_form {G : Type*} [AddCommGroup G] {m : Nat} [NeZero m] {f : κ → Nat × ZMod m} (hN : ∀ i, (f i).1 < N) (w : κ → G) (k : Nat) (α : ZMod m) :
    ∑ l ∈ Finset.range N, ∑ β, Ent pe k l (β - α) • spread f w l β = ∑ i, Ent pe k (f i).1 ((f i).2 - α) • w i := by
  classical
  unfold spread
  simp only [Finset.smul_sum]
  rw [Finset.sum_congr rfl fun l _ => Finset.sum_comm, Finset.sum_comm]
  refine Finset.sum_congr rfl fun i _ => ?_
  rw [Finset.sum_eq_single (f i).1, Finset.sum_eq_single (f i).2]
  · rw [if_pos rfl]
  · intro β _ hβ
    rw [if_neg (fun e => hβ (by rw [e])), smul_zero]
  · intro h
    exact absurd (Finset.mem_univ _) h
  · intro l _ hl
    refine Finset.sum_eq_zero fun β _ => ?_
    rw [if_neg (fun e => hl (by rw [e])), smul_zero]
  · intro h
    exact absurd (Finset.mem_range.2 (hN i)) h

/-- minors on loops between consecutive strips of a covering of degree three -/
theorem Grows.minor_three [DecidableEq κ] (hg : Grows pe r0 N) {f : κ → Nat × ZMod 3} (hf : Function.Injective f) (hN : ∀ i, (f i).1 < N) (h2 : ∀ i, (f i).2 ≠ 2) :
    (Matrix.of fun i j => Ent pe (f i).1 (f j).1 ((f j).2 - (f i).2)).det.natAbs ≤ 1 := by
  by_contra hdet
  set A : Matrix κ κ ℤ := Matrix.of fun i j => Ent pe (f i).1 (f j).1 ((f j).2 - (f i).2) with hA
  obtain ⟨p, hp, hpd⟩ := Nat.exists_prime_and_dvd (n := A.det.natAbs) (by omega)
  have : Fact p.Prime := ⟨hp⟩
  have hz : (A.map (Int.castRingHom (ZMod p))).det = 0 := by
    rw [← RingHom.mapMatrix_apply, ← RingHom.map_det, eq_intCast, ZMod.intCast_zmod_eq_zero_iff_dvd]
    exact Int.natCast_dvd.2 hpd
  obtain ⟨v, hv0, hv⟩ := Matrix.exists_mulVec_eq_zero_iff.2 hz
  set T : Nat → ZMod 3 → Prop := fun k α => ∃ i, f i = (k, α) with hT
  set Act : Nat → ZMod 3 → Prop := fun k α => T k α ∨ T k (α - 1) with hAct
  set Z : Nat → ZMod 3 → ZMod p := spread f v with hZ
  have hT2 : ∀ k, ¬ T k 2 := by
    rintro k ⟨i, hi⟩
    exact h2 i (by rw [hi])
  have hoff : ∀ k α, ¬ T k α → Z k α = 0 := fun k α h => spread_off v fun i hi => h ⟨i, hi⟩
  have hform : ∀ k < N, ∀ α, T k α → gfun pe N Z k (α + 1) = gfun pe N Z k α := by
    rintro k hk α ⟨i, hi⟩
    rw [← sub_eq_zero, ← hg.form_eq Z hk, hZ, spread_form hN]
    have := congrFun hv i
    rw [Matrix.mulVec, dotProduct] at this
    simp only [Matrix.map_apply, hA, Matrix.of_apply, hi, Pi.zero_apply, eq_intCast] at this
    simpa [zsmul_eq_mul] using this
  have d0 : (0 : ZMod 3) - 1 = 2 := by decide
  have d1 : (1 : ZMod 3) - 1 = 0 := by decide
  have d2 : (2 : ZMod 3) - 1 = 1 := by decide
  have s1 : (1 : ZMod 3) + 1 = 2 := by decide
  have hall : ∀ P : ZMod 3 → Prop, P 0 → P 1 → P 2 → ∀ α, P α := by
    intro P h0 h1 h2 α
    have : α = 0 ∨ α = 1 ∨ α = 2 := by revert α; decide
    rcases this with rfl | rfl | rfl <;> assumption
  have hconst : ∀ k < N, ∀ α α', Act k α → Act k α' → gfun pe N Z k α = gfun pe N Z k α' := by
    intro k hk
    have f0 := hform k hk 0
    have f1 := hform k hk 1
    rw [zero_add] at f0
    rw [s1] at f1
    have h2 := hT2 k
    refine hall _ (hall _ ?_ ?_ ?_) (hall _ ?_ ?_ ?_) (hall _ ?_ ?_ ?_) <;> intro g g' <;> simp only [hAct, d0, d1, d2, h2, or_false, false_or] at g g'
    · rfl
    · exact (f0 g).symm
    · exact ((f1 g').trans (f0 g)).symm
    · exact f0 g'
    · rfl
    · exact (f1 g').symm
    · exact (f1 g).trans (f0 g')
    · exact f1 g
    · rfl
  have hact : ∀ k < N, ∀ α, ¬ Act k α → Z k α = Z k (α - 1) := by
    intro k _ α h
    simp only [hAct, not_or] at h
    rw [hoff k α h.1, hoff k _ h.2]
  obtain ⟨i0, hi0⟩ := Function.ne_iff.1 hv0
  have hat : Z (f i0).1 (f i0).2 = v i0 := spread_at hf v i0
  have hne : ∃ α, Z (f i0).1 α ≠ Z (f i0).1 (α - 1) := by
    by_contra hc
    push Not at hc
    have e2 := hoff (f i0).1 2 (hT2 _)
    have e0 := hc 0
    have e1 := hc 1
    rw [d0, e2] at e0
    rw [d1, e0] at e1
    have := hall (fun α => Z (f i0).1 α = 0) e0 e1 e2 (f i0).2
    exact hi0 (hat.symm.trans this)
  obtain ⟨α0, hα0⟩ := hne
  obtain ⟨Z', q1, q2, q3, q4⟩ := hg.transfer Z Act hconst hact (hN i0) hα0
  have hoff' : ∀ k < N, ∀ α, ¬ T k α → Z' k α = 0 := by
    intro k hk
    have e2 : Z' k 2 = 0 := q2 k hk
    have a0 := q1 k hk 0
    have a2 := q1 k hk 2
    have h2 := hT2 k
    simp only [hAct, d0, d2, h2, or_false, false_or] at a0 a2
    refine hall _ ?_ ?_ ?_
    · intro g; rw [a0 g, e2]
    · intro g; rw [← a2 g, e2]
    · intro _; exact e2
  set w : κ → ℤ := fun i => Z' (f i).1 (f i).2 with hw
  have hsp : ∀ k < N, ∀ α, spread f w k α = Z' k α := by
    intro k hk α
    by_cases h : T k α
    · obtain ⟨i, hi⟩ := h
      have := spread_at hf w i
      rw [hi] at this
      simp only at this
      rw [this, hw]
      simp only [hi]
    · rw [hoff' k hk α h, spread_off w fun i hi => h ⟨i, hi⟩]
  have hw0 : w ≠ 0 := by
    intro e
    have z : ∀ α, Z' (f i0).1 α = 0 := by
      intro α
      rw [← hsp _ (hN i0), e]
      unfold spread
      simp
    rw [z, z] at q4
    exact q4 rfl
  have hmul : A.mulVec w = 0 := by
    funext i
    have e := spread_form (pe := pe) hN w (f i).1 (f i).2
    have e' : ∑ l ∈ Finset.range N, ∑ β, Ent pe (f i).1 l (β - (f i).2) • spread f w l β = ∑ l ∈ Finset.range N, ∑ β, Ent pe (f i).1 l (β - (f i).2) • Z' l β :=
      Finset.sum_congr rfl fun l hl => Finset.sum_congr rfl fun β _ => by rw [hsp l (Finset.mem_range.1 hl)]
    rw [e', hg.form_eq Z' (hN i)] at e
    have hc := q3 (f i).1 (hN i) ((f i).2 + 1) (f i).2 (Or.inr ⟨i, by simp⟩) (Or.inl ⟨i, rfl⟩)
    rw [hc, sub_self] at e
    rw [Matrix.mulVec, dotProduct, Pi.zero_apply, e]
    exact Finset.sum_congr rfl fun j _ => by rw [smul_eq_mul]; rfl
  have := Matrix.exists_mulVec_eq_zero_iff.1 ⟨w, hw0, hmul⟩
  rw [this] at hdet
  exact hdet (by decide)

end minor

end Hcp.PlaneTree
