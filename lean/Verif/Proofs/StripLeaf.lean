import Verif.Proofs.StripMinor

/-!
# Functions on the faces when the last edge has several intervals of loops

As `Grows.transfer`, for a leaf of the tree whose active strips need not have the same values.
-/

namespace Hcp.PlaneTree

section
variable {pe : Nat → PEdge} {N r0 m : Nat} {F : Type*} [AddCommGroup F]

/-- the end of a leaf has one half edge -/
theorem Grows.leaf_halves (hg : Grows pe r0 N) {e : Nat} (he : e < N) (hleaf : ∀ l < N, (pe l).a ≠ (pe e).b) : halves pe N (pe e).b = {(e, true)} := by
  ext ⟨l, x⟩
  rw [mem_halves, Finset.mem_singleton]
  constructor
  · rintro ⟨h1, h2⟩
    dsimp only at h1
    cases x
    · exact absurd h2 (hleaf l h1)
    · by_cases hle : l = e
      · rw [hle]
      · exact absurd h2 (hg.bb_ne h1 he hle)
  · intro h
    obtain ⟨rfl, rfl⟩ := Prod.mk.inj h
    exact ⟨he, rfl⟩

theorem Grows.leaf_wf (hg : Grows pe r0 N) {e : Nat} (he : e < N) (hleaf : ∀ l < N, (pe l).a ≠ (pe e).b) (Z : Nat → ZMod m → F) (s : ZMod m) :
    wf pe N Z (pe e).b ∅ s = - Z e (s - (pe e).sb - 1) := by
  unfold wf
  rw [hg.leaf_halves he hleaf, Finset.sum_singleton]
  simp [hsg, hsh]

theorem Grows.leaf_below (hg : Grows pe r0 N) {e : Nat} (he : e < N) (hleaf : ∀ l < N, (pe l).a ≠ (pe e).b) : below pe N (e, true) = ∅ := by
  rw [Finset.eq_empty_iff_forall_notMem]
  intro h hh
  have h1 : h ∈ halves pe N (pe e).b := below_sub (e, true) hh
  rw [hg.leaf_halves he hleaf, Finset.mem_singleton] at h1
  exact not_mem_below (e, true) (h1 ▸ hh)

/-- values along the strips of a leaf -/
theorem Grows.leaf_gfun (hg : Grows pe r0 N) {e : Nat} (he : e < N) (hleaf : ∀ l < N, (pe l).a ≠ (pe e).b) (Z : Nat → ZMod m → F) (α : ZMod m) :
    gfun pe N Z e α = wf pe N Z (pe e).a (insert (e, false) (below pe N (e, false))) (α + (pe e).sa) + Z e (α - 1) := by
  unfold gfun
  rw [hg.leaf_below he hleaf, hg.leaf_wf he hleaf, add_sub_cancel_right, sub_neg_eq_add]

/-- a vector of any group orthogonal to the loops between consecutive active strips, and to loops of a leaf, gives an integral one -/
theorem Grows.transfer_leaf [NeZero m] (hg : Grows pe r0 N) {e : Nat} (he : e < N) (hleaf : ∀ l < N, (pe l).a ≠ (pe e).b) (Z : Nat → ZMod m → F) (Act : Nat → ZMod m → Prop) (γe : ZMod m → F)
    (hconst : ∀ k < N, k ≠ e → ∀ α α', Act k α → Act k α' → gfun pe N Z k α = gfun pe N Z k α') (hact : ∀ k < N, ∀ α, ¬ Act k α → Z k α = Z k (α - 1))
    (hl1 : ∀ α, Act e α → (Z e α = 0 ∨ γe α = gfun pe N Z e α) ∧ (Z e (α - 1) = 0 ∨ γe (α - 1) = gfun pe N Z e α))
    (hl2 : ∀ α, ¬ Act e α → Z e α = 0 ∨ γe α = γe (α - 1))
    {k0 : Nat} (hk0 : k0 < N) {α0 : ZMod m} (h0 : Z k0 α0 ≠ Z k0 (α0 - 1)) :
    ∃ (Z' : Nat → ZMod m → ℤ) (ψ : F → ℤ), (∀ k < N, ∀ α, ¬ Act k α → Z' k α = Z' k (α - 1)) ∧ (∀ k < N, k ≠ e → Z' k (-1) = 0) ∧ (∀ α, Z e α = 0 → Z' e α = 0) ∧
      (∀ k < N, k ≠ e → ∀ α α', Act k α → Act k α' → gfun pe N Z' k α = gfun pe N Z' k α') ∧ (∀ α, Act e α → gfun pe N Z' e α = ψ (gfun pe N Z e α)) ∧
      Z' k0 α0 ≠ Z' k0 (α0 - 1) := by
  classical
  -- the potential
  have hγ : ∀ k, ∃ γ : F, k < N → k ≠ e → ∀ α, Act k α → gfun pe N Z k α = γ := by
    intro k
    by_cases h : ∃ α, Act k α
    · obtain ⟨α, hα⟩ := h
      exact ⟨gfun pe N Z k α, fun hk hke α' h' => hconst k hk hke α' α h' hα⟩
    · exact ⟨0, fun _ _ α hα => absurd ⟨α, hα⟩ h⟩
  choose γ hγ using hγ
  obtain ⟨κ, hκ⟩ := hg.potential γ
  -- the function on the faces
  set W : Nat → Finset (Nat × Bool) → ZMod m → F := fun v A s => wf pe N Z v A s + κ v with hW
  have hmemh : ∀ h : Nat × Bool, h.1 < N → h ∈ halves pe N (hv pe h) := fun h hh => (mem_halves pe).2 ⟨hh, rfl⟩
  have hWi : ∀ h : Nat × Bool, h.1 < N → ∀ s, W (hv pe h) (insert h (below pe N h)) s = W (hv pe h) (below pe N h) s + hsg h • (Z h.1 (s - hsh pe h) - Z h.1 (s - hsh pe h - 1)) := by
    intro h hh s
    simp only [hW]
    rw [wf_insert Z (below_sub h) (hmemh h hh) (not_mem_below h)]
    abel
  set P0 : F := W (pe k0).a (insert (k0, false) (below pe N (k0, false))) (α0 + (pe k0).sa) with hP0
  set φ : F → ℤ := fun x => if x = P0 then 1 else 0 with hφ
  -- jumps
  set jump : Nat × Bool → ZMod m → ℤ := fun h s => φ (W (hv pe h) (insert h (below pe N h)) s) - φ (W (hv pe h) (below pe N h) s) with hjump
  set y : Nat → ZMod m → ℤ := fun k α => jump (k, false) (α + (pe k).sa) with hy
  have hyin : ∀ k < N, ∀ α, ¬ Act k α → ∀ x : Bool, jump (k, x) (α + hsh pe (k, x)) = 0 := by
    intro k hk α hα x
    simp only [hjump]
    rw [hWi (k, x) hk, add_sub_cancel_right, hact k hk α hα]
    simp
  have hyb : ∀ k < N, k ≠ e → ∀ α, jump (k, true) (α + (pe k).sb) = - y k α := by
    intro k hk hke α
    by_cases hα : Act k α
    · have ee := hγ k hk hke α hα
      have e1 : W (pe k).a (insert (k, false) (below pe N (k, false))) (α + (pe k).sa) = W (pe k).b (below pe N (k, true)) (α + (pe k).sb) := by
        simp only [hW]
        unfold gfun at ee
        rw [sub_eq_iff_eq_add] at ee
        rw [ee, hκ k hk]
        abel
      have i1 := hWi (k, false) hk (α + (pe k).sa)
      have i2 := hWi (k, true) hk (α + (pe k).sb)
      simp only [hv, hsg, hsh, if_true, Bool.false_eq_true, if_false, add_sub_cancel_right, one_smul, neg_smul] at i1 i2
      have e2 : W (pe k).a (below pe N (k, false)) (α + (pe k).sa) = W (pe k).b (insert (k, true) (below pe N (k, true))) (α + (pe k).sb) := by
        rw [i2, ← e1, i1]
        abel
      simp only [hy, hjump, hv, if_true, Bool.false_eq_true, if_false]
      rw [e1, e2]
      ring
    · have h1 := hyin k hk α hα true
      have h2 := hyin k hk α hα false
      simp only [hsh, if_true, Bool.false_eq_true, if_false] at h1 h2
      rw [h1]
      simp only [hy]
      rw [h2, neg_zero]
  have hj : ∀ h : Nat × Bool, h.1 < N → hv pe h ≠ (pe e).b → ∀ s, jump h s = hsg h * y h.1 (s - hsh pe h) := by
    rintro ⟨k, x⟩ hk hkv s
    cases x
    · simp only [hy, hsg, hsh, Bool.false_eq_true, if_false, one_mul, sub_add_cancel]
    · have := hyb k hk (fun c => hkv (by rw [c]; rfl)) (s - (pe k).sb)
      rw [sub_add_cancel] at this
      simp only [hsg, hsh, if_true]
      rw [this]
      ring
  -- telescoping
  have htel : ∀ v (S : Finset (Nat × Bool)), S ⊆ halves pe N v → (∀ h ∈ S, S.filter (fun j => hang pe j < hang pe h) = below pe N h) → ∀ s,
      ∑ h ∈ S, jump h s = φ (W v S s) - φ (W v ∅ s) := by
    intro v S hS hbel s
    rw [← telescope (hang pe) (fun A => φ (W v A s)) S ((hg.ang_inj v).mono (by exact_mod_cast hS))]
    refine Finset.sum_congr rfl fun h hh => ?_
    have hvv : hv pe h = v := ((mem_halves pe).1 (hS hh)).2
    rw [hbel h hh]
    simp only [hjump, hvv]
  have hbelv : ∀ v, ∀ h ∈ halves pe N v, (halves pe N v).filter (fun j => hang pe j < hang pe h) = below pe N h := by
    intro v h hh
    unfold below
    rw [((mem_halves pe).1 hh).2]
  have hWfull : ∀ v s, W v (halves pe N v) s = W v ∅ (s + 1) := by
    intro v s
    simp only [hW, wf_full]
  -- the leaf
  set Ze : ZMod m → ℤ := fun β => φ (γe β + κ (pe e).a) - φ (γe β - Z e β + κ (pe e).a) with hZe
  have hWa : ∀ α, W (pe e).a (insert (e, false) (below pe N (e, false))) (α + (pe e).sa) = gfun pe N Z e α - Z e (α - 1) + κ (pe e).a := by
    intro α
    simp only [hW]
    rw [hg.leaf_gfun he hleaf]
    abel
  have hWb : ∀ α, W (pe e).a (below pe N (e, false)) (α + (pe e).sa) = gfun pe N Z e α - Z e α + κ (pe e).a := by
    intro α
    have i1 := hWi (e, false) he (α + (pe e).sa)
    simp only [hv, hsg, hsh, Bool.false_eq_true, if_false, add_sub_cancel_right, one_smul] at i1
    rw [hWa] at i1
    have : W (pe e).a (below pe N (e, false)) (α + (pe e).sa) = gfun pe N Z e α - Z e (α - 1) + κ (pe e).a - (Z e α - Z e (α - 1)) := by rw [i1]; abel
    rw [this]
    abel
  have hZe1 : ∀ α, Act e α → Ze α = φ (gfun pe N Z e α + κ (pe e).a) - φ (gfun pe N Z e α - Z e α + κ (pe e).a) := by
    intro α hα
    simp only [hZe]
    rcases (hl1 α hα).1 with h | h
    · rw [h]; simp
    · rw [h]
  have hZe2 : ∀ α, Act e α → Ze (α - 1) = φ (gfun pe N Z e α + κ (pe e).a) - φ (gfun pe N Z e α - Z e (α - 1) + κ (pe e).a) := by
    intro α hα
    simp only [hZe]
    rcases (hl1 α hα).2 with h | h
    · rw [h]; simp
    · rw [h]
  have hZej : ∀ α, Ze α - Ze (α - 1) = y e α := by
    intro α
    by_cases hα : Act e α
    · rw [hZe1 α hα, hZe2 α hα]
      simp only [hy, hjump, hv, Bool.false_eq_true, if_false]
      rw [hWa, hWb]
      ring
    · have h1 := hyin e he α hα false
      simp only [hsh, Bool.false_eq_true, if_false] at h1
      simp only [hy]
      rw [h1]
      simp only [hZe]
      have hz := hact e he α hα
      rcases hl2 α hα with h | h
      · rw [← hz, h]; simp
      · rw [h, hz]; ring
  have hye : ∑ α, y e α = 0 := by
    rw [← Finset.sum_congr rfl fun α _ => hZej α, Finset.sum_sub_distrib, sub_eq_zero]
    exact (Fintype.sum_equiv (Equiv.subRight (1 : ZMod m)) (fun α => Ze (α - 1)) Ze (fun α => rfl)).symm
  -- total jumps vanish
  have hvert : ∀ v, v ≠ (pe e).b → ∑ h ∈ halves pe N v, hsg h * ∑ α, y h.1 α = 0 := by
    intro v hv'
    have e1 : ∀ h ∈ halves pe N v, hsg h * ∑ α, y h.1 α = ∑ s, jump h s := by
      intro h hh
      rw [Finset.mul_sum, ← Fintype.sum_equiv (Equiv.addRight (hsh pe h : ZMod m)) (fun α => hsg h * y h.1 α) (fun s => jump h s) (fun α => ?_)]
      rw [hj h ((mem_halves pe).1 hh).1 (by rw [((mem_halves pe).1 hh).2]; exact hv')]
      simp
    rw [Finset.sum_congr rfl e1, Finset.sum_comm, Finset.sum_congr rfl fun s _ => htel v _ subset_rfl (hbelv v) s]
    simp only [hWfull]
    rw [Finset.sum_sub_distrib, Fintype.sum_equiv (Equiv.addRight (1 : ZMod m)) (fun s => φ (W v ∅ (s + 1))) (fun s => φ (W v ∅ s)) (fun s => rfl), sub_self]
  have htot : ∀ d, ∀ k < N, N - k ≤ d → ∑ α, y k α = 0 := by
    intro d
    induction d with
    | zero => intro k hk hd; omega
    | succ d ih =>
      intro k hk hd
      by_cases hke : k = e
      · rw [hke]; exact hye
      have h := hvert (pe k).b (hg.bb_ne hk he hke)
      rw [sum_halves, Finset.sum_eq_single k] at h
      · have hab : (pe k).a ≠ (pe k).b := fun e => hg.new k hk (e ▸ hg.start k hk)
        rw [if_neg hab, if_pos rfl] at h
        simpa [hsg] using h
      · intro l hl hlk
        rw [Finset.mem_range] at hl
        have hbb : (pe l).b ≠ (pe k).b := by
          intro e
          rcases Nat.lt_trichotomy k l with g | g | g
          · exact hg.new l hl (Or.inr ⟨k, g, e⟩)
          · exact hlk g.symm
          · exact hg.new k hk (Or.inr ⟨l, g, e.symm⟩)
        rw [if_neg hbb, add_zero]
        by_cases c : (pe l).a = (pe k).b
        · have hkl : k < l := by
            by_contra g
            exact hg.new k hk (c ▸ ((hg.start l hl).mono (by omega)))
          rw [if_pos c, ih l hl (by omega), mul_zero]
        · rw [if_neg c]
      · intro g
        exact absurd (Finset.mem_range.2 hk) g
  have hprim : ∀ k, ∃ Z' : ZMod m → ℤ, k < N → (∀ α, Z' α - Z' (α - 1) = y k α) ∧ (k ≠ e → Z' (-1) = 0) ∧ (k = e → Z' = Ze) := by
    intro k
    by_cases hke : k = e
    · subst hke
      exact ⟨Ze, fun _ => ⟨hZej, fun h => absurd rfl h, fun _ => rfl⟩⟩
    by_cases hk : k < N
    · obtain ⟨Z', h⟩ := exists_primitive (y k) (htot N k hk (Nat.sub_le _ _))
      exact ⟨Z', fun _ => ⟨h.1, fun _ => h.2, fun h => absurd h hke⟩⟩
    · exact ⟨0, fun h => absurd h hk⟩
  choose Z' hZ' using hprim
  -- its sums are the values on the faces
  have hw1 : ∀ v, v ≠ (pe e).b → ∀ (S : Finset (Nat × Bool)), S ⊆ halves pe N v → (∀ h ∈ S, S.filter (fun j => hang pe j < hang pe h) = below pe N h) → ∀ s,
      wf pe N Z' v S s - φ (W v S s) = wf pe N Z' v ∅ s - φ (W v ∅ s) := by
    intro v hv' S hS hbel s
    rw [wf_sub Z' hS]
    have : ∑ h ∈ S, hsg h • (Z' h.1 (s - hsh pe h) - Z' h.1 (s - hsh pe h - 1)) = ∑ h ∈ S, jump h s := by
      refine Finset.sum_congr rfl fun h hh => ?_
      have hh' := ((mem_halves pe).1 (hS hh)).1
      rw [(hZ' h.1 hh').1, hj h hh' (by rw [((mem_halves pe).1 (hS hh)).2]; exact hv'), smul_eq_mul]
    rw [this, htel v S hS hbel]
    ring
  have hw2 : ∀ v, v ≠ (pe e).b → ∀ s, wf pe N Z' v ∅ s - φ (W v ∅ s) = wf pe N Z' v ∅ 0 - φ (W v ∅ 0) := by
    intro v hv' s
    have step : ∀ s, wf pe N Z' v ∅ (s + 1) - φ (W v ∅ (s + 1)) = wf pe N Z' v ∅ s - φ (W v ∅ s) := by
      intro s
      rw [← hw1 v hv' _ subset_rfl (hbelv v) s, wf_full, hWfull]
    have : ∀ n : Nat, wf pe N Z' v ∅ (n : ZMod m) - φ (W v ∅ (n : ZMod m)) = wf pe N Z' v ∅ 0 - φ (W v ∅ 0) := by
      intro n
      induction n with
      | zero => simp
      | succ n ih => rw [Nat.cast_succ, step, ih]
    have h := this s.val
    rwa [ZMod.natCast_zmod_val] at h
  have hbelow : ∀ h : Nat × Bool, ∀ j ∈ below pe N h, (below pe N h).filter (fun i => hang pe i < hang pe j) = below pe N j := by
    intro h j hj
    have hj' := hj
    unfold below at hj' ⊢
    rw [Finset.mem_filter, mem_halves] at hj'
    rw [hj'.1.2]
    ext i
    simp only [Finset.mem_filter]
    exact ⟨fun g => ⟨g.1.1, g.2⟩, fun g => ⟨⟨g.1, g.2.trans hj'.2⟩, g.2⟩⟩
  have hinsert : ∀ h : Nat × Bool, h.1 < N → ∀ j ∈ insert h (below pe N h), (insert h (below pe N h)).filter (fun i => hang pe i < hang pe j) = below pe N j := by
    intro h hh j hj
    have hle : hang pe j ≤ hang pe h := by
      rcases Finset.mem_insert.1 hj with rfl | g
      · exact le_rfl
      · unfold below at g
        exact (Finset.mem_filter.1 g).2.le
    rw [Finset.filter_insert, if_neg (not_lt.2 hle)]
    rcases Finset.mem_insert.1 hj with rfl | g
    · unfold below
      ext i
      simp only [Finset.mem_filter]
      exact ⟨fun g => g.1, fun g => ⟨g, g.2⟩⟩
    · exact hbelow h j g
  have hab : (pe e).a ≠ (pe e).b := hg.ab_ne he
  refine ⟨Z', fun x => wf pe N Z' (pe e).a ∅ 0 - φ (W (pe e).a ∅ 0) + φ (x + κ (pe e).a), fun k hk α hα => ?_, fun k hk hke => (hZ' k hk).2.1 hke, fun α hα => ?_, fun k hk hke α α' hα hα' => ?_, fun α hα => ?_, fun ee => ?_⟩
  · have h1 := hyin k hk α hα false
    simp only [hsh, Bool.false_eq_true, if_false] at h1
    have h2 := (hZ' k hk).1 α
    simp only [hy] at h2
    rw [h1] at h2
    omega
  · rw [(hZ' e he).2.2 rfl]
    simp only [hZe]
    rw [hα]
    simp
  · have main : ∀ α, Act k α → gfun pe N Z' k α = (wf pe N Z' (pe k).a ∅ 0 - φ (W (pe k).a ∅ 0)) - (wf pe N Z' (pe k).b ∅ 0 - φ (W (pe k).b ∅ 0)) := by
      intro α hα
      have ee := hγ k hk hke α hα
      have e1 : W (pe k).a (insert (k, false) (below pe N (k, false))) (α + (pe k).sa) = W (pe k).b (below pe N (k, true)) (α + (pe k).sb) := by
        simp only [hW]
        unfold gfun at ee
        rw [sub_eq_iff_eq_add] at ee
        rw [ee, hκ k hk]
        abel
      have f1 := hw1 (pe k).a (hleaf k hk) (insert (k, false) (below pe N (k, false))) (Finset.insert_subset (hmemh (k, false) hk) (below_sub (k, false))) (hinsert (k, false) hk) (α + (pe k).sa)
      have f2 := hw1 (pe k).b (hg.bb_ne hk he hke) (below pe N (k, true)) (below_sub (k, true)) (hbelow (k, true)) (α + (pe k).sb)
      rw [hw2 _ (hleaf k hk)] at f1
      rw [hw2 _ (hg.bb_ne hk he hke)] at f2
      rw [← f1, ← f2, e1]
      unfold gfun
      ring
    rw [main α hα, main α' hα']
  · have f1 := hw1 (pe e).a hab (insert (e, false) (below pe N (e, false))) (Finset.insert_subset (hmemh (e, false) he) (below_sub (e, false))) (hinsert (e, false) he) (α + (pe e).sa)
    rw [hw2 _ hab, hWa, sub_eq_iff_eq_add] at f1
    rw [hg.leaf_gfun he hleaf, f1]
    have : Z' e (α - 1) = Ze (α - 1) := by rw [(hZ' e he).2.2 rfl]
    rw [this, hZe2 α hα]
    ring
  · have h2 := (hZ' k0 hk0).1 α0
    rw [ee, sub_self] at h2
    simp only [hy, hjump, hv, Bool.false_eq_true, if_false] at h2
    have i1 := hWi (k0, false) hk0 (α0 + (pe k0).sa)
    simp only [hv, hsg, hsh, Bool.false_eq_true, if_false, add_sub_cancel_right, one_smul] at i1
    have hne : W (pe k0).a (below pe N (k0, false)) (α0 + (pe k0).sa) ≠ P0 := by
      intro g
      rw [← hP0, g] at i1
      apply h0
      rw [← sub_eq_zero]
      exact (left_eq_add.1 i1)
    rw [← hP0] at h2
    simp [hφ, hne] at h2

end

end Hcp.PlaneTree
