import Verif.Proofs.FacePeriod
import Verif.Proofs.StripLeaf
import Verif.Proofs.ClassLift
import Mathlib.Data.Nat.Factors
import Mathlib.Data.Rat.Cast.CharZero

/-!
# Vectors orthogonal to a set of loops and supported on it
-/

namespace Hcp.PlaneTree

variable {m : Nat} [NeZero m] {pe : Nat → PEdge} {N r0 : Nat}

/-- there is a nonzero vector supported on a set of loops and orthogonal to all of them -/
def Has (pe : Nat → PEdge) (N : Nat) (T : Nat → ZMod m → Prop) (F : Type) [AddCommGroup F] : Prop :=
  ∃ Z : Nat → ZMod m → F, (∀ k α, T k α → k < N → frm pe N Z k α = 0) ∧ (∀ k α, ¬ (k < N ∧ T k α) → Z k α = 0) ∧ ∃ k α, Z k α ≠ 0

/-- the matrix of a family of loops is singular when there is such a vector -/
theorem det_has {κ : Type} [Fintype κ] [DecidableEq κ] (F : Type) [Field F] {f : κ → Nat × ZMod m} (hf : Function.Injective f) (hN : ∀ i, (f i).1 < N) :
    ((Matrix.of fun i j => Ent pe (f i).1 (f j).1 ((f j).2 - (f i).2)).map (Int.castRingHom F)).det = 0 ↔ Has pe N (fun k α => ∃ i, f i = (k, α)) F := by
  rw [← Matrix.exists_mulVec_eq_zero_iff]
  have hmul : ∀ (v : κ → F) (i : κ), ((Matrix.of fun i j => Ent pe (f i).1 (f j).1 ((f j).2 - (f i).2)).map (Int.castRingHom F)).mulVec v i = frm pe N (spread f v) (f i).1 (f i).2 := by
    intro v i
    unfold frm
    rw [spread_form hN, Matrix.mulVec, dotProduct]
    exact Finset.sum_congr rfl fun j _ => (zsmul_eq_mul _ _).symm
  constructor
  · rintro ⟨v, hv0, hv⟩
    refine ⟨spread f v, ?_, ?_, ?_⟩
    · rintro k α ⟨i, hi⟩ _
      have := congrFun hv i
      rw [hmul, hi] at this
      exact this
    · intro k α h
      refine spread_off v fun i hi => h ⟨?_, i, hi⟩
      have := hN i
      rwa [hi] at this
    · obtain ⟨i, hi⟩ := Function.ne_iff.1 hv0
      exact ⟨_, _, by rw [spread_at hf v i]; exact hi⟩
  · rintro ⟨Z, z1, z2, k, α, z3⟩
    have e : spread f (fun i => Z (f i).1 (f i).2) = Z := by
      funext k α
      by_cases h : ∃ i, f i = (k, α)
      · obtain ⟨i, hi⟩ := h
        have := spread_at hf (fun i => Z (f i).1 (f i).2) i
        rwa [hi] at this
      · rw [spread_off _ fun i hi => h ⟨i, hi⟩, z2 k α fun g => h g.2]
    refine ⟨fun i => Z (f i).1 (f i).2, fun e0 => ?_, funext fun i => ?_⟩
    · rw [e0] at e
      rw [← e] at z3
      unfold spread at z3
      simp at z3
    · rw [hmul, e]
      exact z1 _ _ ⟨i, rfl⟩ (hN i)

theorem det_le_of {κ : Type} [Fintype κ] [DecidableEq κ] {f : κ → Nat × ZMod m} (hf : Function.Injective f) (hN : ∀ i, (f i).1 < N)
    (h : ∀ (p : Nat) [Fact p.Prime], Has pe N (fun k α => ∃ i, f i = (k, α)) (ZMod p) → Has pe N (fun k α => ∃ i, f i = (k, α)) ℚ) :
    (Matrix.of fun i j => Ent pe (f i).1 (f j).1 ((f j).2 - (f i).2)).det.natAbs ≤ 1 := by
  by_contra hdet
  set A : Matrix κ κ ℤ := Matrix.of fun i j => Ent pe (f i).1 (f j).1 ((f j).2 - (f i).2) with hA
  obtain ⟨p, hp, hpd⟩ := Nat.exists_prime_and_dvd (n := A.det.natAbs) (by omega)
  have : Fact p.Prime := ⟨hp⟩
  have hz : (A.map (Int.castRingHom (ZMod p))).det = 0 := by
    rw [← RingHom.mapMatrix_apply, ← RingHom.map_det, eq_intCast, ZMod.intCast_zmod_eq_zero_iff_dvd]
    exact Int.natCast_dvd.2 hpd
  have h2 := (det_has ℚ hf hN).2 (h p ((det_has (ZMod p) hf hN).1 hz))
  rw [← hA, ← RingHom.mapMatrix_apply, ← RingHom.map_det, eq_intCast, Int.cast_eq_zero] at h2
  rw [h2] at hdet
  exact hdet (by decide)

theorem det_one_of {κ : Type} [Fintype κ] [DecidableEq κ] {f : κ → Nat × ZMod m} (hf : Function.Injective f) (hN : ∀ i, (f i).1 < N)
    (h : ∀ (p : Nat) [Fact p.Prime], ¬ Has pe N (fun k α => ∃ i, f i = (k, α)) (ZMod p)) :
    (Matrix.of fun i j => Ent pe (f i).1 (f j).1 ((f j).2 - (f i).2)).det.natAbs = 1 := by
  by_contra hdet
  set A : Matrix κ κ ℤ := Matrix.of fun i j => Ent pe (f i).1 (f j).1 ((f j).2 - (f i).2) with hA
  obtain ⟨p, hp, hpd⟩ := Nat.exists_prime_and_dvd (n := A.det.natAbs) hdet
  have : Fact p.Prime := ⟨hp⟩
  have hz : (A.map (Int.castRingHom (ZMod p))).det = 0 := by
    rw [← RingHom.mapMatrix_apply, ← RingHom.map_det, eq_intCast, ZMod.intCast_zmod_eq_zero_iff_dvd]
    exact Int.natCast_dvd.2 hpd
  exact h p ((det_has (ZMod p) hf hN).1 hz)

theorem Has.congr {T T' : Nat → ZMod m → Prop} {F : Type} [AddCommGroup F] (h : ∀ k < N, ∀ α, T k α ↔ T' k α) (hT : Has pe N T F) : Has pe N T' F := by
  obtain ⟨Z, z1, z2, z3⟩ := hT
  exact ⟨Z, fun k α hk hN => z1 k α ((h k hN α).2 hk) hN, fun k α hn => z2 k α fun g => hn ⟨g.1, (h k g.1 α).1 g.2⟩, z3⟩

/-! ### one edge -/

theorem no_jump {G : Type*} [AddCommGroup G] {f : ZMod m → G} (h0 : f (-1) = 0) (h : ∀ α, f α = f (α - 1)) (α : ZMod m) : f α = 0 := by
  have h' : ∀ α, f (α + 1) = f α := fun α => by rw [h (α + 1), add_sub_cancel_right]
  rw [const_of_step h' α, ← const_of_step h' (-1), h0]

theorem Grows.row_all {G : Type*} [AddCommGroup G] (hg : Grows pe r0 N) {Z : Nat → ZMod m → G} {k : Nat} (hk : k < N) (h : ∀ α, α ≠ -1 → frm pe N Z k α = 0) (α : ZMod m) : frm pe N Z k α = 0 := by
  by_cases hα : α = -1
  · have hs : ∑ α, frm pe N Z k α = 0 := by
      simp only [hg.frm_eq Z hk]
      rw [Finset.sum_sub_distrib, sub_eq_zero]
      exact Fintype.sum_equiv (Equiv.addRight (1 : ZMod m)) _ _ fun _ => rfl
    rw [Finset.sum_eq_single α (fun β _ hβ => h β (by rw [← hα]; exact hβ)) (fun h => absurd (Finset.mem_univ _) h)] at hs
    exact hs
  · exact h α hα

theorem Grows.row_gfun {G : Type*} [AddCommGroup G] (hg : Grows pe r0 N) {Z : Nat → ZMod m → G} {k : Nat} (hk : k < N) (h : ∀ α, frm pe N Z k α = 0) (α α' : ZMod m) : gfun pe N Z k α = gfun pe N Z k α' := by
  have h' : ∀ α, gfun pe N Z k (α + 1) = gfun pe N Z k α := by
    intro α
    have := h α
    rwa [hg.frm_eq Z hk, sub_eq_zero] at this
  rw [const_of_step h' α, const_of_step h' α']

/-- vectors of the kernel by classes -/
theorem Grows.ker_class {q d : Nat} [NeZero d] (hd : d ∣ m) (hdq : d = Nat.gcd m (q + 2)) (hg : Grows pe r0 (q + 1)) {F : Type} [Field F] (v : ZMod d → F) (hv : v (-1) = 0) :
    ∃ R : Nat → ZMod m → F, IsKer pe (q + 1) R ∧ (∀ k, R k (-1) = 0) ∧ (∀ α, R q α = v (cl hd α)) ∧ ∀ k, q < k → ∀ α, R k α = 0 := by
  refine hg.ker_exists (w := fun α => v (cl hd α)) (fun α => ?_) ?_
  · rw [← hdq, map_add, map_natCast, ZMod.natCast_self, add_zero]
  · rw [map_neg, map_one, hv]

theorem Grows.ker_zero {q : Nat} (hg : Grows pe r0 (q + 1)) {F : Type} [Field F] {Z : Nat → ZMod m → F} (hZ : IsKer pe (q + 1) Z) (h1 : ∀ k ≤ q, Z k (-1) = 0) (h : ∀ α, Z q α = 0) {k : Nat} (hk : k ≤ q) (α : ZMod m) : Z k α = 0 := by
  have := hg.ker_last hZ (fun α => by rw [h, h])
  exact no_jump (h1 k hk) (fun α => by have := this k (by omega) (α - 1); rwa [sub_add_cancel] at this) α

/-- first kind of prefix: no vector -/
theorem Grows.prefix_even {q d : Nat} [NeZero d] (hd : d ∣ m) (hdq : d = Nat.gcd m (q + 2)) (hg : Grows pe r0 (q + 1)) {F : Type} [Field F] :
    ¬ Has pe (q + 1) (fun k (α : ZMod m) => if k = q then α.val < m - d else α ≠ -1) F := by
  rintro ⟨Z, z1, z2, k0, α0, z3⟩
  simp only at z1 z2
  have zq : ∀ α, m - d ≤ α.val → Z q α = 0 := fun α h => z2 q α fun g => by
    have := g.2
    rw [if_pos rfl] at this
    omega
  have zm : ∀ k, Z k (-1) = 0 := by
    intro k
    refine z2 k _ fun g => ?_
    have := g.2
    split_ifs at this with h
    · rw [val_neg_one' hd] at this
      have := NeZero.ne d
      omega
    · exact this rfl
  have rk : ∀ k < q, ∀ α, frm pe (q + 1) Z k α = 0 := fun k hk => hg.row_all (by omega) fun α hα => z1 k α (by rw [if_neg (by omega)]; exact hα) (by omega)
  have hker : IsKer pe (q + 1) Z := by
    refine hg.ker_of fun k hk α hα => ?_
    by_cases hkq : k = q
    · subst hkq
      by_cases hlt : α.val < m - d
      · exact z1 k α (by rw [if_pos rfl]; exact hlt) hk
      · have hα2 : α = hi m (cl hd α) := (hi_iff hd).2 (not_lt.1 hlt)
        have hs : cl hd α ≠ -1 := by
          intro e
          rw [e, hi_neg_one hd] at hα2
          exact hα hα2
        obtain ⟨R, r1, r2, r3, r4⟩ := hg.ker_class hd hdq (fun s => if s = cl hd α then (1 : F) else 0) (if_neg hs.symm)
        have h := hg.frm_skew R Z
        have hz : ∑ k' ∈ Finset.range (k + 1), ∑ β, Z k' β * frm pe (k + 1) R k' β = 0 :=
          Finset.sum_eq_zero fun k' hk' => Finset.sum_eq_zero fun β _ => by rw [r1 k' (Finset.mem_range.1 hk'), mul_zero]
        rw [hz, neg_zero, Finset.sum_range_succ, Finset.sum_eq_zero fun k' hk' => Finset.sum_eq_zero fun β _ => by rw [rk k' (Finset.mem_range.1 hk'), mul_zero], zero_add, Finset.sum_eq_single α] at h
        · rwa [r3, if_pos rfl, one_mul] at h
        · intro β _ hβ
          rw [r3]
          by_cases e : cl hd β = cl hd α
          · have : β.val < m - d := by
              by_contra hge
              apply hβ
              rw [(hi_iff hd).2 (not_lt.1 hge), e, ← hα2]
            rw [z1 k β (by rw [if_pos rfl]; exact this) hk, mul_zero]
          · rw [if_neg e, zero_mul]
        · exact fun h => absurd (Finset.mem_univ _) h
    · exact rk k (by omega) α
  have hper : ∀ α, Z q (α + (d : Nat)) = Z q α := by
    intro α
    rw [hdq]
    exact hg.ker_period hker α
  have h0 : ∀ α, Z q α = 0 := by
    intro α
    rw [per_hi hd hper α]
    exact zq _ (by rw [val_hi hd]; omega)
  by_cases hk : k0 ≤ q
  · exact z3 (hg.ker_zero hker (fun k _ => zm k) h0 hk α0)
  · exact z3 (z2 _ _ fun g => hk (by omega))

/-- the jumps of the last edge -/
theorem Grows.jump_sum {q d : Nat} [NeZero d] (hd : d ∣ m) (hg : Grows pe r0 (q + 2)) {F : Type} [Field F] {j : ZMod m} {v : ZMod d → F} {R Z : Nat → ZMod m → F} {c0 : F}
    (hR : IsKer pe (q + 1) R) (hR2 : ∀ α, R (q + 1) α = 0) (hj : ∀ α, gfun pe (q + 2) R (q + 1) α = c0 - v (cl hd (α + j))) :
    ∑ k ∈ Finset.range (q + 1), ∑ α, R k α * frm pe (q + 2) Z k α = - ∑ α, (Z (q + 1) α - Z (q + 1) (α - 1)) * v (cl hd (α + j)) := by
  have h := hg.frm_skew R Z
  have e1 : ∑ k' ∈ Finset.range (q + 1), ∑ β, Z k' β * frm pe (q + 2) R k' β = 0 :=
    Finset.sum_eq_zero fun k' hk' => Finset.sum_eq_zero fun β _ => by rw [frm_succ hR2, hR k' (Finset.mem_range.1 hk'), mul_zero]
  rw [Finset.sum_range_succ, Finset.sum_range_succ (fun k => ∑ α, Z k α * frm pe (q + 2) R k α), e1, zero_add] at h
  have e2 : ∑ α, R (q + 1) α * frm pe (q + 2) Z (q + 1) α = 0 := Finset.sum_eq_zero fun α _ => by rw [hR2, zero_mul]
  rw [e2, add_zero] at h
  rw [h, ← sum_parts (Z (q + 1)) (fun α => v (cl hd (α + j)))]
  congr 1
  refine Finset.sum_congr rfl fun α _ => ?_
  rw [hg.frm_eq R (by omega), hj, hj]
  congr 1
  ring

theorem sum_jumps {G : Type*} [AddCommGroup G] (f : ZMod m → G) : ∑ α, (f α - f (α - 1)) = 0 := by
  rw [Finset.sum_sub_distrib, sub_eq_zero]
  exact (Fintype.sum_equiv (Equiv.subRight (1 : ZMod m)) _ _ fun _ => rfl).symm

/-- second kind of prefix: no vector -/
theorem Grows.prefix_odd {q d : Nat} [NeZero d] (hd : d ∣ m) (hdq : d = Nat.gcd m (q + 2)) (hg : Grows pe r0 (q + 2)) {F : Type} [Field F] :
    ¬ Has pe (q + 2) (fun k (α : ZMod m) => if k = q + 1 then α.val < d - 1 else α ≠ -1) F := by
  rintro ⟨Z, z1, z2, k0, α0, z3⟩
  simp only at z1 z2
  obtain ⟨j, hj⟩ := hg.new_edge (m := m)
  have hdm := d_le hd
  have hd0 := Nat.pos_of_ne_zero (NeZero.ne d)
  have hg1 : Grows pe r0 (q + 1) := hg.mono (by omega)
  have ze : ∀ α : ZMod m, d - 1 ≤ α.val → Z (q + 1) α = 0 := fun α h => z2 _ α fun g => by
    have := g.2
    rw [if_pos rfl] at this
    omega
  have zm : ∀ k, Z k (-1) = 0 := by
    intro k
    refine z2 k _ fun g => ?_
    have := g.2
    split_ifs at this with h
    · rw [val_neg_one' hd] at this
      omega
    · exact this rfl
  have rk : ∀ k < q + 1, ∀ α, frm pe (q + 2) Z k α = 0 := fun k hk => hg.row_all (by omega) fun α hα => z1 k α (by rw [if_neg (by omega)]; exact hα) (by omega)
  have hjump : ∀ s : ZMod d, s ≠ -1 → Z (q + 1) (lo m (s - cl hd j)) - Z (q + 1) (lo m (s - cl hd j) - 1) = 0 := by
    intro s hs
    obtain ⟨R, r1, r2, r3, r4⟩ := hg1.ker_class hd hdq (fun t => if t = s then (1 : F) else 0) (if_neg hs.symm)
    obtain ⟨c0, hc0⟩ := hj F R (r4 _ (by omega)) r1
    have h := hg.jump_sum hd (v := fun t => if t = s then (1 : F) else 0) (Z := Z) r1 (r4 _ (by omega)) (fun α => by rw [hc0, r3])
    rw [sum_class hd ze, Finset.sum_eq_zero fun k hk => Finset.sum_eq_zero fun α _ => by rw [rk k (Finset.mem_range.1 hk), mul_zero]] at h
    rwa [eq_comm, neg_eq_zero] at h
  have hnj : ∀ α, α ≠ lo m (-1 - cl hd j) → Z (q + 1) α - Z (q + 1) (α - 1) = 0 := by
    intro α hα
    by_cases hlt : α.val < d
    · have := hjump (cl hd (α + j)) (fun e => hα (by rw [← e, map_add, add_sub_cancel_right, lo_of_lt hd hlt]))
      rwa [map_add, add_sub_cancel_right, lo_of_lt hd hlt] at this
    · have h2 := val_pred_of_pos (α := α) (by omega)
      rw [ze α (by omega), ze (α - 1) (by omega), sub_self]
  have hall : ∀ α, Z (q + 1) α = Z (q + 1) (α - 1) := by
    intro α
    by_cases hα : α = lo m (-1 - cl hd j)
    · have hs := sum_jumps (Z (q + 1))
      rw [Finset.sum_eq_single (lo m (-1 - cl hd j)) (fun β _ hβ => hnj β hβ) (fun h => absurd (Finset.mem_univ _) h), ← hα, sub_eq_zero] at hs
      exact hs
    · exact sub_eq_zero.1 (hnj α hα)
  have hze : ∀ α, Z (q + 1) α = 0 := no_jump (zm _) hall
  have hker : IsKer pe (q + 1) Z := by
    intro k hk α
    rw [← frm_succ hze]
    exact rk k hk α
  obtain ⟨c0, hc0⟩ := hj F Z hze hker
  have hper : ∀ α, Z q (α + (d : Nat)) = Z q α := by
    intro α
    rw [hdq]
    exact hg1.ker_period hker α
  have hstep : ∀ n : Nat, n < d → Z q ((n : ZMod m) + j) = Z q j := by
    intro n
    induction n with
    | zero => simp
    | succ n ih =>
      intro hn
      have hv : ((n : Nat) : ZMod m).val = n := ZMod.val_cast_of_lt (by omega)
      have h1 := z1 (q + 1) ((n : Nat) : ZMod m) (by rw [if_pos rfl, hv]; omega) (by omega)
      rw [hg.frm_eq Z (by omega), hc0, hc0, sub_sub_sub_cancel_left, sub_eq_zero] at h1
      rw [Nat.cast_succ, ← h1, ih (by omega)]
  have hconst : ∀ α, Z q α = Z q j := by
    intro α
    have hper' : ∀ β, Z q (β + (d : Nat) + j) = Z q (β + j) := by
      intro β
      rw [add_right_comm, hper]
    have h2 := per_lo hd (Z := fun β => Z q (β + j)) hper' (α - j)
    simp only [sub_add_cancel] at h2
    rw [h2]
    exact hstep _ (ZMod.val_lt _)
  have h0 : ∀ α, Z q α = 0 := fun α => by rw [hconst α, ← hconst (-1), zm]
  by_cases hk : k0 ≤ q
  · exact z3 (hg1.ker_zero hker (fun k _ => zm k) h0 hk α0)
  · by_cases hk1 : k0 = q + 1
    · exact z3 (by rw [hk1]; exact hze α0)
    · exact z3 (z2 _ _ fun g => by omega)

theorem Grows.leaf {e : Nat} (hg : Grows pe r0 (e + 1)) : ∀ l < e + 1, (pe l).a ≠ (pe e).b := by
  intro l hl
  by_cases h : l = e
  · rw [h]
    exact hg.ab_ne (by omega)
  · exact (hg.old_ne (show l < e by omega)).1

theorem frm_cast (Z : Nat → ZMod m → ℤ) (k : Nat) (α : ZMod m) : frm pe N (fun l β => (Z l β : ℚ)) k α = (frm pe N Z k α : ℤ) :=
  frm_map (Int.castRingHom ℚ).toAddMonoidHom Z k α

/-- a part of the loops of the last edge -/
theorem Grows.stage_two {e : Nat} (hg : Grows pe r0 (e + 1)) {U : ZMod m → Prop} (hU : ¬ U (-1)) {F : Type} [AddCommGroup F]
    (h : Has pe (e + 1) (fun k (α : ZMod m) => if k = e then U α else α ≠ -1) F) : Has pe (e + 1) (fun k (α : ZMod m) => if k = e then U α else α ≠ -1) ℚ := by
  obtain ⟨Z, z1, z2, k0, α1, z3⟩ := h
  simp only at z1 z2
  have hk0 : k0 < e + 1 := by
    by_contra hk
    exact z3 (z2 _ _ fun g => hk g.1)
  have zm : ∀ k, Z k (-1) = 0 := by
    intro k
    refine z2 k _ fun g => ?_
    have := g.2
    split_ifs at this with h
    · exact hU this
    · exact this rfl
  have ze : ∀ α, ¬ U α → Z e α = 0 := fun α h => z2 _ _ fun g => by
    have := g.2
    rw [if_pos rfl] at this
    exact h this
  have re : ∀ α, U α → gfun pe (e + 1) Z e (α + 1) = gfun pe (e + 1) Z e α := by
    intro α hα
    have := z1 e α (by rw [if_pos rfl]; exact hα) (by omega)
    rwa [hg.frm_eq Z (by omega), sub_eq_zero] at this
  have re' : ∀ α, U (α - 1) → gfun pe (e + 1) Z e (α - 1) = gfun pe (e + 1) Z e α := by
    intro α hα
    have := re (α - 1) hα
    rw [sub_add_cancel] at this
    exact this.symm
  obtain ⟨α0, hα0⟩ : ∃ α0, Z k0 α0 ≠ Z k0 (α0 - 1) := by
    by_contra hc
    push Not at hc
    exact z3 (no_jump (zm k0) hc α1)
  obtain ⟨Z', ψ, q1, q2, q3, q4, q5, q6⟩ := hg.transfer_leaf (show e < e + 1 by omega) hg.leaf Z (fun k α => k ≠ e ∨ U α ∨ U (α - 1)) (gfun pe (e + 1) Z e)
    (fun k hk hke α α' _ _ => hg.row_gfun hk (hg.row_all hk fun α hα => z1 k α (by rw [if_neg hke]; exact hα) hk) α α')
    (fun k hk α hn => by
      push Not at hn
      obtain ⟨rfl, h1, h2⟩ := hn
      rw [ze _ h1, ze _ h2])
    (fun α _ => ⟨Or.inr rfl, (em (U (α - 1))).symm.imp (ze _) (re' α)⟩)
    (fun α hn => by
      push Not at hn
      exact Or.inl (ze _ hn.2.1)) hk0 hα0
  refine ⟨fun k α => if k < e + 1 then (Z' k α : ℚ) else 0, fun k α hT hk => ?_, fun k α hn => ?_, ?_⟩
  · rw [frm_congr (Z' := fun k α => (Z' k α : ℚ)) (fun l hl β => if_pos hl), frm_cast, Int.cast_eq_zero, hg.frm_eq Z' hk, sub_eq_zero]
    by_cases hke : k = e
    · subst hke
      rw [if_pos rfl] at hT
      rw [q5 _ (Or.inr (Or.inr (by rw [add_sub_cancel_right]; exact hT))), q5 _ (Or.inr (Or.inl hT)), re α hT]
    · exact q4 k hk hke _ _ (Or.inl hke) (Or.inl hke)
  · beta_reduce
    by_cases hk : k < e + 1
    · rw [if_pos hk, Int.cast_eq_zero]
      have hT : ¬ (if k = e then U α else α ≠ -1) := fun g => hn ⟨hk, g⟩
      by_cases hke : k = e
      · subst hke
        rw [if_pos rfl] at hT
        exact q3 α (ze α hT)
      · rw [if_neg hke, not_not] at hT
        rw [hT]
        exact q2 k hk hke
    · rw [if_neg hk]
  · by_contra hc
    push Not at hc
    have h1 := hc k0 α0
    have h2 := hc k0 (α0 - 1)
    rw [if_pos hk0, Int.cast_eq_zero] at h1 h2
    rw [h1, h2] at q6
    exact q6 rfl

end Hcp.PlaneTree
