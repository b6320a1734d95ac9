import Verif.Proofs.CutGeometry

/-!
# The relations of Riemann for points sorted by height
-/

namespace Hcp.Cut
open Complex Set PlaneTree Spec

/-- the edge between two points -/
noncomputable def slopeOf (y : Nat → ℂ) (a b : Nat) : ℝ := ((y (max a b)).re - (y (min a b)).re) / ((y (max a b)).im - (y (min a b)).im)
noncomputable def offOf (y : Nat → ℂ) (a b : Nat) : ℝ := (y (min a b)).re - slopeOf y a b * (y (min a b)).im
noncomputable def edgeOf (y : Nat → ℂ) (a b : Nat) : CEdge := ⟨min a b, max a b, fun v => slopeOf y a b * (y v).im + offOf y a b < (y v).re⟩

/-- no other point on the segment -/
def FreeSeg (n : Nat) (y : Nat → ℂ) (a b : Nat) : Prop := ∀ k < n, k ≠ a → k ≠ b → ∀ t : ℝ, -1 ≤ t → t ≤ 1 → y k ≠ Spec.edgePt (y a) (y b) t

/-- a tree of segments -/
structure Segs (n N : Nat) (y : Nat → ℂ) (a b : Nat → Nat) : Prop where
  ha : ∀ k < N, a k < n
  hb : ∀ k < N, b k < n
  ne : ∀ k < N, a k ≠ b k
  old : ∀ k < N, k ≠ 0 → ∃ j < k, a k = a j ∨ a k = b j
  new : ∀ k < N, ∀ j < k, b k ≠ a j ∧ b k ≠ b j
  free : ∀ k < N, FreeSeg n y (a k) (b k)
  meet : ∀ k < N, ∀ l < N, k ≠ l → MeetAtEnds (y (a k)) (y (b k)) (y (a l)) (y (b l))

section
variable {n N : Nat} {y : Nat → ℂ} {a b : Nat}

theorem reads_of (_ : a ≠ b) : Reads (edgeOf y a b) (decide (b < a)) a b := by
  unfold Reads edgeOf
  by_cases h : b < a
  · simp only [h, decide_true, if_true]
    omega
  · simp only [h, decide_false, Bool.false_eq_true, if_false]
    omega

/-- the parameter of a height -/
theorem param (hs : Sorted n fun k => (y k).im) (ha : a < n) (hb : b < n) (hab : a ≠ b) {s : ℝ} (h1 : (y (min a b)).im ≤ s) (h2 : s ≤ (y (max a b)).im) :
    ∃ t : ℝ, -1 ≤ t ∧ t ≤ 1 ∧ Spec.edgePt (y a) (y b) t = path (slopeOf y a b) (offOf y a b) s ∧ (t = -1 ∨ t = 1 → s = (y (min a b)).im ∨ s = (y (max a b)).im) := by
  have hlt : (y (min a b)).im < (y (max a b)).im := hs _ _ (by omega) (by omega)
  have hd : 0 < (y (max a b)).im - (y (min a b)).im := by linarith
  set t := (2 * s - (y (min a b)).im - (y (max a b)).im) / ((y (max a b)).im - (y (min a b)).im) with ht
  have e1 : t * ((y (max a b)).im - (y (min a b)).im) = 2 * s - (y (min a b)).im - (y (max a b)).im := div_mul_cancel₀ _ hd.ne'
  have b1 : -1 ≤ t := by rw [ht, le_div_iff₀ hd]; linarith
  have b2 : t ≤ 1 := by rw [ht, div_le_iff₀ hd]; linarith
  have e2 : Spec.edgePt (y (min a b)) (y (max a b)) t = path (slopeOf y a b) (offOf y a b) s := by
    have e3 : slopeOf y a b * ((y (max a b)).im - (y (min a b)).im) = (y (max a b)).re - (y (min a b)).re := div_mul_cancel₀ _ hd.ne'
    unfold path Spec.edgePt offOf
    apply Complex.ext
    · simp
      have : slopeOf y a b * s = slopeOf y a b * (t * ((y (max a b)).im - (y (min a b)).im) + (y (min a b)).im + (y (max a b)).im) / 2 := by rw [e1]; ring
      rw [this]
      linear_combination (-(t + 1) / 2) * e3
    · simp
      linear_combination e1 / 2
  rcases lt_or_gt_of_ne hab with q | q
  · rw [min_eq_left q.le, max_eq_right q.le] at *
    refine ⟨t, b1, b2, e2, fun h => ?_⟩
    rcases h with h | h <;> rw [h] at e1
    · left
      linarith
    · right
      linarith
  · rw [min_eq_right q.le, max_eq_left q.le] at *
    refine ⟨-t, by linarith, by linarith, ?_, fun h => ?_⟩
    · rw [edgePt_neg]
      exact e2
    · rcases h with h | h
      · have : t = 1 := by linarith
        rw [this] at e1
        right
        linarith
      · have : t = -1 := by linarith
        rw [this] at e1
        left
        linarith

theorem along_of (hre : InjOn (fun k => (y k).re) (Iio n)) (hs : Sorted n fun k => (y k).im) (ha : a < n) (hb : b < n) (hab : a ≠ b) (hf : FreeSeg n y a b) : AlongC n y (slopeOf y a b) (offOf y a b) (edgeOf y a b) := by
  have hlt : (y (min a b)).im < (y (max a b)).im := hs _ _ (by omega) (by omega)
  have hd : (y (max a b)).im - (y (min a b)).im ≠ 0 := by linarith
  refine ⟨by unfold edgeOf; simp only; omega, by unfold edgeOf; simp only; omega, ?_, ?_, ?_, fun k _ _ h => h, fun k k1 k2 hk => ?_⟩
  · unfold slopeOf
    refine div_ne_zero (sub_ne_zero.2 fun h => ?_) hd
    have := hre (show max a b < n by omega) (show min a b < n by omega) h
    omega
  · unfold edgeOf offOf
    ring
  · unfold edgeOf offOf slopeOf
    simp only
    field_simp
    ring
  · refine lt_of_le_of_ne (not_lt.1 hk) fun hc => ?_
    simp only [edgeOf] at k1 k2
    obtain ⟨t, t1, t2, t3, -⟩ := param hs ha hb hab (s := (y k).im) (hs _ _ k1 (by omega)).le (hs _ _ k2 (by omega)).le
    refine hf k (by omega) (by omega) (by omega) t t1 t2 ?_
    rw [t3]
    unfold path
    apply Complex.ext <;> simp
    exact hc

theorem meet_of (hs : Sorted n fun k => (y k).im) {a' b' : Nat} (ha : a < n) (hb : b < n) (hab : a ≠ b) (ha' : a' < n) (hb' : b' < n) (hab' : a' ≠ b') (h : MeetAtEnds (y a) (y b) (y a') (y b')) :
    MeetH y (edgeOf y a b) (edgeOf y a' b') (slopeOf y a b) (offOf y a b) (slopeOf y a' b') (offOf y a' b') := by
  intro s h1 h2 h3 h4 e
  obtain ⟨t, t1, t2, t3, t4⟩ := param hs ha hb hab h1 h2
  obtain ⟨t', t1', t2', t3', t4'⟩ := param hs ha' hb' hab' h3 h4
  obtain ⟨k1, k2⟩ := h t t' t1 t2 t1' t2' (by rw [t3, t3']; unfold path; rw [e])
  exact ⟨t4 k1, t4' k2⟩

end

section
variable {m n N g : Nat} {y : Nat → ℂ} {a b : Nat → Nat} {Y : Nat → ℝ → ℂ} {ca cb : Nat → ℂ}

theorem ped_ends {e : DEdge} {dn : Bool} {a b : Nat} (h : Reads e.toCEdge dn a b) : (e.ped dn).a = a ∧ (e.ped dn).b = b := by
  obtain ⟨h1, h2⟩ := h
  cases dn
  · simp only [Bool.false_eq_true, if_false] at h1 h2
    exact ⟨h1.symm, h2.symm⟩
  · simp only [if_true] at h1 h2
    exact ⟨h1.symm, h2.symm⟩

theorem ped_range {e : DEdge} (dn : Bool) (h : 0 < e.θ ∧ e.θ < Real.pi) : (-Real.pi < (e.ped dn).pa ∧ (e.ped dn).pa < Real.pi) ∧ (-Real.pi < (e.ped dn).pb ∧ (e.ped dn).pb < Real.pi) := by
  have := Real.pi_pos
  cases dn
  · rw [ped_false]
    simp only [DEdge.pe]
    refine ⟨⟨?_, ?_⟩, ?_, ?_⟩ <;> linarith [h.1, h.2]
  · rw [ped_true]
    simp only
    refine ⟨⟨?_, ?_⟩, ?_, ?_⟩ <;> linarith [h.1, h.2]

/-- direction at an end of the edge -/
theorem ped_dir (e : DEdge) (dn : Bool) : ((e.ped dn).a = e.lo ∧ (e.ped dn).pa = e.θ ∧ (e.ped dn).b = e.up ∧ (e.ped dn).pb = e.θ - Real.pi) ∨ ((e.ped dn).a = e.up ∧ (e.ped dn).pa = e.θ - Real.pi ∧ (e.ped dn).b = e.lo ∧ (e.ped dn).pb = e.θ) := by
  cases dn
  · left
    exact ⟨rfl, rfl, rfl, rfl⟩
  · right
    exact ⟨rfl, rfl, rfl, rfl⟩

/-- **The relations of Riemann**, for points sorted by height -/
theorem relations_sorted (hm : 2 ≤ m) (hn : 0 < n) (hre : InjOn (fun k => (y k).re) (Iio n)) (hs : Sorted n fun k => (y k).im) (hT : Segs n N y a b) (hsize : TreeSize m n N)
    (hY : ∀ k < N, IsBranchM m n y (y (a k)) (y (b k)) (Y k) ∧ LeavesAlong (Y k) (-1) (ca k) ∧ LeavesAlong (Y k) 1 (cb k)) {K : Matrix (Fin (N * (m - 1))) (Fin (N * (m - 1))) ℤ}
    (hK : ∀ i j, (K i j : ℚ) = pathNumber (passages m (a (i.val / (m - 1))) (b (i.val / (m - 1))) (ca (i.val / (m - 1))) (cb (i.val / (m - 1))) (i.val % (m - 1)))
      (passages m (a (j.val / (m - 1))) (b (j.val / (m - 1))) (ca (j.val / (m - 1))) (cb (j.val / (m - 1))) (j.val % (m - 1))))
    {I0 J : Fin g → Nat} (hIJ : ∀ r, 0 < J r ∧ J r < m ∧ (I0 r + 1) * m < n * J r) (hinj : ∀ r s, I0 r = I0 s → J r = J s → r = s) {W : Matrix (Fin g) (Fin (N * (m - 1))) ℂ}
    (hW : ∀ r i, W r i = cycleIntM m (y (a (i.val / (m - 1)))) (y (b (i.val / (m - 1)))) (I0 r) (J r) (Y (i.val / (m - 1))) (i.val % (m - 1))) :
    RiemannRelations W K := by
  have him : InjOn y (Iio n) := fun u hu v hv e => hs.inj hu hv (congrArg Complex.im e)
  have hal := fun k hk => along_of hre hs (hT.ha k hk) (hT.hb k hk) (hT.ne k hk) (hT.free k hk)
  have hrd := fun k hk => reads_of (y := y) (hT.ne k hk)
  have hed : ∀ k : Fin N, ∃ τ : ℤ, RayAt m n y (a k) ((DEdge.mk (edgeOf y (a k) (b k)) ((slopeOf y (a k) (b k) : ℂ) + I).arg τ).ped (decide (b k < a k))).sa ((DEdge.mk (edgeOf y (a k) (b k)) ((slopeOf y (a k) (b k) : ℂ) + I).arg τ).ped (decide (b k < a k))).pa (ca k) ∧
      RayAt m n y (b k) ((DEdge.mk (edgeOf y (a k) (b k)) ((slopeOf y (a k) (b k) : ℂ) + I).arg τ).ped (decide (b k < a k))).sb ((DEdge.mk (edgeOf y (a k) (b k)) ((slopeOf y (a k) (b k) : ℂ) + I).arg τ).ped (decide (b k < a k))).pb (cb k) ∧
      ∀ i j : Nat, segIntM (y (a k)) (y (b k)) i j (Y k) = sgn (decide (b k < a k)) * (zeta m ^ j) ^ (-τ) * segIntM (y (edgeOf y (a k) (b k)).lo) (y (edgeOf y (a k) (b k)).up) i j (fun t => Yc m n y (edgeOf y (a k) (b k)) (Spec.edgePt (y (edgeOf y (a k) (b k)).lo) (y (edgeOf y (a k) (b k)).up) t)) :=
    fun k => (hal k k.isLt).edge hs him (by omega) (hrd k k.isLt) (hY k k.isLt).1 (hY k k.isLt).2.1 (hY k k.isLt).2.2
  choose τ0 hτa hτb hτs using hed
  let τ : Nat → ℤ := fun k => if hk : k < N then τ0 ⟨k, hk⟩ else 0
  have eτ : ∀ k (hk : k < N), τ k = τ0 ⟨k, hk⟩ := fun k hk => dif_pos hk
  let E : Nat → DEdge := fun k => ⟨edgeOf y (a k) (b k), ((slopeOf y (a k) (b k) : ℂ) + I).arg, τ k⟩
  let dn : Nat → Bool := fun k => decide (b k < a k)
  have hends : ∀ k < N, ((E k).ped (dn k)).a = a k ∧ ((E k).ped (dn k)).b = b k := fun k hk => ped_ends (hrd k hk)
  have hdir : ∀ k < N, 0 < (E k).θ ∧ (E k).θ < Real.pi := fun k _ => arg_pos _
  have hleft : ∀ k < N, ∀ l < N, k ≠ l → LeftDir (E k) (E l) ∨ LeftDir (E l) (E k) := fun k hk l hl hkl =>
    leftDir_or hs (hal k hk) (hal l hl) (meet_of hs (hT.ha k hk) (hT.hb k hk) (hT.ne k hk) (hT.ha l hl) (hT.hb l hl) (hT.ne l hl) (hT.meet k hk l hl hkl))
  have hlo : ∀ k < N, ∀ l < N, k ≠ l → (E k).lo = (E l).lo → (E k).θ ≠ (E l).θ := fun k hk l hl hkl e => by
    rcases hleft k hk l hl hkl with q | q
    · exact (q.lo e.symm).ne'
    · exact (q.lo e).ne
  have hup : ∀ k < N, ∀ l < N, k ≠ l → (E k).up = (E l).up → (E k).θ ≠ (E l).θ := fun k hk l hl hkl e => by
    rcases hleft k hk l hl hkl with q | q
    · exact (q.up e.symm).ne
    · exact (q.up e).ne'
  have hlt : ∀ k < N, (E k).lo < (E k).up := fun k hk => (hal k hk).lt
  have hgr : Grows (fun k => (E k).ped (dn k)) (a 0) N := by
    refine ⟨fun k hk => ?_, fun k hk => ?_, fun k hk l hl hkl e => ?_, fun k hk l hl e => ?_⟩
    · simp only [(hends k hk).1]
      induction k using Nat.strong_induction_on with
      | _ k ih =>
        by_cases h0 : k = 0
        · subst h0
          exact Or.inl rfl
        · obtain ⟨j, hj, q⟩ := hT.old k hk h0
          rcases q with q | q
          · rcases ih j hj (hj.trans hk) with w | ⟨i, hi, w⟩
            · exact Or.inl (q.trans w)
            · exact Or.inr ⟨i, hi.trans hj, q.trans w⟩
          · exact Or.inr ⟨j, hj, q.trans (hends j (hj.trans hk)).2.symm⟩
    · rintro (w | ⟨j, hj, w⟩)
      · simp only [(hends k hk).2] at w
        by_cases h0 : k = 0
        · subst h0
          exact hT.ne 0 hk w.symm
        · exact (hT.new k hk 0 (by omega)).1 w
      · simp only [(hends k hk).2, (hends j (hj.trans hk)).2] at w
        exact (hT.new k hk j hj).2 w
    · have := hdir k hk
      have := hdir l hl
      rcases ped_dir (E k) (dn k) with ⟨w1, w2, -, -⟩ | ⟨w1, w2, -, -⟩ <;> rcases ped_dir (E l) (dn l) with ⟨z1, z2, -, -⟩ | ⟨z1, z2, -, -⟩ <;> rw [w2, z2] <;> rw [w1, z1] at e
      · exact hlo k hk l hl hkl e
      · linarith
      · linarith
      · have := hup k hk l hl hkl e
        intro h
        exact this (by linarith)
    · have d1 := hdir k hk
      have d2 := hdir l hl
      have hkl : k ≠ l := by
        rintro rfl
        simp only [(hends k hk).1, (hends k hk).2] at e
        exact hT.ne k hk e
      rcases ped_dir (E k) (dn k) with ⟨w1, w2, -, -⟩ | ⟨w1, w2, -, -⟩ <;> rcases ped_dir (E l) (dn l) with ⟨-, -, z1, z2⟩ | ⟨-, -, z1, z2⟩ <;> rw [w2, z2] <;> rw [w1, z1] at e
      · linarith
      · exact hlo k hk l hl hkl e
      · have := hup k hk l hl hkl e
        intro h
        exact this (by linarith)
      · linarith
  have hCT : CTree n N E dn (a 0) := ⟨hdir, hlt, fun k hk => (hal k hk).top, hleft, hgr⟩
  have hER : ∀ k < N, EndRays m n y ((E k).ped (dn k)) (ca k) (cb k) := by
    intro k hk
    obtain ⟨r1, r2⟩ := ped_range (dn k) (hdir k hk)
    obtain ⟨e1, e2⟩ := hends k hk
    have t1 := hτa ⟨k, hk⟩
    have t2 := hτb ⟨k, hk⟩
    rw [← eτ k hk] at t1 t2
    refine ⟨?_, ?_, r1, r2, ?_, ?_⟩
    · rw [e1]
      exact t1
    · rw [e2]
      exact t2
    · rw [e1]
      exact Gv_ne him (hT.ha k hk)
    · rw [e2]
      exact Gv_ne him (hT.hb k hk)
  have hdiv : ∀ i : Fin (N * (m - 1)), i.val / (m - 1) < N := fun i => Nat.div_lt_of_lt_mul (i.isLt.trans_eq (Nat.mul_comm _ _))
  refine relations_cut (p := fun k => slopeOf y (a k) (b k)) (q := fun k => offOf y (a k) (b k)) (ca := ca) (cb := cb) hm hn hre hs hCT (fun k hk => hal k hk) hER (Sg := fun k i j => segIntM (y (a k)) (y (b k)) i j (Y k)) (fun k hk i j => ?_) hsize (fun i j => ?_) hIJ hinj (fun r i => ?_)
  · have := hτs ⟨k, hk⟩ i j
    rw [← eτ k hk] at this
    exact this
  · rw [hK, (hends _ (hdiv i)).1, (hends _ (hdiv i)).2, (hends _ (hdiv j)).1, (hends _ (hdiv j)).2]
  · rw [hW, cycleIntM_eq]

end

end Hcp.Cut
