import Verif.Proofs.PUReduce

/-!
# Reduction of a form with a chain of unimodular prefixes

The positions are cut in stages.  When each prefix made of whole stages is unimodular, and the minors made of a prefix and some positions of the next stage are `0, ±1`, the pivots stay in the stage of their row and
are units: each block is done in one pass.
-/

namespace Hcp
open Spec

variable {r : Nat}

/-- the first unit of the row is chosen -/
theorem pivotGo_unit (M : Mat r) (i : Fin r) {j1 : Fin r} (h1 : (M i j1).natAbs = 1) : ∀ (js : List (Fin r)) (v : ℤ) (jv : Nat), js.Pairwise (· < ·) → j1 ∈ js →
    ∃ j : Fin r, j ∈ js ∧ j ≤ j1 ∧ j.val = pivotGo M i js v jv ∧ (M i j).natAbs = 1
  | [], _, _, _, h => by simp at h
  | j :: js, v, jv, hs, h => by
    obtain ⟨hlt, hs'⟩ := List.pairwise_cons.1 hs
    unfold pivotGo
    split
    · rename_i h0
      have hm : j1 ∈ js := by
        rcases List.mem_cons.1 h with e | g
        · rw [e, h0] at h1; simp at h1
        · exact g
      obtain ⟨j', a1, a2, a3, a4⟩ := pivotGo_unit M i h1 js v jv hs' hm
      exact ⟨j', List.mem_cons_of_mem _ a1, a2, a3, a4⟩
    · split
      · rename_i hu
        refine ⟨j, by simp, ?_, rfl, hu⟩
        rcases List.mem_cons.1 h with e | g
        · exact e ▸ le_rfl
        · exact (hlt j1 g).le
      · rename_i hu
        have hm : j1 ∈ js := by
          rcases List.mem_cons.1 h with e | g
          · rw [e] at h1; exact absurd h1 hu
          · exact g
        split
        · obtain ⟨j', a1, a2, a3, a4⟩ := pivotGo_unit M i h1 js (M i j) j.val hs' hm
          exact ⟨j', List.mem_cons_of_mem _ a1, a2, a3, a4⟩
        · obtain ⟨j', a1, a2, a3, a4⟩ := pivotGo_unit M i h1 js v jv hs' hm
          exact ⟨j', List.mem_cons_of_mem _ a1, a2, a3, a4⟩

theorem idxRange_sorted (lo hi : Nat) : (idxRange r lo hi).Pairwise (· < ·) := (List.pairwise_lt_finRange r).filter _

theorem findPivot_unit {d len : Nat} {st : St r} {i j1 : Fin r} (hi : i.val = 2 * d) (h1 : (st.M i j1).natAbs = 1) (hj : 2 * d < j1.val) (hl : j1.val < len) :
    ∃ j : Fin r, findPivot d len st = .ok (st, len, some j.val) ∧ 2 * d < j.val ∧ j ≤ j1 ∧ (st.M i j).natAbs = 1 := by
  obtain ⟨l, rfl⟩ : ∃ l, len = l + 1 := ⟨len - 1, by omega⟩
  obtain ⟨j, a1, a2, a3, a4⟩ := pivotGo_unit st.M i h1 (idxRange r (i.val + 1) (l + 1)) 0 (l + 1) (idxRange_sorted _ _) (mem_idxRange.2 ⟨by omega, hl⟩)
  have hm := mem_idxRange.1 a1
  refine ⟨j, ?_, by omega, a2, a4⟩
  unfold findPivot
  have e : pivotLine st.M (2 * d) (l + 1) = j.val := by
    rw [← hi]
    unfold pivotLine
    rw [dif_pos i.isLt, a3]
  dsimp only
  rw [e, if_neg (by omega)]

/-- minors made of the rest of the prefix before stage `k` and of positions of stage `k` -/
def LocPU (E : Nat → Nat) (d : Nat) (M : Mat r) : Prop :=
  ∀ k (κ : Type) [Fintype κ] [DecidableEq κ] (f : κ → Fin r), (∀ x, 2 * d ≤ (f x).val ∧ (f x).val < E (k + 1)) → (∀ a : Fin r, 2 * d ≤ a.val → a.val < E k → ∃ x, f x = a) →
    (M.submatrix f f).det.natAbs ≤ 1

/-- the rest of each prefix is unimodular -/
def LocUni (E : Nat → Nat) (d : Nat) (M : Mat r) : Prop :=
  ∀ k (κ : Type) [Fintype κ] [DecidableEq κ] (f : κ → Fin r), Function.Injective f → (∀ x, 2 * d ≤ (f x).val ∧ (f x).val < E k) → (∀ a : Fin r, 2 * d ≤ a.val → a.val < E k → ∃ x, f x = a) →
    (M.submatrix f f).det.natAbs = 1

/-- both -/
structure Loc (E : Nat → Nat) (d : Nat) (M : Mat r) : Prop where
  pu : LocPU E d M
  uni : LocUni E d M

theorem swap_M (st : St r) (x y : Fin r) : (cong2 st x y 0 1 1 0).M = st.M.submatrix (Equiv.swap x y) (Equiv.swap x y) := by
  have hs : ∀ a, Equiv.swap x y a = if a = y then x else if a = x then y else a := by
    intro a
    rw [Equiv.swap_comm, Equiv.swap_apply_def]
  ext a b
  simp only [Matrix.submatrix_apply, hs, cong2, colBezout, rowBezout]
  split_ifs <;> ring

theorem Loc.swap {E : Nat → Nat} (hE : Monotone E) {d k0 : Nat} {st : St r} (h : Loc E d st.M) (hk : E k0 ≤ 2 * d) {x y : Fin r} (hx : 2 * d ≤ x.val) (hy : 2 * d ≤ y.val) (hx' : x.val < E (k0 + 1))
    (hy' : y.val < E (k0 + 1)) : Loc E d (cong2 st x y 0 1 1 0).M := by
  have hσ : ∀ (B : Nat), E (k0 + 1) ≤ B → ∀ a : Fin r, 2 * d ≤ a.val → a.val < B → 2 * d ≤ (Equiv.swap x y a).val ∧ (Equiv.swap x y a).val < B := by
    intro B hB a h1 h2
    rw [Equiv.swap_apply_def]
    split_ifs <;> omega
  have hlow : ∀ k, ¬ k0 + 1 ≤ k → E k ≤ 2 * d := fun k hkk => (hE (by omega : k ≤ k0)).trans hk
  refine ⟨fun k κ _ _ f hf hc => ?_, fun k κ _ _ f hi hf hc => ?_⟩
  · rw [swap_M, Matrix.submatrix_submatrix]
    by_cases hkk : k0 ≤ k
    · have hB : E (k0 + 1) ≤ E (k + 1) := hE (by omega)
      refine h.pu k κ _ (fun z => hσ _ hB _ (hf z).1 (hf z).2) fun a h1 h2 => ?_
      by_cases hk1 : k0 + 1 ≤ k
      · have := hσ (E k) (hE hk1) a h1 h2
        obtain ⟨z, hz⟩ := hc _ this.1 this.2
        exact ⟨z, by rw [Function.comp_apply, hz, Equiv.swap_apply_self]⟩
      · have := hlow k hk1
        omega
    · have : IsEmpty κ := ⟨fun z => by have := hf z; have := hlow (k + 1) (by omega); omega⟩
      rw [Matrix.det_isEmpty]
      decide
  · rw [swap_M, Matrix.submatrix_submatrix]
    by_cases hkk : k0 + 1 ≤ k
    · refine h.uni k κ _ ((Equiv.injective _).comp hi) (fun z => hσ _ (hE hkk) _ (hf z).1 (hf z).2) fun a h1 h2 => ?_
      have := hσ (E k) (hE hkk) a h1 h2
      obtain ⟨z, hz⟩ := hc _ this.1 this.2
      exact ⟨z, by rw [Function.comp_apply, hz, Equiv.swap_apply_self]⟩
    · have : IsEmpty κ := ⟨fun z => by have := hf z; have := hlow k hkk; omega⟩
      rw [Matrix.det_isEmpty]
      decide

theorem negStep_det (st : St r) (x : Fin r) {κ : Type} [Fintype κ] [DecidableEq κ] (f : κ → Fin r) : ((negStep st x).M.submatrix f f).det = (st.M.submatrix f f).det := by
  let v : Fin r → ℤ := fun a => if a = x then -1 else 1
  have hv : ∀ a, v a * v a = 1 := by intro a; simp only [v]; split_ifs <;> rfl
  have e2 : (negStep st x).M.submatrix f f = Matrix.diagonal (fun z => v (f z)) * st.M.submatrix f f * Matrix.diagonal (fun z => v (f z)) := by
    ext a b
    rw [Matrix.mul_diagonal, Matrix.diagonal_mul]
    simp only [Matrix.submatrix_apply, v, negStep, colNeg, rowNeg]
    split_ifs <;> ring
  rw [e2, Matrix.det_mul, Matrix.det_mul, Matrix.det_diagonal, mul_comm, ← mul_assoc, ← Finset.prod_mul_distrib]
  simp only [hv, Finset.prod_const_one, one_mul]

theorem Loc.neg {E : Nat → Nat} {d : Nat} {st : St r} (h : Loc E d st.M) (x : Fin r) : Loc E d (negStep st x).M :=
  ⟨fun k κ _ _ f hf hc => by rw [negStep_det]; exact h.pu k κ f hf hc, fun k κ _ _ f hi hf hc => by rw [negStep_det]; exact h.uni k κ f hi hf hc⟩

theorem sweep_det {M0 : Mat r} {d : Nat} {i j : Fin r} {st st' : St r} (hv : Inv M0 st) (hv' : Inv M0 st') (h1 : st.M i j = 1)
    (hP : ∀ k b, 2 * d + 2 ≤ k.val → st'.P k b = st.P k b - st.M i k * st.P j b + st.M j k * st.P i b) {κ : Type} [Fintype κ] [DecidableEq κ] (f : κ → Fin r) (hf : ∀ x, 2 * d + 2 ≤ (f x).val) :
    (st'.M.submatrix f f).det = (st.M.submatrix (Sum.elim ![i, j] f) (Sum.elim ![i, j] f)).det := by
  rw [pivot_det st.M (antisymm_diag hv.anti i) (antisymm_diag hv.anti j) h1 (by rw [hv.anti, h1])]
  congr 1
  ext x y
  rw [Matrix.submatrix_apply, Matrix.of_apply]
  exact form_after hv hv' h1 (fun b => hP _ b (hf x)) (fun b => hP _ b (hf y))

theorem Loc.sweep {E : Nat → Nat} (hE : Monotone E) {M0 : Mat r} {d k0 : Nat} {i j : Fin r} (hi : i.val = 2 * d) (hj : j.val = 2 * d + 1) {st st' : St r} (h : Loc E d st.M) (hk : E k0 ≤ 2 * d) (hjE : 2 * d + 1 < E (k0 + 1))
    (hv : Inv M0 st) (hv' : Inv M0 st') (h1 : st.M i j = 1) (hP : ∀ k b, 2 * d + 2 ≤ k.val → st'.P k b = st.P k b - st.M i k * st.P j b + st.M j k * st.P i b) : Loc E (d + 1) st'.M := by
  have hlow : ∀ k, ¬ k0 + 1 ≤ k → E k ≤ 2 * d := fun k hkk => (hE (by omega : k ≤ k0)).trans hk
  have hcov : ∀ {κ : Type} (f : κ → Fin r) (B : Nat), (∀ a : Fin r, 2 * (d + 1) ≤ a.val → a.val < B → ∃ x, f x = a) → ∀ a : Fin r, 2 * d ≤ a.val → a.val < B → ∃ x, Sum.elim ![i, j] f x = a := by
    intro κ f B hc a a1 a2
    by_cases e1 : a.val = 2 * d
    · exact ⟨Sum.inl 0, Fin.ext (by change i.val = a.val; omega)⟩
    · by_cases e2 : a.val = 2 * d + 1
      · exact ⟨Sum.inl 1, Fin.ext (by change j.val = a.val; omega)⟩
      · obtain ⟨x, hx⟩ := hc a (by omega) a2
        exact ⟨Sum.inr x, hx⟩
  have hbd : ∀ {κ : Type} (f : κ → Fin r) (B : Nat), E (k0 + 1) ≤ B → (∀ x, 2 * (d + 1) ≤ (f x).val ∧ (f x).val < B) → ∀ x, 2 * d ≤ (Sum.elim ![i, j] f x).val ∧ (Sum.elim ![i, j] f x).val < B := by
    rintro κ f B hB hf (x | x)
    · fin_cases x
      · change 2 * d ≤ i.val ∧ i.val < B
        omega
      · change 2 * d ≤ j.val ∧ j.val < B
        omega
    · have := hf x
      change 2 * d ≤ (f x).val ∧ (f x).val < B
      omega
  refine ⟨fun k κ _ _ f hf hc => ?_, fun k κ _ _ f hinj hf hc => ?_⟩
  · by_cases hkk : k0 ≤ k
    · rw [sweep_det hv hv' h1 hP f (fun x => by have := hf x; omega)]
      exact h.pu k _ _ (hbd f _ (hE (by omega)) hf) (hcov f _ hc)
    · have : IsEmpty κ := ⟨fun z => by have := hf z; have := hlow (k + 1) (by omega); omega⟩
      rw [Matrix.det_isEmpty]
      decide
  · by_cases hkk : k0 + 1 ≤ k
    · rw [sweep_det hv hv' h1 hP f (fun x => by have := hf x; omega)]
      refine h.uni k _ _ ?_ (hbd f _ (hE hkk) hf) (hcov f _ hc)
      rintro (x | x) (y | y) e
      · fin_cases x <;> fin_cases y
        · rfl
        · have := congrArg Fin.val (show i = j from e); omega
        · have := congrArg Fin.val (show j = i from e); omega
        · rfl
      · have h2 := (hf y).1
        fin_cases x
        · have := congrArg Fin.val (show i = f y from e); omega
        · have := congrArg Fin.val (show j = f y from e); omega
      · have h2 := (hf x).1
        fin_cases y
        · have := congrArg Fin.val (show f x = i from e); omega
        · have := congrArg Fin.val (show f x = j from e); omega
      · exact congrArg Sum.inr (hinj e)
    · have : IsEmpty κ := ⟨fun z => by have := hf z; have := hlow k hkk; omega⟩
      rw [Matrix.det_isEmpty]
      decide

/-- a unit in the row, in its stage -/
theorem Loc.unit {E : Nat → Nat} {d k0 : Nat} {M : Mat r} (h : Loc E d M) (ha : Antisymm M) (hk : E k0 ≤ 2 * d) {i : Fin r} (hi : i.val = 2 * d) (hiE : 2 * d < E (k0 + 1)) :
    ∃ j : Fin r, 2 * d < j.val ∧ j.val < E (k0 + 1) ∧ (M i j).natAbs = 1 := by
  classical
  let κ := {a : Fin r // 2 * d ≤ a.val ∧ a.val < E (k0 + 1)}
  have hu := h.uni (k0 + 1) κ (fun a => a.1) Subtype.val_injective (fun a => a.2) (fun a h1 h2 => ⟨⟨a, h1, h2⟩, rfl⟩)
  have hne : ∃ j : κ, M i j.1 ≠ 0 := by
    by_contra hc
    push Not at hc
    rw [Matrix.det_eq_zero_of_row_eq_zero (⟨i, by omega⟩ : κ) (fun b => hc b)] at hu
    simp at hu
  obtain ⟨⟨j, h1, h2⟩, hj⟩ := hne
  have hji : j ≠ i := by
    rintro rfl
    exact hj (antisymm_diag ha _)
  have hp := h.pu k0 (Fin 2) ![i, j] (by
    intro x
    fin_cases x
    · change 2 * d ≤ i.val ∧ i.val < E (k0 + 1); omega
    · change 2 * d ≤ j.val ∧ j.val < E (k0 + 1); omega) (fun a a1 a2 => by omega)
  rw [Matrix.det_fin_two] at hp
  simp [antisymm_diag ha] at hp
  rw [ha j i] at hp
  have : (M i j).natAbs ≤ 1 := by
    apply natAbs_le_one_of_sq
    simpa [Int.natAbs_mul] using hp
  refine ⟨j, ?_, h2, by dsimp only at hj; omega⟩
  have : j.val ≠ i.val := fun e => hji (Fin.ext e)
  omega

theorem exists_stage {E : Nat → Nat} {K : Nat} (h0 : E 0 = 0) {x : Nat} (hx : x < E K) : ∃ k, E k ≤ x ∧ x < E (k + 1) := by
  induction K with
  | zero => omega
  | succ K ih =>
    by_cases h : x < E K
    · exact ih h
    · exact ⟨K, by omega, hx⟩

theorem Loc.swapStep {E : Nat → Nat} (hE : Monotone E) {d k0 : Nat} {st st' : St r} (h : Loc E d st.M) (hk : E k0 ≤ 2 * d) {x y : Nat} (hx : 2 * d ≤ x) (hy : 2 * d ≤ y) (hx' : x < E (k0 + 1))
    (hy' : y < E (k0 + 1)) (hs : Hcp.swapStep st x y = .ok st') : Loc E d st'.M := by
  by_cases he : x = y
  · unfold Hcp.swapStep at hs
    rw [if_pos he] at hs
    obtain rfl := Res.ok.inj hs
    exact h
  · by_cases hr : x < r ∧ y < r
    · have hne : (⟨x, hr.1⟩ : Fin r) ≠ ⟨y, hr.2⟩ := fun e => he (congrArg Fin.val e)
      have e := swapStep_eq st hne
      dsimp only at e
      rw [e] at hs
      obtain rfl := Res.ok.inj hs
      exact h.swap hE hk hx hy hx' hy'
    · unfold Hcp.swapStep at hs
      rw [if_neg he, dif_neg hr] at hs
      cases hs

/-- the loop on a form with a chain of unimodular prefixes -/
theorem reduceLoop_chain (xg : XGcd) {M0 : Mat r} {E : Nat → Nat} (hE : Monotone E) (h0 : E 0 = 0) {K : Nat} (hEr : ∀ k, E k ≤ r) : ∀ (todo d : Nat) (st : St r), Fr M0 d r st → Loc E d st.M → UnitBlk d st →
    2 * (d + todo) ≤ E K →
    ∃ st', (∀ fuel, reduceLoop xg (fuel + 1) todo d r st = .ok st') ∧ Fr M0 (d + todo) r st' ∧ UnitBlk (d + todo) st'
  | 0, d, st, hfr, _, hu, _ => ⟨st, fun _ => rfl, hfr, hu⟩
  | todo + 1, d, st, hfr, hp, hu, hrk => by
    obtain ⟨k0, hk1, hk2⟩ := exists_stage h0 (show 2 * d < E K by omega)
    have hr1 := hEr (k0 + 1)
    let i : Fin r := ⟨2 * d, by omega⟩
    have hi : i.val = 2 * d := rfl
    obtain ⟨j1, b1, b2, b3⟩ := hp.unit hfr.inv.anti hk1 hi hk2
    obtain ⟨j0, g1, g2, g3, g4⟩ := findPivot_unit (len := r) hi b3 b1 j1.isLt
    have g3' : j0.val ≤ j1.val := g3
    have hj0E : j0.val < E (k0 + 1) := by omega
    let j : Fin r := ⟨2 * d + 1, by omega⟩
    have hjv : j.val = 2 * d + 1 := rfl
    obtain ⟨st2, f2, k2, pos, hjl, e, sm, hm, hn⟩ := reduceBlock_prefix' xg hfr (j := j) hi hjv g2 j0.isLt (by intro h; rw [h] at g4; simp at g4)
    have hjE : 2 * d + 1 < E (k0 + 1) := by omega
    have Gm : Loc E d sm.M := by
      unfold movePivot at hm
      split at hm
      · exact hp.swapStep hE hk1 (by omega) (by omega) hj0E hjE hm
      · obtain rfl := Res.ok.inj hm
        exact hp
    have G2 : Loc E d st2.M := by
      rw [← hn]
      split
      · exact Gm.neg _
      · exact Gm
    have h1 : st2.M i j = 1 := by
      have hpp := G2.pu k0 (Fin 2) ![i, j] (by
        intro x
        fin_cases x
        · change 2 * d ≤ i.val ∧ i.val < E (k0 + 1); omega
        · change 2 * d ≤ j.val ∧ j.val < E (k0 + 1); omega) (fun a a1 a2 => by omega)
      rw [Matrix.det_fin_two] at hpp
      simp [antisymm_diag f2.inv.anti] at hpp
      rw [f2.inv.anti j i] at hpp
      have : (st2.M i j).natAbs ≤ 1 := by
        apply natAbs_le_one_of_sq
        simpa [Int.natAbs_mul] using hpp
      omega
    obtain ⟨st', w1, w2, w3, w4, w5, w6, w7⟩ := sweep_unit xg hi hjv hjl f2 h1
    have hfr' := block_extend hi hjv hjl w2 (by rw [w4]; decide) w5
    have hp' := G2.sweep hE hi hjv hk1 hjE f2.inv w2.inv h1 w7
    have hu' : UnitBlk (d + 1) st' := by
      intro a b ha h0 hb
      by_cases ha' : a.val < 2 * d
      · rw [w3 a b ha', k2 a b ha']; exact hu a b ha' h0 hb
      · have e1 : a = i := Fin.ext (by omega)
        have e2 : b = j := Fin.ext (by omega)
        rw [e1, e2]; exact w4
    obtain ⟨s', z1, z2, z3⟩ := reduceLoop_chain xg hE h0 (K := K) hEr todo (d + 1) st' hfr' hp' hu' (by omega)
    have ed : d + 1 + todo = d + (todo + 1) := by omega
    rw [ed] at z2 z3
    refine ⟨s', fun fuel => ?_, z2, z3⟩
    unfold reduceLoop
    rw [g1, Res.ok_bind]
    dsimp only
    rw [e, w1, Res.ok_bind]
    exact z1 fuel

/-- the reduction of a form with a chain of unimodular prefixes -/
theorem reduces_chain (xg : XGcd) {M : Mat r} {g K : Nat} (ha : Antisymm M) (hrk : rankQ M = 2 * g) {E : Nat → Nat} (hE : Monotone E) (h0 : E 0 = 0) (hK : ∀ k, E k ≤ E K) (hKg : E K = 2 * g) (hg : 2 * g ≤ r)
    (hl : Loc E 0 M) :
    ∃ st : St r, (∀ fuel, 1 ≤ fuel → symplecticReduction xg fuel M g = .ok st) ∧ Unimodular st.P ∧ IsCongruence st.P M st.M ∧ st.M = stdJ r g := by
  obtain ⟨st, h1, hf, hu⟩ := reduceLoop_chain xg hE h0 (K := K) (fun k => (hK k).trans (by omega)) g 0 _ (Fr.init M ha) hl (fun a _ h => by omega) (by omega)
  rw [Nat.zero_add] at hf hu
  have hz := hf.zeroTail hrk.le
  refine ⟨st, fun fuel hfu => ?_, hf.inv.uni, hf.inv.cong, ?_⟩
  · obtain ⟨k, rfl⟩ : ∃ k, fuel = k + 1 := ⟨fuel - 1, by omega⟩
    exact h1 k
  funext a b
  unfold stdJ
  split
  · rename_i h1; exact hu a b h1.1 h1.2.1 h1.2.2
  · rename_i h1
    split
    · rename_i h2; rw [hf.inv.anti, hu b a h2.1 h2.2.1 h2.2.2]
    · rename_i h2
      by_cases ha' : a.val < 2 * g
      · by_contra hne
        have := (hf.blk a b ha').1 hne
        unfold partner at this
        split at this
        · rename_i h3; exact h1 ⟨ha', h3, this⟩
        · exact h2 ⟨by omega, by omega, by omega⟩
      · exact hz a b (by omega)

end Hcp
