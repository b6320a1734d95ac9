import Verif.Proofs.SympOutcome
import Mathlib.Data.Fin.VecNotation

/-!
# C04–C08, C39: symplectic reduction
-/

namespace Hcp
open Spec

variable {r : Nat}

/-- `symplectic_reduction` returns `(p, m)` (for every sufficiently large number
of allowed passes, hence terminates without undefined behaviour). -/
def Reduces (xg : XGcd) (M : Mat r) (g : Nat) (st : St r) : Prop :=
  ∃ N, ∀ fuel, N ≤ fuel → symplecticReduction xg fuel M g = .ok st

/-- **C04 (termination and safety).** For every antisymmetric integer matrix of rank at least
`2g` and every extended gcd, the reduction terminates normally. -/
theorem C04_terminates (xg : XGcd) (M : Mat r) (g : Nat) (ha : Antisymm M) (hr : 2 * g ≤ rankQ M) :
    ∃ st, Reduces xg M g st := by
  obtain ⟨st, N, len, h, _, _⟩ := reduceLoop_spec xg g 0 r _ (Fr.init M ha) (by omega)
  exact ⟨st, N, h⟩

theorem Reduces.fr {xg : XGcd} {M : Mat r} {g : Nat} {st : St r} (ha : Antisymm M)
    (hr : 2 * g ≤ rankQ M) {fuel : Nat} (h : symplecticReduction xg fuel M g = .ok st) :
    ∃ len, Fr M g len st := by
  obtain ⟨st', N, len, h', hf, _⟩ := reduceLoop_spec xg g 0 r _ (Fr.init M ha) (by omega)
  have h1 := reduceLoop_mono xg (Nat.le_max_left fuel N) h
  rw [h' _ (Nat.le_max_right fuel N)] at h1
  simp only [Res.ok.injEq] at h1
  subst h1
  rw [Nat.zero_add] at hf
  exact ⟨len, hf⟩

/-- **C04 (congruence).** The base change is unimodular and the output matrix is
the congruence transform of the input; the output is antisymmetric. -/
theorem C04_unimodular_congruence {xg : XGcd} {M : Mat r} {g fuel : Nat} {st : St r} (ha : Antisymm M)
    (hr : 2 * g ≤ rankQ M) (h : symplecticReduction xg fuel M g = .ok st) :
    Unimodular st.P ∧ IsCongruence st.P M st.M ∧ Antisymm st.M := by
  obtain ⟨len, hf⟩ := Reduces.fr ha hr h
  exact ⟨hf.inv.uni, hf.inv.cong, hf.inv.anti⟩

/-- **C05.** The output has `g` non-degenerate hyperbolic blocks, and nothing else when
the rank is exactly `2g`. -/
theorem C05_block_form {xg : XGcd} {M : Mat r} {g fuel : Nat} {st : St r} (ha : Antisymm M)
    (hr : 2 * g ≤ rankQ M) (h : symplecticReduction xg fuel M g = .ok st) :
    BlockForm g st.M ∧ (rankQ M = 2 * g → ZeroTail g st.M) := by
  obtain ⟨len, hf⟩ := Reduces.fr ha hr h
  exact ⟨hf.blockForm, fun e => hf.zeroTail e.le⟩

/-- **C06 (partial).** When no block needs a second pass (in particular when all
pivots are units), every block is positively oriented.  The full property
(orientation for every input) is false: `C06_orientation_fails`. -/
theorem C06_orientation_partial {xg : XGcd} {M : Mat r} {g : Nat} {st : St r} (ha : Antisymm M)
    (hr : 2 * g ≤ rankQ M) (h : symplecticReduction xg 1 M g = .ok st) :
    ∀ a b : Fin r, a.val < 2 * g → a.val % 2 = 0 → b.val = a.val + 1 → 0 < st.M a b := by
  have := reduceLoop_one_pos xg g 0 r _ st (Fr.init M ha) (by intro a b h; omega) (by omega) h
  rw [Nat.zero_add] at this
  exact this

/-- the matrix of the counterexample to C06 -/
def orientWitness : Mat 3 := ![![0, 2, 0], ![-2, 0, 3], ![0, -3, 0]]

theorem orientWitness_antisymm : Antisymm orientWitness := by
  intro a b
  fin_cases a <;> fin_cases b <;> rfl

theorem orientWitness_rank : 2 * 1 ≤ rankQ orientWitness := by
  have hli : LinearIndependent ℚ
      ((orientWitness.map (Int.cast : ℤ → ℚ)).submatrix (![0, 1] : Fin 2 → Fin 3) id).row := by
    rw [Fintype.linearIndependent_iff]
    intro c hc
    have h0 := congrFun hc 0
    have h1 := congrFun hc 1
    rw [Fin.sum_univ_two] at h0 h1
    have h0' : c 0 * ((0 : ℤ) : ℚ) + c 1 * ((-2 : ℤ) : ℚ) = 0 := h0
    have h1' : c 0 * ((2 : ℤ) : ℚ) + c 1 * ((0 : ℤ) : ℚ) = 0 := h1
    norm_num at h0' h1'
    intro i
    fin_cases i
    · exact h1'
    · exact h0'
  have h1 := hli.rank_matrix
  have h2 := Matrix.rank_submatrix_le (orientWitness.map (Int.cast : ℤ → ℚ)) (![0, 1] : Fin 2 → Fin 3) id
  rw [h1] at h2
  simpa [rankQ] using h2

/-- **C06 (negation).** An antisymmetric integer matrix of rank 2 on which the reduction, whatever the
extended gcd, returns a negatively oriented block. -/
theorem C06_orientation_fails :
    ∃ M : Mat 3, Antisymm M ∧ 2 * 1 ≤ rankQ M ∧
      ∀ xg : XGcd, ∃ st, Reduces xg M 1 st ∧ st.M 0 1 < 0 := by
  refine ⟨orientWitness, orientWitness_antisymm, orientWitness_rank, ?_⟩
  · intro xg
    have hanti := orientWitness_antisymm
    let st0 : St 3 := ⟨1, orientWitness⟩
    let g := (xg.run (-2) 3).1
    let st1 : St 3 := cong2 st0 0 2 (xg.run (-2) 3).2.1 (xg.run (-2) 3).2.2 (-(3 / g)) (-2 / g)
    have hg : g = 1 := by simp only [g]; rw [xg.gcd_eq]; decide
    have hdet := bezout_det xg (a := -2) (b := 3) (by decide)
    have hinv : Inv orientWitness st1 := (Fr.init _ hanti).inv.cong2 (by decide) hdet (by ring)
    have e02 : st1.M 0 2 = 0 := by
      rw [cong2_xy st0 (by decide) _ _ _ _ hanti, hdet]; decide
    have e10 : st1.M 1 0 = 1 := by
      rw [cong2_col_x st0 (by decide) _ _ _ _ (by decide) (by decide)]
      have h1 : st0.M 1 0 = -2 := rfl
      have h2 : st0.M 1 2 = 3 := rfl
      rw [h1, h2, xg.bezout]; exact hg
    have e12 : st1.M 1 2 = 0 := by
      rw [cong2_col_y st0 _ _ _ _ (by decide) (by decide)]
      have h1 : st0.M 1 0 = -2 := rfl
      have h2 : st0.M 1 2 = 3 := rfl
      rw [h1, h2]; exact bezout_kill xg
    have e01 : st1.M 0 1 = -1 := by rw [hinv.anti, e10]
    refine ⟨st1, ⟨2, ?_⟩, by rw [e01]; decide⟩
    intro fuel hf
    obtain ⟨f, rfl⟩ : ∃ f, fuel = f + 2 := ⟨fuel - 2, by omega⟩
    have p1 : symplecticReduction xg (f + 2) orientWitness 1 =
        (sweep xg 0 1 [2] (f + 2) st0 >>= fun s => .ok s) := rfl
    have p2 : sweep xg (0 : Fin 3) 1 [2] (f + 2) st0 = sweep xg 0 1 [2] (f + 1) st1 := by
      have q1 : clearRowI xg (0 : Fin 3) 1 [2] st0 = st0 := rfl
      have q2 : clearRowJ xg (0 : Fin 3) 1 [2] st0 true = (st1, false) := by
        unfold clearRowJ clearRowJ
        have n1 : ¬ st0.M 1 2 = 0 := by change ¬ (3 : ℤ) = 0; decide
        have n2 : ¬ st0.M 0 1 ∣ st0.M 1 2 := by change ¬ (2 : ℤ) ∣ 3; decide
        rw [if_neg n1, if_neg n2]
        rfl
      rw [sweep]
      simp only [q1, q2]
      rfl
    have p3 : sweep xg (0 : Fin 3) 1 [2] (f + 1) st1 = .ok st1 := by
      have q1 : clearRowI xg (0 : Fin 3) 1 [2] st1 = st1 := by
        unfold clearRowI clearRowI
        rw [if_pos e02]
      have q2 : clearRowJ xg (0 : Fin 3) 1 [2] st1 true = (st1, true) := by
        unfold clearRowJ clearRowJ
        rw [if_pos e12]
      rw [sweep]
      simp only [q1, q2]
      rfl
    rw [p1, p2, p3]; rfl

/-- **C07.** If the input is unimodularly congruent to `J_g ⊕ 0`, the reduction terminates,
every block is `± [[0,1],[-1,0]]` and the rest is zero. -/
theorem C07_blocks_are_units (xg : XGcd) {U : Mat r} {g : Nat} (hU : Unimodular U) (hg : 2 * g ≤ r)
    {M : Mat r} (hM : IsCongruence U (stdJ r g) M) :
    ∃ st, Reduces xg M g st ∧ Unimodular st.P ∧ IsCongruence st.P M st.M ∧
      ∀ a b : Fin r, (a.val < 2 * g ∧ b.val = partner a.val → (st.M a b).natAbs = 1) ∧
        (¬ (a.val < 2 * g ∧ b.val = partner a.val) → st.M a b = 0) := by
  have hanti : Antisymm M := by
    rw [antisymm_iff, hM, Matrix.transpose_mul, Matrix.transpose_mul, Matrix.transpose_transpose,
      antisymm_iff.1 (stdJ_antisymm r g)]
    simp [Matrix.mul_assoc]
  have hrk : rankQ M = 2 * g := by
    rw [rankQ_cong hU hM]
    exact le_antisymm (rankQ_le_of_zeroTail (stdJ_zeroTail r g)) (blockForm_rank_ge (stdJ_blockForm hg))
  obtain ⟨st, N, len, h, hf, _⟩ := reduceLoop_spec xg g 0 r _ (Fr.init M hanti) (by omega)
  rw [Nat.zero_add] at hf
  have hsat : Saturated st.M := ((stdJ_saturated hg).cong hU hM).cong hf.inv.uni hf.inv.cong
  refine ⟨st, ⟨N, h⟩, hf.inv.uni, hf.inv.cong, fun a b => ⟨?_, ?_⟩⟩
  · rintro ⟨h1, h2⟩
    exact saturated_unit hf.blockForm hf.inv.anti hsat h1 h2
  · intro hn
    by_cases ha : a.val < 2 * g
    · by_contra hne
      exact hn ⟨ha, (hf.blk a b ha).1 hne⟩
    · exact hf.zeroTail hrk.le a b (by omega)

/-- **C08 (partial).** Outcome for every antisymmetric matrix and every `g`: either a
unimodular congruence with `min(2g, rank)/2` blocks, or undefined behaviour, the latter only
when the rank is smaller than `2g`. -/
theorem C08_outcome_partial (xg : XGcd) (M : Mat r) (g : Nat) (ha : Antisymm M) :
    ∃ N, ∀ fuel, N ≤ fuel →
      (∃ st h, symplecticReduction xg fuel M g = .ok st ∧ Unimodular st.P ∧ IsCongruence st.P M st.M ∧
        BlockForm h st.M ∧ 2 * h = min (2 * g) (rankQ M) ∧ (rankQ M ≤ 2 * g → ZeroTail h st.M)) ∨
      ((symplecticReduction xg fuel M g).isUb ∧ rankQ M < 2 * g) := by
  obtain ⟨N, h⟩ := reduceLoop_outcome xg g 0 r _ (Fr.init M ha)
  refine ⟨N, fun fuel hf => ?_⟩
  rcases h fuel hf with ⟨st, d, len, h1, h2, h3⟩ | ⟨h1, h2⟩
  · left
    have hge : 2 * d ≤ rankQ M := by
      rw [← rankQ_cong h2.inv.uni h2.inv.cong]; exact blockForm_rank_ge h2.blockForm
    rcases h3 with rfl | ⟨h3, rfl⟩
    · refine ⟨st, 0 + g, h1, h2.inv.uni, h2.inv.cong, h2.blockForm, by omega, ?_⟩
      intro hle; exact h2.zeroTail (by omega)
    · have hle := h2.rank_le
      exact ⟨st, d, h1, h2.inv.uni, h2.inv.cong, h2.blockForm, by omega, fun _ => h2.zeroTail hle⟩
  · right
    rw [Nat.zero_add] at h2
    exact ⟨h1, h2⟩

/-- **C08 (negation).** A `4 × 4` antisymmetric matrix (rank 2) on which
`symplectic_reduction(p, m, 2)` accesses row `-1`. -/
theorem C08_out_of_range :
    ∃ M : Mat 4, Antisymm M ∧ ∀ (xg : XGcd) (fuel : Nat), 1 ≤ fuel →
      (symplecticReduction xg fuel M 2).isUb := by
  refine ⟨![![0, 0, 0, 0], ![0, 0, 1, 0], ![0, -1, 0, 0], ![0, 0, 0, 0]], by unfold Antisymm; decide, ?_⟩
  intro xg fuel hf
  obtain ⟨f, rfl⟩ : ∃ f, fuel = f + 1 := ⟨fuel - 1, by omega⟩
  have : symplecticReduction xg (f + 1)
      (![![0, 0, 0, 0], ![0, 0, 1, 0], ![0, -1, 0, 0], ![0, 0, 0, 0]] : Mat 4) 2
      = .ub "swap_step: row index -1" := rfl
  rw [this]; trivial

/-- **C39.** `is_symplectic_j(m, g, g2)` (with indices in range) returns normally, and returns true
exactly when each of the first `2g` rows vanishes on the first `g2` columns outside its
partner, and partner entries are opposite. -/
theorem C39_checker_exact (M : Mat r) {g g2 : Nat} (hg : 2 * g ≤ r) (hg2 : g2 ≤ r) :
    ∃ v, isSymplecticJ M g g2 = .ok v ∧
      (v = true ↔ ∀ a b : Fin r, a.val < 2 * g →
        ((b.val < g2 → b.val ≠ partner a.val → M a b = 0) ∧
         (b.val = partner a.val → M a b = - M b a))) := by
  obtain ⟨v, h1, h2⟩ := isSympGo_iff M hg2 g 0 (by omega)
  refine ⟨v, h1, h2.trans ?_⟩
  constructor
  · intro h a b ha; exact h a b (by omega) (by omega)
  · intro h a b _ ha; exact h a b (by omega)

/-- **C39 (the checker does not check units).** It accepts the zero matrix. -/
theorem C39_accepts_zero {g : Nat} (hg : 2 * g ≤ r) : isSymplecticJ (0 : Mat r) g (2 * g) = .ok true := by
  obtain ⟨v, h1, h2⟩ := C39_checker_exact (0 : Mat r) hg hg
  rw [h1, h2.2]
  intro a b _
  simp

/-! ### the hypotheses are met: a `5 × 5` matrix of rank 4 needing two passes -/

/-- non-trivial instance used in the examples -/
def exampleM : Mat 3 := orientWitness

example : Antisymm exampleM ∧ 2 * 1 ≤ rankQ exampleM := ⟨orientWitness_antisymm, orientWitness_rank⟩

example : IsCongruence (1 : Mat 6) (stdJ 6 2) (stdJ 6 2) ∧ Unimodular (1 : Mat 6) :=
  ⟨by simp [IsCongruence], ⟨1, by simp⟩⟩

example : ∃ st, symplecticReduction XGcd.std 1 (stdJ 6 2) 2 = .ok st := ⟨_, rfl⟩

end Hcp
