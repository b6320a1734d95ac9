import Verif.Proofs.SympBasic

/-!
# Loop invariants of the symplectic reduction
-/

namespace Hcp
open Spec

variable {r : Nat}

/-- invariant of the main loop: `d` blocks done, rows from `len` on are zero -/
structure Fr (M0 : Mat r) (d len : Nat) (st : St r) : Prop where
  inv : Inv M0 st
  blk : ∀ a b : Fin r, a.val < 2 * d → (st.M a b ≠ 0 ↔ b.val = partner a.val)
  tail : ∀ a b : Fin r, len ≤ a.val → st.M a b = 0
  hd : 2 * d ≤ len
  hl : len ≤ r

/-- the finished rows are untouched -/
def Keep (d : Nat) (st st' : St r) : Prop :=
  ∀ a b : Fin r, a.val < 2 * d → st'.M a b = st.M a b

theorem Keep.refl (d : Nat) (st : St r) : Keep d st st := fun _ _ _ => rfl

theorem Keep.trans {d : Nat} {s t u : St r} (h1 : Keep d s t) (h2 : Keep d t u) : Keep d s u :=
  fun a b h => (h2 a b h).trans (h1 a b h)

theorem partner_lt {a d : Nat} (h : a < 2 * d) : partner a < 2 * d := by
  unfold partner; split <;> omega

theorem Fr.zero_out {M0 : Mat r} {d len : Nat} {st : St r} (h : Fr M0 d len st) {a b : Fin r}
    (ha : a.val < 2 * d) (hb : 2 * d ≤ b.val) : st.M a b = 0 := by
  by_contra hne
  have := (h.blk a b ha).1 hne
  have := partner_lt ha
  omega

theorem Fr.zero_out' {M0 : Mat r} {d len : Nat} {st : St r} (h : Fr M0 d len st) {a b : Fin r}
    (ha : a.val < 2 * d) (hb : 2 * d ≤ b.val) : st.M b a = 0 := by
  rw [h.inv.anti b a, h.zero_out ha hb, neg_zero]

theorem Fr.tail' {M0 : Mat r} {d len : Nat} {st : St r} (h : Fr M0 d len st) {a b : Fin r}
    (hb : len ≤ b.val) : st.M a b = 0 := by
  rw [h.inv.anti a b, h.tail b a hb, neg_zero]

theorem Fr.cong2 {M0 : Mat r} {d len : Nat} {st : St r} (h : Fr M0 d len st) {x y : Fin r} (hxy : x ≠ y)
    (hx : 2 * d ≤ x.val) (hx' : x.val < len) (hy : 2 * d ≤ y.val) (hy' : y.val < len)
    {α β γ δ D : ℤ} (hD : α * δ - β * γ = D) (hDD : D * D = 1) :
    Fr M0 d len (cong2 st x y α β γ δ) ∧ Keep d st (cong2 st x y α β γ δ) := by
  have hk : Keep d st (Hcp.cong2 st x y α β γ δ) := by
    intro a b ha
    have hax : a ≠ x := by rintro rfl; omega
    have hay : a ≠ y := by rintro rfl; omega
    by_cases hbx : b = x
    · subst hbx
      rw [cong2_col_x st hxy α β γ δ hax hay, h.zero_out ha hx, h.zero_out ha hy]; ring
    · by_cases hby : b = y
      · subst hby
        rw [cong2_col_y st α β γ δ hax hay, h.zero_out ha hx, h.zero_out ha hy]; ring
      · exact cong2_other st α β γ δ hax hay hbx hby
  refine ⟨⟨h.inv.cong2 hxy hD hDD, ?_, ?_, h.hd, h.hl⟩, hk⟩
  · intro a b ha; rw [hk a b ha]; exact h.blk a b ha
  · intro a b ha
    exact cong2_zero_row st α β γ δ (by rintro rfl; omega) (by rintro rfl; omega)
      (fun b => h.tail a b ha) b

/-! ### the Bezout coefficients -/

theorem bezout_det (xg : XGcd) {a b : ℤ} (ha : a ≠ 0) :
    (xg.run a b).2.1 * (a / (xg.run a b).1) - (xg.run a b).2.2 * (-(b / (xg.run a b).1)) = 1 := by
  have hg := xg.gcd_eq a b
  have hb := xg.bezout a b
  have hg0 : (xg.run a b).1 ≠ 0 := by
    rw [hg]; exact_mod_cast (Int.gcd_pos_of_ne_zero_left b ha).ne'
  have h1 : (xg.run a b).1 * (a / (xg.run a b).1) = a :=
    Int.mul_ediv_cancel' (by rw [hg]; exact Int.gcd_dvd_left a b)
  have h2 : (xg.run a b).1 * (b / (xg.run a b).1) = b :=
    Int.mul_ediv_cancel' (by rw [hg]; exact Int.gcd_dvd_right a b)
  apply mul_left_cancel₀ hg0
  linear_combination hb + (xg.run a b).2.1 * h1 + (xg.run a b).2.2 * h2

theorem bezout_kill (xg : XGcd) {a b : ℤ} :
    -(b / (xg.run a b).1) * a + (a / (xg.run a b).1) * b = 0 := by
  have hg := xg.gcd_eq a b
  have h1 : (xg.run a b).1 * (a / (xg.run a b).1) = a :=
    Int.mul_ediv_cancel' (by rw [hg]; exact Int.gcd_dvd_left a b)
  have h2 : (xg.run a b).1 * (b / (xg.run a b).1) = b :=
    Int.mul_ediv_cancel' (by rw [hg]; exact Int.gcd_dvd_right a b)
  have : -(b / (xg.run a b).1) * ((xg.run a b).1 * (a / (xg.run a b).1)) +
      (a / (xg.run a b).1) * ((xg.run a b).1 * (b / (xg.run a b).1)) = 0 := by ring
  rwa [h1, h2] at this

/-! ### clear row i -/

theorem clearRowI_spec (xg : XGcd) {M0 : Mat r} {d len : Nat} {i j : Fin r} (hi : i.val = 2 * d)
    (hj : j.val = 2 * d + 1) (hjl : j.val < len) :
    ∀ (ks : List (Fin r)) (st : St r), (∀ k ∈ ks, 2 * d + 2 ≤ k.val ∧ k.val < len) →
      Fr M0 d len st → st.M i j ≠ 0 →
      Fr M0 d len (clearRowI xg i j ks st) ∧ Keep d st (clearRowI xg i j ks st) ∧
      (clearRowI xg i j ks st).M i j ≠ 0 ∧
      (clearRowI xg i j ks st).M i j ∣ st.M i j ∧
      (0 < st.M i j → 0 < (clearRowI xg i j ks st).M i j) ∧
      (∀ k : Fin r, 2 * d + 2 ≤ k.val → k ∈ ks ∨ st.M i k = 0 → (clearRowI xg i j ks st).M i k = 0)
  | [], st, _, hfr, hne => by
      simp only [clearRowI]
      refine ⟨hfr, Keep.refl _ _, hne, dvd_refl _, id, ?_⟩
      intro k _ hk
      simpa using hk
  | k :: ks, st, hks, hfr, hne => by
      have hkr := hks k (by simp)
      have hks' : ∀ k ∈ ks, 2 * d + 2 ≤ k.val ∧ k.val < len := fun k' h' => hks k' (by simp [h'])
      have hij : i ≠ j := by rintro rfl; omega
      have hik : i ≠ k := by rintro rfl; omega
      have hjk : j ≠ k := by rintro rfl; omega
      unfold clearRowI
      split
      · rename_i h0
        obtain ⟨p1, p2, p3, p4, p5, p6⟩ := clearRowI_spec xg hi hj hjl ks st hks' hfr hne
        refine ⟨p1, p2, p3, p4, p5, ?_⟩
        intro k' hk' hor
        apply p6 k' hk'
        rcases hor with hm | h0'
        · rcases List.mem_cons.1 hm with rfl | hm
          · exact Or.inr h0
          · exact Or.inl hm
        · exact Or.inr h0'
      · rename_i h0
        -- common part: a two-row step on rows j,k killing entry (i,k)
        have key : ∀ st1 : St r, Fr M0 d len st1 → Keep d st st1 → st1.M i j ≠ 0 →
            st1.M i j ∣ st.M i j → (0 < st.M i j → 0 < st1.M i j) →
            st1.M i k = 0 → (∀ k' : Fin r, k' ≠ k → 2 * d + 2 ≤ k'.val → st1.M i k' = st.M i k') →
            Fr M0 d len (clearRowI xg i j ks st1) ∧ Keep d st (clearRowI xg i j ks st1) ∧
            (clearRowI xg i j ks st1).M i j ≠ 0 ∧
            (clearRowI xg i j ks st1).M i j ∣ st.M i j ∧
            (0 < st.M i j → 0 < (clearRowI xg i j ks st1).M i j) ∧
            (∀ k' : Fin r, 2 * d + 2 ≤ k'.val → k' ∈ k :: ks ∨ st.M i k' = 0 →
              (clearRowI xg i j ks st1).M i k' = 0) := by
          intro st1 f1 k1 n1 d1 s1 z1 o1
          obtain ⟨p1, p2, p3, p4, p5, p6⟩ := clearRowI_spec xg hi hj hjl ks st1 hks' f1 n1
          refine ⟨p1, k1.trans p2, p3, p4.trans d1, fun h => p5 (s1 h), ?_⟩
          intro k' hk' hor
          apply p6 k' hk'
          by_cases hkk : k' = k
          · subst hkk; exact Or.inr z1
          · rcases hor with hm | h0'
            · rcases List.mem_cons.1 hm with h | hm
              · exact absurd h hkk
              · exact Or.inl hm
            · right; rw [o1 k' hkk hk']; exact h0'
        split
        · rename_i hdvd
          rw [transvectStep_eq st (Ne.symm hjk)]
          set q := -(st.M i k / st.M i j) with hq
          obtain ⟨f1, k1⟩ := hfr.cong2 (x := k) (y := j) (Ne.symm hjk) (by omega) hkr.2 (by omega) hjl
            (α := 1) (β := q) (γ := 0) (δ := 1) (D := 1) (by ring) (by ring)
          have e1 : (cong2 st k j 1 q 0 1).M i j = st.M i j := by
            rw [cong2_col_y st 1 q 0 1 hik hij]; ring
          have e2 : (cong2 st k j 1 q 0 1).M i k = 0 := by
            rw [cong2_col_x st (Ne.symm hjk) 1 q 0 1 hik hij, hq]
            have := Int.ediv_mul_cancel hdvd
            linear_combination -this
          apply key _ f1 k1 (by rw [e1]; exact hne) (by rw [e1]) (by rw [e1]; exact id) e2
          intro k' hkk hk'
          exact cong2_other st 1 q 0 1 hik hij hkk (by rintro rfl; omega)
        · rename_i hdvd
          rw [bezoutStep_eq]
          set a := st.M i j with ha
          set b := st.M i k with hb
          obtain ⟨f1, k1⟩ := hfr.cong2 (x := j) (y := k) hjk (by omega) hjl (by omega) hkr.2
            (bezout_det xg (b := b) hne) (by ring)
          have e1 := cong2_col_x st hjk (xg.run a b).2.1 (xg.run a b).2.2
            (-(b / (xg.run a b).1)) (a / (xg.run a b).1) hij hik
          rw [← ha, ← hb, xg.bezout] at e1
          have e2 := cong2_col_y st (xg.run a b).2.1 (xg.run a b).2.2
            (-(b / (xg.run a b).1)) (a / (xg.run a b).1) hij hik
          rw [← ha, ← hb, bezout_kill] at e2
          have hgpos : 0 < (xg.run a b).1 := by
            rw [xg.gcd_eq]; exact_mod_cast Int.gcd_pos_of_ne_zero_left b hne
          apply key _ f1 k1 (by rw [e1]; exact hgpos.ne')
            (by rw [e1, xg.gcd_eq]; exact Int.gcd_dvd_left a b) (fun _ => by rw [e1]; exact hgpos) e2
          intro k' hkk hk'
          exact cong2_other st _ _ _ _ hij hik (by rintro rfl; omega) hkk

/-! ### clear row j -/

theorem clearRowJ_spec (xg : XGcd) {M0 : Mat r} {d len : Nat} {i j : Fin r} (hi : i.val = 2 * d)
    (hj : j.val = 2 * d + 1) (hjl : j.val < len) :
    ∀ (ks : List (Fin r)) (st : St r) (cl : Bool), (∀ k ∈ ks, 2 * d + 2 ≤ k.val ∧ k.val < len) →
      Fr M0 d len st → st.M i j ≠ 0 →
      Fr M0 d len (clearRowJ xg i j ks st cl).1 ∧ Keep d st (clearRowJ xg i j ks st cl).1 ∧
      (clearRowJ xg i j ks st cl).1.M i j ≠ 0 ∧
      (clearRowJ xg i j ks st cl).1.M i j ∣ st.M i j ∧
      ((clearRowJ xg i j ks st cl).2 = true → cl = true ∧
        (∀ b, (clearRowJ xg i j ks st cl).1.M i b = st.M i b) ∧
        (∀ k : Fin r, 2 * d + 2 ≤ k.val → k ∈ ks ∨ st.M j k = 0 →
          (clearRowJ xg i j ks st cl).1.M j k = 0)) ∧
      ((clearRowJ xg i j ks st cl).2 = false → cl = false ∨
        ((clearRowJ xg i j ks st cl).1.M i j).natAbs < (st.M i j).natAbs)
  | [], st, cl, _, hfr, hne => by
      simp only [clearRowJ]
      refine ⟨hfr, Keep.refl _ _, hne, dvd_refl _, ?_, fun h => Or.inl h⟩
      intro h
      refine ⟨h, by simp, ?_⟩
      intro k _ hk
      simpa using hk
  | k :: ks, st, cl, hks, hfr, hne => by
      have hkr := hks k (by simp)
      have hks' : ∀ k ∈ ks, 2 * d + 2 ≤ k.val ∧ k.val < len := fun k' h' => hks k' (by simp [h'])
      have hij : i ≠ j := by rintro rfl; omega
      have hik : i ≠ k := by rintro rfl; omega
      have hjk : j ≠ k := by rintro rfl; omega
      unfold clearRowJ
      split
      · rename_i h0
        obtain ⟨p1, p2, p3, p4, p5, p6⟩ := clearRowJ_spec xg hi hj hjl ks st cl hks' hfr hne
        refine ⟨p1, p2, p3, p4, ?_, p6⟩
        intro htrue
        obtain ⟨q1, q2, q3⟩ := p5 htrue
        refine ⟨q1, q2, ?_⟩
        intro k' hk' hor
        apply q3 k' hk'
        rcases hor with hm | h0'
        · rcases List.mem_cons.1 hm with rfl | hm
          · exact Or.inr h0
          · exact Or.inl hm
        · exact Or.inr h0'
      · rename_i h0
        split
        · rename_i hdvd
          rw [transvectStep_eq st (Ne.symm hik)]
          set q := st.M j k / st.M i j with hq
          obtain ⟨f1, k1⟩ := hfr.cong2 (x := k) (y := i) (Ne.symm hik) (by omega) hkr.2 (by omega)
            (by omega) (α := 1) (β := q) (γ := 0) (δ := 1) (D := 1) (by ring) (by ring)
          have eb : ∀ b, (cong2 st k i 1 q 0 1).M i b = st.M i b := by
            intro b
            by_cases hbk : b = k
            · subst hbk
              rw [f1.inv.anti i b, cong2_xy st (Ne.symm hik) 1 q 0 1 hfr.inv.anti, hfr.inv.anti i b]
              ring
            · by_cases hbi : b = i
              · subst hbi
                rw [antisymm_diag f1.inv.anti, antisymm_diag hfr.inv.anti]
              · rw [cong2_row_y st 1 q 0 1 hbk hbi]; ring
          have e2 : (cong2 st k i 1 q 0 1).M j k = 0 := by
            rw [cong2_col_x st (Ne.symm hik) 1 q 0 1 hjk (Ne.symm hij), hq, hfr.inv.anti j i]
            have := Int.ediv_mul_cancel hdvd
            linear_combination -this
          obtain ⟨p1, p2, p3, p4, p5, p6⟩ := clearRowJ_spec xg hi hj hjl ks _ cl hks' f1
            (by rw [eb]; exact hne)
          refine ⟨p1, k1.trans p2, p3, ?_, ?_, ?_⟩
          · rw [← eb j]; exact p4
          · intro htrue
            obtain ⟨q1, q2, q3⟩ := p5 htrue
            refine ⟨q1, fun b => (q2 b).trans (eb b), ?_⟩
            intro k' hk' hor
            apply q3 k' hk'
            by_cases hkk : k' = k
            · subst hkk; exact Or.inr e2
            · rcases hor with hm | h0'
              · rcases List.mem_cons.1 hm with h | hm
                · exact absurd h hkk
                · exact Or.inl hm
              · right
                rw [cong2_other st 1 q 0 1 hjk (Ne.symm hij) hkk (by rintro rfl; omega)]
                exact h0'
          · intro hf
            have := p6 hf
            rw [eb] at this
            exact this
        · rename_i hdvd
          rw [bezoutStep_eq]
          set a := st.M j i with ha
          set b := st.M j k with hb
          have hane : a ≠ 0 := by
            rw [ha, hfr.inv.anti j i]; exact neg_ne_zero.2 hne
          obtain ⟨f1, k1⟩ := hfr.cong2 (x := i) (y := k) hik (by omega) (by omega) (by omega) hkr.2
            (bezout_det xg (b := b) hane) (by ring)
          have e1 := cong2_col_x st hik (xg.run a b).2.1 (xg.run a b).2.2
            (-(b / (xg.run a b).1)) (a / (xg.run a b).1) (Ne.symm hij) hjk
          rw [← ha, ← hb, xg.bezout] at e1
          have hgpos : 0 < (xg.run a b).1 := by
            rw [xg.gcd_eq]; exact_mod_cast Int.gcd_pos_of_ne_zero_left b hane
          have e1' := f1.inv.anti i j
          rw [e1] at e1'
          have haij : a = - st.M i j := hfr.inv.anti j i
          have hlt : Int.natAbs (-(xg.run a b).1) < (st.M i j).natAbs := by
            rw [xg.gcd_eq, Int.natAbs_neg, Int.natAbs_natCast]
            have hle : Int.gcd a b ≤ a.natAbs :=
              Nat.le_of_dvd (Int.natAbs_pos.2 hane) (Int.gcd_dvd_natAbs_left a b)
            rw [haij, Int.natAbs_neg] at hle
            rw [haij]
            rcases lt_or_eq_of_le hle with h | h
            · exact h
            · exfalso
              apply hdvd
              have h2 : (Int.gcd (- st.M i j) b : ℤ) ∣ b := Int.gcd_dvd_right _ _
              rw [h] at h2
              exact Int.natAbs_dvd.1 h2
          obtain ⟨p1, p2, p3, p4, p5, p6⟩ := clearRowJ_spec xg hi hj hjl ks _ false hks' f1
            (by rw [e1']; exact neg_ne_zero.2 hgpos.ne')
          rw [e1'] at p4
          have hdv : -(xg.run a b).1 ∣ st.M i j := by
            rw [neg_dvd, xg.gcd_eq]
            have : (Int.gcd a b : ℤ) ∣ a := Int.gcd_dvd_left a b
            rw [haij] at this ⊢
            exact (dvd_neg.1 this)
          refine ⟨p1, k1.trans p2, p3, p4.trans hdv, ?_, ?_⟩
          · intro htrue
            have := (p5 htrue).1
            simp at this
          · intro _
            right
            refine lt_of_le_of_lt ?_ hlt
            apply Nat.le_of_dvd
            · rw [Int.natAbs_neg]; exact Int.natAbs_pos.2 hgpos.ne'
            · exact Int.natAbs_dvd_natAbs.2 p4

/-! ### the sweep -/

theorem mem_idxRange {lo hi : Nat} {k : Fin r} : k ∈ idxRange r lo hi ↔ lo ≤ k.val ∧ k.val < hi := by
  simp [idxRange]

theorem sweep_spec (xg : XGcd) {M0 : Mat r} {d len : Nat} {i j : Fin r} (hi : i.val = 2 * d)
    (hj : j.val = 2 * d + 1) (hjl : j.val < len) :
    ∀ (n : Nat) (st : St r), (st.M i j).natAbs ≤ n → Fr M0 d len st → st.M i j ≠ 0 →
      ∃ st', (∀ fuel, n < fuel → sweep xg i j (idxRange r (2 * d + 2) len) fuel st = .ok st') ∧
        Fr M0 d len st' ∧ Keep d st st' ∧ st'.M i j ≠ 0 ∧
        (∀ k : Fin r, 2 * d + 2 ≤ k.val → st'.M i k = 0 ∧ st'.M j k = 0) := by
  intro n
  induction n with
  | zero =>
    intro st hn _ hne
    exact absurd (Int.natAbs_eq_zero.1 (Nat.le_zero.1 hn)) hne
  | succ n ih =>
    intro st hn hfr hne
    have hks : ∀ k ∈ idxRange r (2 * d + 2) len, 2 * d + 2 ≤ k.val ∧ k.val < len :=
      fun k hk => mem_idxRange.1 hk
    obtain ⟨p1, p2, p3, p4, p5, p6⟩ := clearRowI_spec xg hi hj hjl _ st hks hfr hne
    obtain ⟨q1, q2, q3, q4, q5, q6⟩ := clearRowJ_spec xg hi hj hjl _ _ true hks p1 p3
    set st1 := clearRowI xg i j (idxRange r (2 * d + 2) len) st with hst1
    set res := clearRowJ xg i j (idxRange r (2 * d + 2) len) st1 true with hres
    have hrowI : ∀ k : Fin r, 2 * d + 2 ≤ k.val → st1.M i k = 0 := by
      intro k hk
      by_cases hkl : k.val < len
      · exact p6 k hk (Or.inl (mem_idxRange.2 ⟨hk, hkl⟩))
      · exact p1.tail' (by omega)
    cases hb : res.2 with
    | true =>
      obtain ⟨_, r2, r3⟩ := q5 hb
      refine ⟨res.1, ?_, q1, p2.trans q2, q3, ?_⟩
      · intro fuel hf
        obtain ⟨f, rfl⟩ : ∃ f, fuel = f + 1 := ⟨fuel - 1, by omega⟩
        unfold sweep
        dsimp only
        rw [← hst1, ← hres, hb]; rfl
      · intro k hk
        refine ⟨by rw [r2 k]; exact hrowI k hk, ?_⟩
        by_cases hkl : k.val < len
        · exact r3 k hk (Or.inl (mem_idxRange.2 ⟨hk, hkl⟩))
        · exact q1.tail' (by omega)
    | false =>
      have hlt : (res.1.M i j).natAbs < (st1.M i j).natAbs := by
        rcases q6 hb with h | h
        · simp at h
        · exact h
      have hle : (st1.M i j).natAbs ≤ (st.M i j).natAbs :=
        Nat.le_of_dvd (Int.natAbs_pos.2 hne) (Int.natAbs_dvd_natAbs.2 p4)
      obtain ⟨st', s1, s2, s3, s4, s5⟩ := ih res.1 (by omega) q1 q3
      refine ⟨st', ?_, s2, (p2.trans q2).trans s3, s4, s5⟩
      intro fuel hf
      obtain ⟨f, rfl⟩ : ∃ f, fuel = f + 1 := ⟨fuel - 1, by omega⟩
      unfold sweep
      dsimp only
      rw [← hst1, ← hres, hb]
      simp only [Bool.false_eq_true, if_false]
      exact s1 f (by omega)

/-- a sweep that succeeds in one pass keeps a positive pivot positive -/
theorem sweep_one_pos (xg : XGcd) {M0 : Mat r} {d len : Nat} {i j : Fin r} (hi : i.val = 2 * d)
    (hj : j.val = 2 * d + 1) (hjl : j.val < len) {st st' : St r} (hfr : Fr M0 d len st)
    (hpos : 0 < st.M i j) (h : sweep xg i j (idxRange r (2 * d + 2) len) 1 st = .ok st') :
    0 < st'.M i j := by
  have hks : ∀ k ∈ idxRange r (2 * d + 2) len, 2 * d + 2 ≤ k.val ∧ k.val < len :=
    fun k hk => mem_idxRange.1 hk
  obtain ⟨p1, p2, p3, p4, p5, p6⟩ := clearRowI_spec xg hi hj hjl _ st hks hfr hpos.ne'
  obtain ⟨q1, q2, q3, q4, q5, q6⟩ := clearRowJ_spec xg hi hj hjl _ _ true hks p1 p3
  unfold sweep at h
  dsimp only at h
  split at h
  · rename_i hb
    simp only [Res.ok.injEq] at h
    rw [← h, (q5 hb).2.1 j]
    exact p5 hpos
  · simp [sweep] at h

end Hcp
