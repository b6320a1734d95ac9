import Verif.Proofs.FaceStageOne
import Verif.Proofs.ChainReduce

/-!
# The intersection matrix of a tree has a chain of unimodular prefixes
-/

namespace Hcp.PlaneTree

/-- the sizes of the prefixes: before and after the junction at each edge -/
def chainE (m N k : Nat) : Nat :=
  if k < 2 * N then (if k % 2 = 0 then k / 2 * (m - 1) - (Nat.gcd m (k / 2 + 1) - 1) else k / 2 * (m - 1) + (Nat.gcd m (k / 2 + 1) - 1)) else N * (m - 1) - (Nat.gcd m (N + 1) - 1)

section
variable {m N : Nat}

theorem chainE_even {e : Nat} (he : e ≤ N) : chainE m N (2 * e) = e * (m - 1) - (Nat.gcd m (e + 1) - 1) := by
  unfold chainE
  by_cases h : e < N
  · rw [if_pos (by omega), if_pos (by omega)]
    congr 3 <;> omega
  · have : e = N := by omega
    rw [if_neg (by omega), this]

theorem chainE_odd {e : Nat} (he : e < N) : chainE m N (2 * e + 1) = e * (m - 1) + (Nat.gcd m (e + 1) - 1) := by
  unfold chainE
  rw [if_pos (by omega), if_neg (by omega)]
  have : (2 * e + 1) / 2 = e := by omega
  rw [this]

theorem chainE_end {k : Nat} (hk : 2 * N ≤ k) : chainE m N k = chainE m N (2 * N) := by
  unfold chainE
  rw [if_neg (by omega), if_neg (by omega)]

theorem chainE_zero : chainE m N 0 = 0 := by
  have := chainE_even (m := m) (Nat.zero_le N)
  rw [Nat.mul_zero, Nat.zero_mul, Nat.zero_sub] at this
  exact this

theorem gcd_facts (hm : 2 ≤ m) (e : Nat) : 1 ≤ Nat.gcd m (e + 1) ∧ Nat.gcd m (e + 1) ≤ m ∧ Nat.gcd m (e + 1) - 1 + (Nat.gcd m (e + 2) - 1) ≤ m - 1 := by
  have h1 : 0 < Nat.gcd m (e + 1) := Nat.gcd_pos_of_pos_left _ (by omega)
  have h2 : 0 < Nat.gcd m (e + 2) := Nat.gcd_pos_of_pos_left _ (by omega)
  refine ⟨h1, Nat.gcd_le_left _ (by omega), ?_⟩
  have hc : Nat.Coprime (Nat.gcd m (e + 1)) (Nat.gcd m (e + 2)) := by
    have h : Nat.Coprime (e + 1) (e + 2) := by
      rw [show e + 2 = e + 1 + 1 by omega]
      simp
    exact Nat.Coprime.coprime_dvd_left (Nat.gcd_dvd_right _ _) (Nat.Coprime.coprime_dvd_right (Nat.gcd_dvd_right _ _) h)
  have hle := Nat.le_of_dvd (by omega) (hc.mul_dvd_of_dvd_of_dvd (Nat.gcd_dvd_left m _) (Nat.gcd_dvd_left m _))
  generalize Nat.gcd m (e + 1) = a at *
  generalize Nat.gcd m (e + 2) = b at *
  obtain ⟨a, rfl⟩ : ∃ i, a = i + 1 := ⟨a - 1, by omega⟩
  obtain ⟨b, rfl⟩ : ∃ i, b = i + 1 := ⟨b - 1, by omega⟩
  have : (a + 1) * (b + 1) = a * b + a + b + 1 := by ring
  have := Nat.zero_le (a * b)
  omega

/-- a prefix ending inside an edge -/
theorem chainE_even_succ (hm : 2 ≤ m) {q : Nat} (hq : q + 1 ≤ N) : chainE m N (2 * (q + 1)) = q * (m - 1) + (m - Nat.gcd m (q + 2)) := by
  rw [chainE_even hq, Nat.add_mul, Nat.one_mul]
  have := (gcd_facts hm (q + 1)).1
  have := (gcd_facts hm (q + 1)).2.1
  have e : q + 1 + 1 = q + 2 := rfl
  rw [e] at *
  omega

theorem chainE_mono (hm : 2 ≤ m) : Monotone (chainE m N) := by
  refine monotone_nat_of_le_succ fun k => ?_
  by_cases hk : k < 2 * N
  · rcases Nat.even_or_odd' k with ⟨e, rfl | rfl⟩
    · rw [chainE_even (by omega), chainE_odd (by omega)]
      omega
    · have e1 : 2 * e + 1 + 1 = 2 * (e + 1) := by ring
      rw [chainE_odd (by omega), e1, chainE_even_succ hm (by omega)]
      have := gcd_facts hm e
      have := gcd_facts hm (e + 1)
      have e : e + 1 + 1 = e + 2 := rfl
      rw [e] at *
      omega
  · rw [chainE_end (by omega), chainE_end (k := k + 1) (by omega)]

theorem chainE_le (hm : 2 ≤ m) (k : Nat) : chainE m N k ≤ chainE m N (2 * N) := by
  by_cases hk : k ≤ 2 * N
  · exact chainE_mono hm hk
  · rw [chainE_end (by omega)]

theorem chainE_le_total : chainE m N (2 * N) ≤ N * (m - 1) := by
  rw [chainE_even le_rfl]
  omega

end

section
variable {m N r0 : Nat}

/-- edge and sheet of a loop -/
def pos (m a : Nat) : Nat × ZMod m := (a / (m - 1), ((a % (m - 1) : Nat) : ZMod m))

theorem pos_val (hm : 2 ≤ m) (a : Nat) : (pos m a).2.val = a % (m - 1) := by
  have := Nat.mod_lt a (show 0 < m - 1 by omega)
  exact ZMod.val_cast_of_lt (by omega)

theorem pos_inj (hm : 2 ≤ m) {a b : Nat} (h : pos m a = pos m b) : a = b := by
  have h1 : a / (m - 1) = b / (m - 1) := congrArg Prod.fst h
  have h2 : a % (m - 1) = b % (m - 1) := by rw [← pos_val hm, ← pos_val hm, h]
  rw [← Nat.div_add_mod a (m - 1), ← Nat.div_add_mod b (m - 1), h1, h2]

theorem pos_lt (hm : 2 ≤ m) {e t : Nat} (ht : t ≤ m - 1) (a : Nat) : a < e * (m - 1) + t ↔ (pos m a).1 < e ∨ (pos m a).1 = e ∧ (pos m a).2.val < t := by
  rw [pos_val hm]
  change _ ↔ a / (m - 1) < e ∨ a / (m - 1) = e ∧ _
  have h1 := Nat.div_add_mod a (m - 1)
  have h2 := Nat.mod_lt a (show 0 < m - 1 by omega)
  generalize a / (m - 1) = k at *
  generalize a % (m - 1) = i at *
  rcases Nat.lt_trichotomy k e with h | h | h
  · have : (k + 1) * (m - 1) ≤ e * (m - 1) := Nat.mul_le_mul_right _ h
    rw [Nat.add_mul, Nat.one_mul, Nat.mul_comm k] at this
    exact ⟨fun _ => Or.inl h, fun _ => by omega⟩
  · subst h
    rw [Nat.mul_comm k]
    exact ⟨fun g => Or.inr ⟨rfl, by omega⟩, fun g => by omega⟩
  · have : (e + 1) * (m - 1) ≤ k * (m - 1) := Nat.mul_le_mul_right _ h
    rw [Nat.add_mul, Nat.one_mul, Nat.mul_comm k] at this
    exact ⟨fun _ => by omega, fun _ => by omega⟩

variable [NeZero m]

theorem ne_neg_one {α : ZMod m} : α ≠ -1 ↔ α.val < m - 1 := by
  have h1 : (-1 : ZMod m).val = m - 1 := val_neg_one' (dvd_refl m)
  have h2 := ZMod.val_lt α
  constructor
  · intro h
    by_contra hc
    exact h (ZMod.val_injective m (by omega))
  · rintro h rfl
    omega

theorem pos_at (hm : 2 ≤ m) (k : Nat) {α : ZMod m} (h : α.val < m - 1) : pos m (k * (m - 1) + α.val) = (k, α) := by
  unfold pos
  rw [Nat.mul_comm, Nat.mul_add_div (by omega), Nat.div_eq_of_lt h, Nat.add_zero, Nat.mul_add_mod, Nat.mod_eq_of_lt h, ZMod.natCast_zmod_val]

/-- **the chain of prefixes of the matrix of a tree** -/
theorem Grows.loc {pe : Nat → PEdge} (hg : Grows pe r0 N) (hm : 2 ≤ m) {M : Mat (N * (m - 1))}
    (hM : ∀ a b, M a b = Ent pe (pos m a.val).1 (pos m b.val).1 ((pos m b.val).2 - (pos m a.val).2)) : Loc (chainE m N) 0 M := by
  -- the loops of a family
  have hdet : ∀ {κ : Type} [Fintype κ] [DecidableEq κ] (f : κ → Fin (N * (m - 1))), M.submatrix f f = Matrix.of fun i j => Ent pe ((fun x => pos m (f x).val) i).1 ((fun x => pos m (f x).val) j).1 (((fun x => pos m (f x).val) j).2 - ((fun x => pos m (f x).val) i).2) := by
    intro κ _ _ f
    ext i j
    exact hM _ _
  have hinj : ∀ {κ : Type} {f : κ → Fin (N * (m - 1))}, Function.Injective f → Function.Injective fun x => pos m (f x).val :=
    fun hf i j hij => hf (Fin.ext (pos_inj hm hij))
  have hcov : ∀ {κ : Type} {f : κ → Fin (N * (m - 1))} {B : Nat}, B ≤ N * (m - 1) → (∀ a : Fin (N * (m - 1)), 2 * 0 ≤ a.val → a.val < B → ∃ x, f x = a) → ∀ (k : Nat) (α : ZMod m), α.val < m - 1 → k * (m - 1) + α.val < B → ∃ x, pos m (f x).val = (k, α) := by
    intro κ f B hB h k α hα hlt
    obtain ⟨x, hx⟩ := h ⟨k * (m - 1) + α.val, by omega⟩ (by omega) hlt
    exact ⟨x, by rw [hx]; exact pos_at hm k hα⟩
  have hsheet : ∀ {κ : Type} {f : κ → Fin (N * (m - 1))} (x : κ), (pos m (f x).val).2.val < m - 1 := by
    intro κ f x
    rw [pos_val hm]
    exact Nat.mod_lt _ (by omega)
  have hB : ∀ k, chainE m N k ≤ N * (m - 1) := fun k => (chainE_le hm k).trans chainE_le_total
  have hempty : ∀ {κ : Type} [Fintype κ] [DecidableEq κ] (f : κ → Fin (N * (m - 1))), IsEmpty κ → (M.submatrix f f).det = 1 := by
    intro κ _ _ f h
    exact Matrix.det_isEmpty
  have huni : LocUni (chainE m N) 0 M := by
    intro k κ _ _ f hf h1 h2
    -- beyond the end
    wlog hk : k ≤ 2 * N generalizing k
    · refine this (2 * N) ?_ ?_ le_rfl
      · intro x
        rw [← chainE_end (k := k) (by omega)]
        exact h1 x
      · intro a ha hlt
        exact h2 a ha (by rw [chainE_end (by omega)]; exact hlt)
    rcases Nat.even_or_odd' k with ⟨e, rfl | rfl⟩
    · rcases e with _ | q
      · have : IsEmpty κ := ⟨fun x => by have := (h1 x).2; rw [Nat.mul_zero, chainE_zero] at this; omega⟩
        rw [hempty f this]
        rfl
      · have hgf := gcd_facts hm (q + 1)
        have e2 : q + 1 + 1 = q + 2 := rfl
        rw [e2] at hgf
        have : NeZero (Nat.gcd m (q + 2)) := ⟨by omega⟩
        have hd : Nat.gcd m (q + 2) ∣ m := Nat.gcd_dvd_left _ _
        rw [chainE_even_succ hm (by omega)] at h1 h2
        have hlt : ∀ x, (pos m (f x).val).1 < q ∨ (pos m (f x).val).1 = q ∧ (pos m (f x).val).2.val < m - Nat.gcd m (q + 2) := fun x => (pos_lt hm (by omega) _).1 (h1 x).2
        rw [hdet f]
        refine det_one_of (N := q + 1) (hinj hf) (fun x => by have := hlt x; omega) fun p _ hhas => ?_
        refine (hg.mono (show q + 1 ≤ N by omega)).prefix_even hd rfl (hhas.congr fun k hk α => ?_)
        have hbd := hB (2 * (q + 1))
        rw [chainE_even_succ hm (by omega)] at hbd
        constructor
        · rintro ⟨x, hx⟩
          have h3 := hlt x
          have h4 := hsheet (f := f) x
          rw [hx] at h3 h4
          dsimp only at h3 h4
          split_ifs with hkq
          · omega
          · exact ne_neg_one.2 h4
        · intro h
          split_ifs at h with hkq
          · subst hkq
            exact hcov hbd h2 k α (by omega) (by omega)
          · have h3 := ne_neg_one.1 h
            refine hcov hbd h2 k α h3 ?_
            rw [pos_lt hm (by omega), pos_at hm k h3]
            exact Or.inl (by dsimp only; omega)
    · rcases e with _ | q
      · have : IsEmpty κ := ⟨fun x => by
          have := (h1 x).2
          rw [chainE_odd (by omega), Nat.zero_add, Nat.gcd_one_right] at this
          omega⟩
        rw [hempty f this]
        rfl
      · have hgf := gcd_facts hm (q + 1)
        have e2 : q + 1 + 1 = q + 2 := rfl
        rw [e2] at hgf
        have : NeZero (Nat.gcd m (q + 2)) := ⟨by omega⟩
        have hd : Nat.gcd m (q + 2) ∣ m := Nat.gcd_dvd_left _ _
        have hbd := hB (2 * (q + 1) + 1)
        rw [chainE_odd (by omega)] at h1 h2 hbd
        have hlt : ∀ x, (pos m (f x).val).1 < q + 1 ∨ (pos m (f x).val).1 = q + 1 ∧ (pos m (f x).val).2.val < Nat.gcd m (q + 2) - 1 := fun x => (pos_lt hm (by omega) _).1 (h1 x).2
        rw [hdet f]
        refine det_one_of (N := q + 2) (hinj hf) (fun x => by have := hlt x; omega) fun p _ hhas => ?_
        refine (hg.mono (show q + 2 ≤ N by omega)).prefix_odd hd rfl (hhas.congr fun k hk α => ?_)
        constructor
        · rintro ⟨x, hx⟩
          have h3 := hlt x
          have h4 := hsheet (f := f) x
          rw [hx] at h3 h4
          dsimp only at h3 h4
          split_ifs with hkq
          · omega
          · exact ne_neg_one.2 h4
        · intro h
          split_ifs at h with hkq
          · subst hkq
            exact hcov hbd h2 (q + 1) α (by omega) (by rw [e2]; omega)
          · have h3 := ne_neg_one.1 h
            refine hcov hbd h2 k α h3 ?_
            rw [pos_lt hm (by rw [e2]; omega), pos_at hm k h3]
            exact Or.inl (by dsimp only; omega)
  refine ⟨?_, huni⟩
  intro k κ _ _ f h1 h2
  by_cases hf : Function.Injective f
  swap
  · obtain ⟨i, j, hij, hne⟩ := Function.not_injective_iff.1 hf
    rw [Matrix.det_zero_of_row_eq hne (by funext k; simp only [Matrix.submatrix_apply, hij])]
    decide
  by_cases hk : 2 * N ≤ k
  · rw [chainE_end (k := k + 1) (by omega), ← chainE_end hk] at h1
    exact (huni k κ f hf h1 h2).le
  rcases Nat.even_or_odd' k with ⟨e, rfl | rfl⟩
  · rcases e with _ | q
    · have : IsEmpty κ := ⟨fun x => by
        have := (h1 x).2
        rw [chainE_odd (by omega), Nat.zero_add, Nat.gcd_one_right] at this
        omega⟩
      rw [hempty f this]
      decide
    · have hgf := gcd_facts hm (q + 1)
      have e2 : q + 1 + 1 = q + 2 := rfl
      rw [e2] at hgf
      have : NeZero (Nat.gcd m (q + 2)) := ⟨by omega⟩
      have hd : Nat.gcd m (q + 2) ∣ m := Nat.gcd_dvd_left _ _
      have hbd := hB (2 * (q + 1))
      rw [chainE_even_succ hm (by omega)] at h2 hbd
      rw [chainE_odd (by omega)] at h1
      have hlt : ∀ x, (pos m (f x).val).1 < q + 1 ∨ (pos m (f x).val).1 = q + 1 ∧ (pos m (f x).val).2.val < Nat.gcd m (q + 2) - 1 := fun x => (pos_lt hm (by omega) _).1 (h1 x).2
      rw [hdet f]
      refine det_le_of (N := q + 2) (hinj hf) (fun x => by have := hlt x; omega) fun p _ hhas => ?_
      have hiff : ∀ k < q + 2, ∀ α : ZMod m, (∃ x, pos m (f x).val = (k, α)) ↔ junction hd q (fun s => ∃ x, pos m (f x).val = (q, hi m s)) (fun α => ∃ x, pos m (f x).val = (q + 1, α)) k α := by
        intro k hk α
        unfold junction
        split_ifs with c1 c2
        · rw [c1]
        · subst c2
          constructor
          · intro h
            by_cases hα : α.val < m - Nat.gcd m (k + 2)
            · exact Or.inl hα
            · right
              beta_reduce
              rw [hi_of_le hd (not_lt.1 hα)]
              exact h
          · rintro (h | h)
            · exact hcov hbd h2 k α (by omega) (by omega)
            · by_cases hα : α.val < m - Nat.gcd m (k + 2)
              · exact hcov hbd h2 k α (by omega) (by omega)
              · rwa [hi_of_le hd (not_lt.1 hα)] at h
        · rw [ne_neg_one]
          constructor
          · rintro ⟨x, hx⟩
            have h4 := hsheet (f := f) x
            rwa [hx] at h4
          · intro h3
            refine hcov hbd h2 k α h3 ?_
            rw [pos_lt hm (by omega), pos_at hm k h3]
            exact Or.inl (by dsimp only; omega)
      refine Has.congr (fun k hk α => (hiff k hk α).symm) ((hg.mono (show q + 2 ≤ N by omega)).stage_one hd rfl ?_ ?_ (hhas.congr hiff))
      · rintro ⟨x, hx⟩
        rw [hi_neg_one hd] at hx
        have h4 := hsheet (f := f) x
        rw [hx] at h4
        exact ne_neg_one.2 h4 rfl
      · rintro α ⟨x, hx⟩
        have h3 := hlt x
        rw [hx] at h3
        dsimp only at h3
        omega
  · have hgf := gcd_facts hm e
    have hgf' := gcd_facts hm (e + 1)
    have e2 : e + 1 + 1 = e + 2 := rfl
    rw [e2] at hgf'
    have e1 : 2 * e + 1 + 1 = 2 * (e + 1) := by ring
    have hbd := hB (2 * e + 1)
    rw [chainE_odd (by omega)] at h2 hbd
    rw [e1, chainE_even_succ hm (by omega)] at h1
    have hlt : ∀ x, (pos m (f x).val).1 < e ∨ (pos m (f x).val).1 = e ∧ (pos m (f x).val).2.val < m - Nat.gcd m (e + 2) := fun x => (pos_lt hm (by omega) _).1 (h1 x).2
    rw [hdet f]
    refine det_le_of (N := e + 1) (hinj hf) (fun x => by have := hlt x; omega) fun p _ hhas => ?_
    have hiff : ∀ k < e + 1, ∀ α : ZMod m, (∃ x, pos m (f x).val = (k, α)) ↔ if k = e then (∃ x, pos m (f x).val = (e, α)) else α ≠ -1 := by
      intro k hk α
      split_ifs with c1
      · rw [c1]
      · rw [ne_neg_one]
        constructor
        · rintro ⟨x, hx⟩
          have h4 := hsheet (f := f) x
          rwa [hx] at h4
        · intro h3
          refine hcov hbd h2 k α h3 ?_
          rw [pos_lt hm (by omega), pos_at hm k h3]
          exact Or.inl (by dsimp only; omega)
    refine Has.congr (fun k hk α => (hiff k hk α).symm) ((hg.mono (show e + 1 ≤ N by omega)).stage_two (U := fun α => ∃ x, pos m (f x).val = (e, α)) ?_ (hhas.congr hiff))
    rintro ⟨x, hx⟩
    have h4 := hsheet (f := f) x
    rw [hx] at h4
    exact ne_neg_one.2 h4 rfl

end

end Hcp.PlaneTree
