import Verif.Spec.Utils
import Mathlib.Data.List.Sort
import Mathlib.Tactic.NormNum
import Mathlib.Tactic.Linarith
import Mathlib.Tactic.Ring

/-!
# C37 (order of the branch points) and C40 (error report)
-/

namespace Hcp

open Spec

theorem lexLt_trans {x y z : ℂ} (h1 : LexLt x y) (h2 : LexLt y z) : LexLt x z := by
  unfold LexLt at *
  rcases h1 with h1 | ⟨h1, h1'⟩ <;> rcases h2 with h2 | ⟨h2, h2'⟩
  · exact Or.inl (h1.trans h2)
  · exact Or.inl (h2 ▸ h1)
  · exact Or.inl (h1 ▸ h2)
  · exact Or.inr ⟨h1.trans h2, h1'.trans h2'⟩

theorem lexLt_irrefl (x : ℂ) : ¬ LexLt x x := by
  unfold LexLt
  rintro (h | ⟨_, h⟩) <;> exact lt_irrefl _ h

variable {B T : Type} {O : CmpOps B T} {R : B → ℂ → Prop} {RT : T → ℝ → Prop}

/-- on balls fine enough the comparison is the lexicographic order of the points -/
theorem cmpLex_decided (S : CmpSound O R RT) {p q : B × ℂ} (hp : R p.1 p.2) (hq : R q.1 q.2) (hd : Decided O p q) :
    cmpLex O p.1 q.1 ≤ 0 ↔ LexLt p.2 q.2 := by
  unfold cmpLex LexLt
  by_cases hre : p.2.re = q.2.re
  · have h0 : O.hasZero (O.subRe p.1 q.1) = true := S.hasZero (by have := S.subRe hp hq; rwa [hre, sub_self] at this)
    have h1 := hd.2 hre
    simp only [h0, if_true]
    cases h2 : O.pos (O.subIm p.1 q.1) with
    | true =>
      have := S.pos (S.subIm hp hq) h2
      simp only [if_true]
      constructor
      · intro h; exact absurd h (by decide)
      · rintro (h | ⟨-, h⟩) <;> linarith
    | false =>
      have := S.neg (S.subIm hp hq) h1 h2
      simp only [Bool.false_eq_true, if_false]
      exact ⟨fun _ => Or.inr ⟨hre, by linarith⟩, fun _ => by decide⟩
  · have h1 := hd.1 hre
    simp only [h1, Bool.false_eq_true, if_false]
    cases h2 : O.pos (O.subRe p.1 q.1) with
    | true =>
      have := S.pos (S.subRe hp hq) h2
      simp only [if_true]
      constructor
      · intro h; exact absurd h (by decide)
      · rintro (h | ⟨h, -⟩) <;> linarith
    | false =>
      have := S.neg (S.subRe hp hq) h1 h2
      simp only [Bool.false_eq_true, if_false]
      exact ⟨fun _ => Or.inl (by linarith), fun _ => by decide⟩

/-- **C37 (partial).** When the balls of the branch points are fine enough to separate every pair (in the sense of `Decided`), the result of
any sorting routine is the list of the points in lexicographic order: it does not depend on the sorting algorithm, nor on the
arithmetic or precision used, nor on the order in which the root finder gave the points. -/
theorem C37_reproducible_partial {B' T' : Type} {O' : CmpOps B' T'} {R' : B' → ℂ → Prop} {RT' : T' → ℝ → Prop}
    (S : CmpSound O R RT) (S' : CmpSound O' R' RT') (l s : List (B × ℂ)) (l' s' : List (B' × ℂ))
    (hl : ∀ p ∈ l, R p.1 p.2) (hl' : ∀ p ∈ l', R' p.1 p.2)
    (hd : l.Pairwise fun p q => Decided O p q ∧ Decided O q p) (hd' : l'.Pairwise fun p q => Decided O' p q ∧ Decided O' q p)
    (hpts : (l.map Prod.snd).Perm (l'.map Prod.snd))
    (hs : SortResult O l s) (hs' : SortResult O' l' s') :
    s.map Prod.snd = s'.map Prod.snd ∧ (s.map Prod.snd).Pairwise LexLt := by
  have key : ∀ {B T : Type} {O : CmpOps B T} {R : B → ℂ → Prop} {RT : T → ℝ → Prop} (_ : CmpSound O R RT) (l s : List (B × ℂ)),
      (∀ p ∈ l, R p.1 p.2) → l.Pairwise (fun p q => Decided O p q ∧ Decided O q p) → SortResult O l s →
      (s.map Prod.snd).Pairwise LexLt := by
    intro B T O R RT S l s hl hd hs
    rw [List.pairwise_map]
    have h1 : s.Pairwise fun p q => Decided O p q ∧ Decided O q p :=
      (hs.1.pairwise_iff fun {a b} h => ⟨h.2, h.1⟩).2 hd
    have h2 := h1.and hs.2
    refine h2.imp_of_mem ?_
    intro p q hp hq ⟨⟨h3, _⟩, h4⟩
    exact (cmpLex_decided S (hl p (hs.1.subset hp)) (hl q (hs.1.subset hq)) h3).1 h4
  have p1 := key S l s hl hd hs
  have p2 := key S' l' s' hl' hd' hs'
  refine ⟨?_, p1⟩
  have hperm : (s.map Prod.snd).Perm (s'.map Prod.snd) := ((hs.1.map _).trans hpts).trans (hs'.1.map _).symm
  refine hperm.eq_of_pairwise (le := LexLt) ?_ p1 p2
  intro a b _ _ h1 h2
  exact absurd (lexLt_trans h1 h2) (lexLt_irrefl a)

/-! ## Exact interval arithmetic, for the witnesses -/

/-- `acb_t` with rational midpoint and one radius -/
structure QBall where
  re : ℚ
  im : ℚ
  rad : ℚ

/-- differences computed without rounding -/
def qOps : CmpOps QBall (ℚ × ℚ) where
  subRe a b := (a.re - b.re, a.rad + b.rad)
  subIm a b := (a.im - b.im, a.rad + b.rad)
  hasZero t := decide (|t.1| ≤ t.2)
  pos t := decide (t.2 < t.1)

/-- `b` contains `z` -/
def QContains (b : QBall) (z : ℂ) : Prop := |z.re - b.re| ≤ b.rad ∧ |z.im - b.im| ≤ b.rad

theorem qOps_sound : CmpSound qOps QContains fun t v => |v - t.1| ≤ t.2 where
  subRe := by
    rintro a b x y ⟨h1, -⟩ ⟨h2, -⟩
    simp only [qOps]
    push_cast
    rw [abs_le] at *
    constructor <;> linarith [h1.1, h1.2, h2.1, h2.2]
  subIm := by
    rintro a b x y ⟨-, h1⟩ ⟨-, h2⟩
    simp only [qOps]
    push_cast
    rw [abs_le] at *
    constructor <;> linarith [h1.1, h1.2, h2.1, h2.2]
  hasZero := by
    intro t h
    simp only [qOps, decide_eq_true_eq]
    rw [zero_sub, abs_neg] at h
    exact_mod_cast h
  pos := by
    intro t v h hp
    simp only [qOps, decide_eq_true_eq] at hp
    have hp' : (t.2 : ℝ) < t.1 := by exact_mod_cast hp
    rw [abs_le] at h
    linarith [h.1]
  neg := by
    intro t v h hz hp
    simp only [qOps, decide_eq_false_iff_not, not_le, not_lt] at hz hp
    have hp' : (t.1 : ℝ) ≤ t.2 := by exact_mod_cast hp
    have hz' : (t.2 : ℝ) < |(t.1 : ℝ)| := by exact_mod_cast hz
    rw [abs_le] at h
    rcases lt_abs.1 hz' with h1 | h1 <;> linarith [h.2]

/-- Instance of C37: the points `0`, `1`, `1 + i` with radius `1/100`, given in two orders. -/
example : let l : List (QBall × ℂ) := [(⟨1, 1, 1/100⟩, 1 + Complex.I), (⟨0, 0, 1/100⟩, 0), (⟨1, 0, 1/100⟩, 1)]
    (∀ p ∈ l, QContains p.1 p.2) ∧ (l.Pairwise fun p q => Decided qOps p q ∧ Decided qOps q p) := by
  constructor
  · intro p hp
    simp only [List.mem_cons, List.not_mem_nil, or_false] at hp
    rcases hp with rfl | rfl | rfl <;> simp [QContains]
  · simp only [List.pairwise_cons, List.mem_cons, List.not_mem_nil, or_false, forall_eq_or_imp, forall_eq, Decided, qOps]
    norm_num

/-- **C37 (negation).** The comparison never returns 0, and any two balls with a common point compare smaller both ways: it is
not an order (and calling `qsort` with it is outside the C standard). -/
theorem C37_never_equal_fails (S : CmpSound O R RT) {a b : B} {z : ℂ} (ha : R a z) (hb : R b z) :
    cmpLex O a b = -1 ∧ cmpLex O b a = -1 := by
  have key : ∀ {a b : B}, R a z → R b z → cmpLex O a b = -1 := by
    intro a b ha hb
    have h1 : O.hasZero (O.subRe a b) = true := S.hasZero (by have := S.subRe ha hb; rwa [sub_self] at this)
    have h2 : O.pos (O.subIm a b) = false := by
      by_contra h
      have := S.pos (S.subIm ha hb) (by simpa using h)
      rw [sub_self] at this
      exact lt_irrefl _ this
    unfold cmpLex
    simp [h1, h2]
  exact ⟨key ha hb, key hb ha⟩

/-- **C37 (negation).** The comparison is not transitive, even on disjoint balls: `a < c`, `c < b`, `b < a`. -/
theorem C37_cycle_fails : ∃ a b c : QBall, cmpLex qOps a c = -1 ∧ cmpLex qOps c a = 1 ∧ cmpLex qOps c b = -1 ∧ cmpLex qOps b c = 1 ∧
    cmpLex qOps b a = -1 ∧ cmpLex qOps a b = 1 ∧
    (∀ z, ¬ (QContains a z ∧ QContains b z)) ∧ (∀ z, ¬ (QContains b z ∧ QContains c z)) ∧ (∀ z, ¬ (QContains a z ∧ QContains c z)) := by
  refine ⟨⟨0, 10, 1⟩, ⟨3/2, 5, 1⟩, ⟨3, 0, 1⟩, ?_, ?_, ?_, ?_, ?_, ?_, ?_, ?_, ?_⟩
  · norm_num [cmpLex, qOps, abs_le]
  · norm_num [cmpLex, qOps, abs_le]
  · norm_num [cmpLex, qOps, abs_le]
  · norm_num [cmpLex, qOps, abs_le]
  · norm_num [cmpLex, qOps, abs_le]
  · norm_num [cmpLex, qOps, abs_le]
  all_goals
    rintro z ⟨⟨h1, h2⟩, h3, h4⟩
    rw [abs_le] at h1 h2 h3 h4
    norm_num at h1 h2 h3 h4
    linarith [h1.1, h1.2, h2.1, h2.2, h3.1, h3.2, h4.1, h4.2]

/-- the balls of radius `eps` of the roots of `(2^80 x - 2^80 - 1) (x^2 - 2 x + 2)` -/
noncomputable def nearLine (eps : ℚ) : List (QBall × ℂ) :=
  [(⟨1 + 1 / 2 ^ 80, 0, eps⟩, 1 + 1 / 2 ^ 80), (⟨1, -1, eps⟩, 1 - Complex.I), (⟨1, 1, eps⟩, 1 + Complex.I)]

theorem cmpLex_q (a b : QBall) : cmpLex qOps a b = if |a.re - b.re| ≤ a.rad + b.rad then (if a.rad + b.rad < a.im - b.im then 1 else -1)
    else if a.rad + b.rad < a.re - b.re then 1 else -1 := by
  by_cases h : |a.re - b.re| ≤ a.rad + b.rad
  · simp [cmpLex, qOps, h]
  · simp [cmpLex, qOps, h]

theorem sort_three {B T : Type} {O : CmpOps B T} {x y z : B × ℂ} {l s : List (B × ℂ)}
    (h1 : cmpLex O x.1 y.1 = -1) (h2 : cmpLex O y.1 x.1 = 1) (h3 : cmpLex O y.1 z.1 = -1) (h4 : cmpLex O z.1 y.1 = 1)
    (h5 : cmpLex O x.1 z.1 = -1) (h6 : cmpLex O z.1 x.1 = 1) (hl : l.Perm [x, y, z]) : SortResult O l s ↔ s = [x, y, z] := by
  have hp : [x, y, z].Pairwise fun p q => cmpLex O p.1 q.1 ≤ 0 := by simp [h1, h3, h5]
  refine ⟨fun hs => ?_, fun h => by subst h; exact ⟨hl.symm, hp⟩⟩
  refine (hs.1.trans hl).eq_of_pairwise (le := fun p q => cmpLex O p.1 q.1 ≤ 0) ?_ hs.2 hp
  · intro a b ha hb r1 r2
    have ha := (hs.1.trans hl).subset ha
    simp only [List.mem_cons, List.not_mem_nil, or_false] at ha hb
    rcases ha with rfl | rfl | rfl <;> rcases hb with rfl | rfl | rfl <;> first | rfl | omega

/-- **C37 (negation).** The order depends on the precision: for the roots of the squarefree polynomial `(2^80 x - 2^80 - 1) (x^2 - 2 x + 2)`, every
sort with balls of radius `eps`, `2^-81 ≤ eps < 1/2`, puts the real root in the middle, and every sort with a smaller positive radius puts it last.  So the
index `1` used by the tree found at 64 bits denotes another branch point after the roots are computed again at a high precision. -/
theorem C37_precision_fails :
    (∀ p ∈ nearLine 0, ((2 ^ 80 * p.2 - 2 ^ 80 - 1) * (p.2 ^ 2 - 2 * p.2 + 2) : ℂ) = 0) ∧
    (∀ eps : ℚ, 1 / 2 ^ 81 ≤ eps → eps < 1 / 2 → ∃ t, t.map Prod.snd = [1 - Complex.I, 1 + 1 / 2 ^ 80, 1 + Complex.I] ∧
      ∀ s, SortResult qOps (nearLine eps) s ↔ s = t) ∧
    (∀ eps : ℚ, 0 ≤ eps → eps < 1 / 2 ^ 81 → ∃ t, t.map Prod.snd = [1 - Complex.I, 1 + Complex.I, 1 + 1 / 2 ^ 80] ∧
      ∀ s, SortResult qOps (nearLine eps) s ↔ s = t) := by
  refine ⟨?_, ?_, ?_⟩
  · intro p hp
    simp only [nearLine, List.mem_cons, List.not_mem_nil, or_false] at hp
    rcases hp with rfl | rfl | rfl
    · norm_num
    · rw [show ((1 - Complex.I) ^ 2 - 2 * (1 - Complex.I) + 2 : ℂ) = 0 by
        have := Complex.I_sq
        ring_nf
        rw [this]; ring]
      simp
    · rw [show ((1 + Complex.I) ^ 2 - 2 * (1 + Complex.I) + 2 : ℂ) = 0 by
        have := Complex.I_sq
        ring_nf
        rw [this]; ring]
      simp
  · intro eps h1 h2
    have h1' : (1 / 2 ^ 80 : ℚ) ≤ eps + eps := by
      have : (1 / 2 ^ 80 : ℚ) = 1 / 2 ^ 81 + 1 / 2 ^ 81 := by norm_num
      rw [this]; exact add_le_add h1 h1
    generalize hk : (1 / 2 ^ 80 : ℚ) = k at *
    have hk0 : 0 < k := by rw [← hk]; norm_num
    refine ⟨_, ?_, fun s => sort_three (B := QBall) (x := (⟨1, -1, eps⟩, 1 - Complex.I)) (y := (⟨1 + k, 0, eps⟩, 1 + 1 / 2 ^ 80)) (z := (⟨1, 1, eps⟩, 1 + Complex.I))
      ?_ ?_ ?_ ?_ ?_ ?_ (by rw [nearLine, hk]; exact List.Perm.swap _ _ _)⟩
    · rfl
    all_goals
      rw [cmpLex_q]
      simp only
      rw [if_pos (by rw [abs_le]; constructor <;> linarith)]
    · rw [if_neg (by linarith)]
    · rw [if_pos (by linarith)]
    · rw [if_neg (by linarith)]
    · rw [if_pos (by linarith)]
    · rw [if_neg (by linarith)]
    · rw [if_pos (by linarith)]
  · intro eps h0 h1
    have h1' : eps + eps < (1 / 2 ^ 80 : ℚ) := by
      have : (1 / 2 ^ 80 : ℚ) = 1 / 2 ^ 81 + 1 / 2 ^ 81 := by norm_num
      rw [this]; exact add_lt_add h1 h1
    generalize hk : (1 / 2 ^ 80 : ℚ) = k at *
    have hk0 : k ≤ 1 := by rw [← hk]; norm_num
    refine ⟨_, ?_, fun s => sort_three (B := QBall) (x := (⟨1, -1, eps⟩, 1 - Complex.I)) (y := (⟨1, 1, eps⟩, 1 + Complex.I)) (z := (⟨1 + k, 0, eps⟩, 1 + 1 / 2 ^ 80))
      ?_ ?_ ?_ ?_ ?_ ?_ (by
        rw [nearLine, hk]
        exact (List.Perm.swap _ _ _).trans (List.Perm.cons _ (List.Perm.swap _ _ _)))⟩
    · rfl
    all_goals
      rw [cmpLex_q]
      simp only
    · rw [if_pos (by rw [abs_le]; constructor <;> linarith), if_neg (by linarith)]
    · rw [if_pos (by rw [abs_le]; constructor <;> linarith), if_pos (by linarith)]
    · rw [if_neg (by rw [abs_le]; rintro ⟨_, _⟩; linarith), if_neg (by linarith)]
    · rw [if_neg (by rw [abs_le]; rintro ⟨_, _⟩; linarith), if_pos (by linarith)]
    · rw [if_neg (by rw [abs_le]; rintro ⟨_, _⟩; linarith), if_neg (by linarith)]
    · rw [if_neg (by rw [abs_le]; rintro ⟨_, _⟩; linarith), if_pos (by linarith)]

/-! ## C40 -/

section Err
variable {M : Type} [LinearOrder M]

/-- `v` is the largest radius of the entries satisfying `P`, at `(i, j)`, or no radius exceeds `zero` -/
def LargestAt (zero : M) (rad : Nat → Nat → M × M) (P : Nat → Nat → Prop) (s : M × Int × Int) : Prop :=
  (∀ i j, P i j → (rad i j).1 ≤ s.1 ∧ (rad i j).2 ≤ s.1) ∧
  ((s = (zero, -1, -1)) ∨ ∃ i j, P i j ∧ s.2 = ((i : Int), (j : Int)) ∧ (s.1 = (rad i j).1 ∨ s.1 = (rad i j).2) ∧ zero < s.1)

theorem errStep (zero : M) (rad : Nat → Nat → M × M) {P Q : Nat → Nat → Prop} {s : M × Int × Int} (i j : Nat)
    (hQ : ∀ a b, Q a b ↔ P a b ∨ a = i ∧ b = j) (hz : zero ≤ s.1) (h : LargestAt zero rad P s) :
    LargestAt zero rad Q (if max (rad i j).1 (rad i j).2 > s.1 then (max (rad i j).1 (rad i j).2, (i : Int), (j : Int)) else s) ∧
    zero ≤ (if max (rad i j).1 (rad i j).2 > s.1 then (max (rad i j).1 (rad i j).2, (i : Int), (j : Int)) else s).1 := by
  obtain ⟨h1, h2⟩ := h
  by_cases hc : max (rad i j).1 (rad i j).2 > s.1
  · rw [if_pos hc]
    refine ⟨⟨?_, Or.inr ⟨i, j, (hQ i j).2 (Or.inr ⟨rfl, rfl⟩), rfl, ?_, lt_of_le_of_lt hz hc⟩⟩, hz.trans hc.le⟩
    · intro a b hab
      rcases (hQ a b).1 hab with h | ⟨rfl, rfl⟩
      · exact ⟨(h1 a b h).1.trans hc.le, (h1 a b h).2.trans hc.le⟩
      · exact ⟨le_max_left _ _, le_max_right _ _⟩
    · rcases max_choice (rad i j).1 (rad i j).2 with h | h
      · exact Or.inl h
      · exact Or.inr h
  · rw [if_neg hc]
    refine ⟨⟨?_, ?_⟩, hz⟩
    · intro a b hab
      rcases (hQ a b).1 hab with h | ⟨rfl, rfl⟩
      · exact h1 a b h
      · exact ⟨(le_max_left _ _).trans (not_lt.1 hc), (le_max_right _ _).trans (not_lt.1 hc)⟩
    · rcases h2 with h | ⟨a, b, h3, h4⟩
      · exact Or.inl h
      · exact Or.inr ⟨a, b, (hQ a b).2 (Or.inl h3), h4⟩

theorem errRow_largest (zero : M) (rad : Nat → Nat → M × M) (i : Nat) : ∀ (cnt j : Nat) (P Q : Nat → Nat → Prop) (s : M × Int × Int),
    (∀ a b, Q a b ↔ P a b ∨ a = i ∧ j ≤ b ∧ b < j + cnt) → zero ≤ s.1 → LargestAt zero rad P s →
    LargestAt zero rad Q (errRow rad i cnt j s) ∧ zero ≤ (errRow rad i cnt j s).1
  | 0, j, P, Q, s, hQ, hz, h => by
    have : P = Q := by
      funext a b
      refine propext ⟨fun h => (hQ a b).2 (Or.inl h), fun h => ?_⟩
      rcases (hQ a b).1 h with h | ⟨_, h1, h2⟩
      · exact h
      · omega
    subst this
    exact ⟨h, hz⟩
  | cnt + 1, j, P, Q, s, hQ, hz, h => by
    obtain ⟨h1, h2⟩ := errStep zero rad (Q := fun a b => P a b ∨ a = i ∧ b = j) i j (fun _ _ => Iff.rfl) hz h
    refine errRow_largest zero rad i cnt (j + 1) _ Q _ ?_ h2 h1
    intro a b
    rw [hQ]
    constructor
    · rintro (h | ⟨rfl, h3, h4⟩)
      · exact Or.inl (Or.inl h)
      · by_cases hb : b = j
        · exact Or.inl (Or.inr ⟨rfl, hb⟩)
        · exact Or.inr ⟨rfl, by omega, by omega⟩
    · rintro ((h | ⟨rfl, rfl⟩) | ⟨rfl, h3, h4⟩)
      · exact Or.inl h
      · exact Or.inr ⟨rfl, by omega, by omega⟩
      · exact Or.inr ⟨rfl, by omega, by omega⟩

theorem errRows_largest (zero : M) (rad : Nat → Nat → M × M) (nc : Nat) : ∀ (cnt i : Nat) (P Q : Nat → Nat → Prop) (s : M × Int × Int),
    (∀ a b, Q a b ↔ P a b ∨ (i ≤ a ∧ a < i + cnt) ∧ b < nc) → zero ≤ s.1 → LargestAt zero rad P s →
    LargestAt zero rad Q (errRows rad nc cnt i s)
  | 0, i, P, Q, s, hQ, hz, h => by
    have : P = Q := by
      funext a b
      refine propext ⟨fun h => (hQ a b).2 (Or.inl h), fun h => ?_⟩
      rcases (hQ a b).1 h with h | ⟨⟨h1, h2⟩, _⟩
      · exact h
      · omega
    subst this
    exact h
  | cnt + 1, i, P, Q, s, hQ, hz, h => by
    obtain ⟨h1, h2⟩ := errRow_largest zero rad i nc 0 P (fun a b => P a b ∨ a = i ∧ b < nc) s (by intro a b; simp) hz h
    refine errRows_largest zero rad nc cnt (i + 1) _ Q _ ?_ h2 h1
    intro a b
    rw [hQ]
    constructor
    · rintro (h | ⟨⟨h3, h4⟩, h5⟩)
      · exact Or.inl (Or.inl h)
      · by_cases ha : a = i
        · exact Or.inl (Or.inr ⟨ha, h5⟩)
        · exact Or.inr ⟨⟨by omega, by omega⟩, h5⟩
    · rintro ((h | ⟨rfl, h5⟩) | ⟨⟨h3, h4⟩, h5⟩)
      · exact Or.inl h
      · exact Or.inr ⟨⟨by omega, by omega⟩, h5⟩
      · exact Or.inr ⟨⟨by omega, by omega⟩, h5⟩

/-- **C40.** For every matrix, the value printed bounds the radii of the real and imaginary parts of all entries; it is the radius of the entry
whose indices are printed, unless all radii are zero, in which case `0` and the indices `-1, -1` are printed. -/
theorem C40_error (zero : M) (rad : Nat → Nat → M × M) (nr nc : Nat) :
    let s := printError zero rad nr nc
    (∀ i < nr, ∀ j < nc, (rad i j).1 ≤ s.1 ∧ (rad i j).2 ≤ s.1) ∧
    ((∃ i < nr, ∃ j < nc, zero < (rad i j).1 ∨ zero < (rad i j).2) →
      ∃ i < nr, ∃ j < nc, s.2 = ((i : Int), (j : Int)) ∧ (s.1 = (rad i j).1 ∨ s.1 = (rad i j).2)) ∧
    ((∀ i < nr, ∀ j < nc, (rad i j).1 = zero ∧ (rad i j).2 = zero) → s = (zero, -1, -1)) := by
  have := errRows_largest zero rad nc nr 0 (fun _ _ => False) (fun a b => a < nr ∧ b < nc) (zero, -1, -1) (by intro a b; simp) le_rfl
    ⟨by simp, Or.inl rfl⟩
  obtain ⟨h1, h2⟩ := this
  refine ⟨fun i hi j hj => h1 i j ⟨hi, hj⟩, ?_, ?_⟩
  · rintro ⟨i, hi, j, hj, hpos⟩
    rcases h2 with h | ⟨a, b, ⟨ha, hb⟩, h3, h4, h5⟩
    · have := h1 i j ⟨hi, hj⟩
      rw [h] at this
      rcases hpos with hp | hp
      · exact absurd this.1 (not_le.2 hp)
      · exact absurd this.2 (not_le.2 hp)
    · exact ⟨a, ha, b, hb, h3, h4⟩
  · intro hall
    rcases h2 with h | ⟨a, b, ⟨ha, hb⟩, h3, h4, h5⟩
    · exact h
    · obtain ⟨e1, e2⟩ := hall a ha b hb
      rcases h4 with h4 | h4
      · rw [h4, e1] at h5; exact absurd h5 (lt_irrefl _)
      · rw [h4, e2] at h5; exact absurd h5 (lt_irrefl _)

end Err

/-- Instance of C40: a `2 × 2` matrix whose largest radius is that of an imaginary part. -/
example : printError (0 : Nat) (fun i j => if i = 1 ∧ j = 0 then (3, 8) else (i + j, 2)) 2 2 = (8, 1, 0) := by decide

end Hcp
