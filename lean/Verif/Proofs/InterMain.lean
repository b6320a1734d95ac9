import Verif.Proofs.Inter

/-! # The whole intersection matrix -/

namespace Hcp
open Spec

variable {W : Type}

theorem blk_iff {m1 k k' a : Nat} (ha : a < m1) :
    (k * m1 ≤ k' * m1 + a ∧ k' * m1 + a < k * m1 + m1) ↔ k' = k := by
  constructor
  · rintro ⟨h1, h2⟩
    have e : (k' * m1 + a) / m1 = k' := by
      rw [Nat.mul_comm, Nat.mul_add_div (by omega), Nat.div_eq_of_lt ha]; rfl
    have : (k' * m1 + a) / m1 = k := by
      rw [Nat.div_eq_iff (by omega)]
      constructor <;> omega
    omega
  · rintro rfl; omega

/-- `c` contains the numbers `E` on the processed pairs `P` and zero elsewhere -/
def IInv (m1 : Nat) (E : Nat → Nat → Nat → Nat → Int) (P : Nat → Nat → Prop) (c : IMat) : Prop :=
  ∀ k l a b, a < m1 → b < m1 →
    (P k l → c (k * m1 + a) (l * m1 + b) = E k l a b) ∧
    (P l k → c (k * m1 + a) (l * m1 + b) = - E l k b a) ∧
    (¬ P k l → ¬ P l k → c (k * m1 + a) (l * m1 + b) = 0)

theorem IInv.congr {m1 : Nat} {E : Nat → Nat → Nat → Nat → Int} {P Q : Nat → Nat → Prop} {c : IMat}
    (h : IInv m1 E P c) (hPQ : ∀ k l, P k l ↔ Q k l) : IInv m1 E Q c := by
  have : P = Q := by funext k l; exact propext (hPQ k l)
  rwa [← this]

theorem selfNumber_antisymm (a b : Nat) : selfNumber a b = - selfNumber b a := by
  unfold selfNumber
  split_ifs <;> omega

/-- the diagonal step -/
theorem IInv.diag {m size : Nat} {E : Nat → Nat → Nat → Nat → Int} {P : Nat → Nat → Prop} {c : IMat}
    (hm : 2 ≤ m) {k : Nat} (hE : ∀ a b, E k k a b = selfNumber a b) (h : IInv (m - 1) E P c) (hP : ¬ P k k)
    (hk : k * (m - 1) + (m - 1) ≤ size) :
    ∃ c', fillBlock size c (k * (m - 1)) (k * (m - 1)) 1 (-1) m = .ok c' ∧
      IInv (m - 1) E (fun x y => P x y ∨ (x = k ∧ y = k)) c' := by
  obtain ⟨c', h1, h2, h3⟩ := fillBlock_diag c hm hk
  refine ⟨c', h1, ?_⟩
  intro x y a b ha hb
  by_cases hxy : x = k ∧ y = k
  · obtain ⟨rfl, rfl⟩ := hxy
    have hz := (h _ _ a b ha hb).2.2 hP hP
    have := h2 a b ha hb hz
    refine ⟨fun _ => this.trans (hE a b).symm, fun _ => ?_, fun hn => absurd (Or.inr ⟨rfl, rfl⟩) hn⟩
    rw [this, hE, ← selfNumber_antisymm]
  · have hold : c' (x * (m - 1) + a) (y * (m - 1) + b) = c (x * (m - 1) + a) (y * (m - 1) + b) := by
      refine h3 _ _ ?_
      rintro ⟨g1, g2, g3, g4⟩
      exact hxy ⟨(blk_iff ha).1 ⟨g1, g2⟩, (blk_iff hb).1 ⟨g3, g4⟩⟩
    rw [hold]
    obtain ⟨i1, i2, i3⟩ := h x y a b ha hb
    refine ⟨?_, ?_, ?_⟩
    · rintro (g | g)
      · exact i1 g
      · exact absurd g hxy
    · rintro (g | g)
      · exact i2 g
      · exact absurd ⟨g.2, g.1⟩ hxy
    · intro g1 g2
      exact i3 (fun g => g1 (Or.inl g)) (fun g => g2 (Or.inl g))

/-- a step off the diagonal -/
theorem IInv.off {m size : Nat} {E : Nat → Nat → Nat → Nat → Int} {P : Nat → Nat → Prop} {c : IMat}
    (hm : 2 ≤ m) {k l : Nat} (hkl : k < l) {sp sm : Int} (hne : ¬ (m : Int) ∣ sp - sm)
    (hE : ∀ a b : Nat, E k l a b = pm m ((b : Int) - a) sp sm) (h : IInv (m - 1) E P c) (hP : ¬ P k l)
    (hP' : ¬ P l k) (hl : l * (m - 1) + (m - 1) ≤ size) :
    ∃ c', fillBlock size c (k * (m - 1)) (l * (m - 1)) sp sm m = .ok c' ∧
      IInv (m - 1) E (fun x y => P x y ∨ (x = k ∧ y = l)) c' := by
  have hmul : k * (m - 1) + (m - 1) ≤ l * (m - 1) := by
    have := Nat.mul_le_mul_right (m - 1) (show k + 1 ≤ l by omega)
    rw [Nat.add_mul, Nat.one_mul] at this; exact this
  obtain ⟨c', h1, h2, h3⟩ := fillBlock_off c hm hmul hl hne
  refine ⟨c', h1, ?_⟩
  intro x y a b ha hb
  by_cases hxy : x = k ∧ y = l
  · obtain ⟨rfl, rfl⟩ := hxy
    have := h2 a b ha hb ((h _ _ _ _ ha hb).2.2 hP hP') ((h _ _ _ _ hb ha).2.2 hP' hP)
    refine ⟨fun _ => this.1.trans (hE a b).symm, ?_, fun hn => absurd (Or.inr ⟨rfl, rfl⟩) hn⟩
    rintro (g | g)
    · exact absurd g hP'
    · omega
  · by_cases hyx : y = k ∧ x = l
    · obtain ⟨rfl, rfl⟩ := hyx
      have := h2 b a hb ha ((h _ _ _ _ hb ha).2.2 hP hP') ((h _ _ _ _ ha hb).2.2 hP' hP)
      refine ⟨?_, fun _ => ?_, fun _ hn => absurd (Or.inr ⟨rfl, rfl⟩) hn⟩
      · rintro (g | g)
        · exact absurd g hP'
        · omega
      · rw [this.2, hE]
    · have hold : c' (x * (m - 1) + a) (y * (m - 1) + b) = c (x * (m - 1) + a) (y * (m - 1) + b) := by
        refine h3 _ _ ?_ ?_
        · rintro ⟨g1, g2, g3, g4⟩
          exact hxy ⟨(blk_iff ha).1 ⟨g1, g2⟩, (blk_iff hb).1 ⟨g3, g4⟩⟩
        · rintro ⟨g1, g2, g3, g4⟩
          exact hyx ⟨(blk_iff hb).1 ⟨g1, g2⟩, (blk_iff ha).1 ⟨g3, g4⟩⟩
      rw [hold]
      obtain ⟨i1, i2, i3⟩ := h x y a b ha hb
      refine ⟨?_, ?_, ?_⟩
      · rintro (g | g)
        · exact i1 g
        · exact absurd g hxy
      · rintro (g | g)
        · exact i2 g
        · exact absurd g hyx
      · intro g1 g2
        exact i3 (fun g => g1 (Or.inl g)) (fun g => g2 (Or.inl g))

/-- end points of an edge -/
def Edge.ends (x : Edge W) : Nat × Nat := (x.a, x.b)

theorem not_dvd_one {m : Nat} (hm : 2 ≤ m) : ¬ (m : Int) ∣ 1 := by
  intro h
  have := Int.eq_zero_of_abs_lt_dvd h (by rw [abs_lt]; omega)
  omega

theorem not_dvd_neg_one {m : Nat} (hm : 2 ≤ m) : ¬ (m : Int) ∣ -1 := by
  intro h
  exact not_dvd_one hm (Int.dvd_neg.1 h)

/-- the body of the inner loop -/
theorem IInv.pair {m size : Nat} {E : Nat → Nat → Nat → Nat → Int} {P : Nat → Nat → Prop} {c : IMat}
    {o : ShiftOracle} (hm : 2 ≤ m) {k l : Nat} (hkl : k < l) {ek el : Edge W} {sab sbd : Int}
    (h1 : el.a = ek.a → o.abad k l = .ok sab) (h2 : el.a ≠ ek.a → el.a = ek.b → o.abbd k l = .ok sbd)
    (hE : ∀ a b : Nat, E k l a b = (meetOf ek.ends el.ends sab sbd (o.neg k l)).number m a b)
    (h : IInv (m - 1) E P c) (hP : ¬ P k l) (hP' : ¬ P l k) (hl : l * (m - 1) + (m - 1) ≤ size) :
    ∃ c', interPair o size m k l ek el c = .ok c' ∧
      IInv (m - 1) E (fun x y => P x y ∨ (x = k ∧ y = l)) c' := by
  unfold interPair
  by_cases ha : el.a = ek.a
  · rw [if_neg (by intro g; exact g.1 ha.symm), if_pos ha, h1 ha, Res.ok_bind]
    by_cases hn : o.neg k l = true
    · rw [if_pos hn]
      refine h.off hm hkl ?_ ?_ hP hP' hl
      · have : -sab - (-1 - sab) = 1 := by ring
        rw [this]; exact not_dvd_one hm
      · intro a b; rw [hE]; simp [meetOf, Edge.ends, ha, hn, Meet.number]
    · rw [if_neg hn]
      refine h.off hm hkl ?_ ?_ hP hP' hl
      · have : 1 - sab - -sab = 1 := by ring
        rw [this]; exact not_dvd_one hm
      · intro a b; rw [hE]; simp [meetOf, Edge.ends, ha, hn, Meet.number]
  · by_cases hb : el.a = ek.b
    · rw [if_neg (by intro g; exact g.2 hb.symm), if_neg ha, if_pos hb, h2 ha hb, Res.ok_bind]
      refine h.off hm hkl ?_ ?_ hP hP' hl
      · have : -sbd - (1 - sbd) = -1 := by ring
        rw [this]; exact not_dvd_neg_one hm
      · intro a b; rw [hE]
        have ha' : ¬ ek.b = ek.a := hb ▸ ha
        simp [meetOf, Edge.ends, hb, ha', Meet.number]
    · rw [if_pos ⟨fun g => ha g.symm, fun g => hb g.symm⟩]
      refine ⟨c, rfl, ?_⟩
      have hz : ∀ a b : Nat, E k l a b = 0 := by
        intro a b; rw [hE]; simp [meetOf, Edge.ends, ha, hb, Meet.number]
      intro x y a b ha' hb'
      obtain ⟨i1, i2, i3⟩ := h x y a b ha' hb'
      refine ⟨?_, ?_, ?_⟩
      · rintro (g | ⟨rfl, rfl⟩)
        · exact i1 g
        · rw [hz]; exact i3 hP hP'
      · rintro (g | ⟨rfl, rfl⟩)
        · exact i2 g
        · rw [hz, neg_zero]; exact i3 hP' hP
      · intro g1 g2
        exact i3 (fun g => g1 (Or.inl g)) (fun g => g2 (Or.inl g))

/-- numerical data: which calls succeed and with which values -/
structure Shifts (o : ShiftOracle) (e : List (Edge W)) (sab sbd : Nat → Nat → Int) : Prop where
  abad : ∀ k l ek el, k < l → e[k]? = some ek → e[l]? = some el → el.a = ek.a → o.abad k l = .ok (sab k l)
  abbd : ∀ k l ek el, k < l → e[k]? = some ek → e[l]? = some el → el.a ≠ ek.a → el.a = ek.b →
    o.abbd k l = .ok (sbd k l)

/-- the numbers expected at the pair of edges `k ≤ l` -/
def expect (o : ShiftOracle) (e : List (Edge W)) (sab sbd : Nat → Nat → Int) (m k l a b : Nat) : Int :=
  if k = l then selfNumber a b
  else match e[k]?, e[l]? with
    | some ek, some el => (meetOf ek.ends el.ends (sab k l) (sbd k l) (o.neg k l)).number m a b
    | _, _ => 0

theorem interRow_spec {o : ShiftOracle} {e : List (Edge W)} {sab sbd : Nat → Nat → Int}
    (hs : Shifts o e sab sbd) {m : Nat} (hm : 2 ≤ m) {k : Nat} {ek : Edge W} (hek : e[k]? = some ek) :
    ∀ (rest : List (Edge W)) (l : Nat) (c : IMat), k < l → e.drop l = rest →
      IInv (m - 1) (expect o e sab sbd m) (fun x y => x ≤ y ∧ (x < k ∨ (x = k ∧ y < l)) ∧ y < e.length) c →
      ∃ c', interRow o (e.length * (m - 1)) m k ek l rest c = .ok c' ∧
        IInv (m - 1) (expect o e sab sbd m) (fun x y => x ≤ y ∧ x < k + 1 ∧ y < e.length) c'
  | [], l, c, hkl, hd, h => by
    refine ⟨c, rfl, h.congr ?_⟩
    have : e.length ≤ l := by
      by_contra hcon
      have := congrArg List.length hd
      rw [List.length_drop] at this; simp at this; omega
    intro x y; constructor <;> intro g <;> omega
  | el :: rest, l, c, hkl, hd, h => by
    have hl : l < e.length := by
      by_contra hcon
      rw [List.drop_eq_nil_of_le (by omega)] at hd; cases hd
    have hel : e[l]? = some el := by
      have := congrArg (fun t => t[0]?) hd
      simpa using this
    have hd' : e.drop (l + 1) = rest := by
      have := congrArg List.tail hd
      simpa using this
    have hsize : l * (m - 1) + (m - 1) ≤ e.length * (m - 1) := by
      have := Nat.mul_le_mul_right (m - 1) (show l + 1 ≤ e.length by omega)
      rw [Nat.add_mul, Nat.one_mul] at this; exact this
    obtain ⟨c1, g1, g2⟩ := IInv.pair (o := o) hm hkl (ek := ek) (el := el) (hs.abad k l ek el hkl hek hel)
      (hs.abbd k l ek el hkl hek hel)
      (by intro a b; unfold expect; rw [if_neg (by omega), hek, hel])
      h (by omega) (by omega) hsize
    obtain ⟨c2, g3, g4⟩ := interRow_spec hs hm hek rest (l + 1) c1 (by omega) hd'
      (g2.congr (by intro x y; constructor <;> intro g <;> omega))
    exact ⟨c2, by rw [interRow, g1, Res.ok_bind, g3], g4⟩

theorem interLoop_spec {o : ShiftOracle} {e : List (Edge W)} {sab sbd : Nat → Nat → Int}
    (hs : Shifts o e sab sbd) {m : Nat} (hm : 2 ≤ m) :
    ∀ (rest : List (Edge W)) (k : Nat) (c : IMat), e.drop k = rest →
      IInv (m - 1) (expect o e sab sbd m) (fun x y => x ≤ y ∧ x < k ∧ y < e.length) c →
      ∃ c', interLoop o (e.length * (m - 1)) m k rest c = .ok c' ∧
        IInv (m - 1) (expect o e sab sbd m) (fun x y => x ≤ y ∧ y < e.length) c'
  | [], k, c, hd, h => by
    refine ⟨c, rfl, h.congr ?_⟩
    have : e.length ≤ k := by
      by_contra hcon
      have := congrArg List.length hd
      rw [List.length_drop] at this; simp at this; omega
    intro x y; constructor <;> intro g <;> omega
  | ek :: rest, k, c, hd, h => by
    have hk : k < e.length := by
      by_contra hcon
      rw [List.drop_eq_nil_of_le (by omega)] at hd; cases hd
    have hek : e[k]? = some ek := by
      have := congrArg (fun t => t[0]?) hd
      simpa using this
    have hd' : e.drop (k + 1) = rest := by
      have := congrArg List.tail hd
      simpa using this
    have hsize : k * (m - 1) + (m - 1) ≤ e.length * (m - 1) := by
      have := Nat.mul_le_mul_right (m - 1) (show k + 1 ≤ e.length by omega)
      rw [Nat.add_mul, Nat.one_mul] at this; exact this
    obtain ⟨c1, g1, g2⟩ := IInv.diag hm (k := k) (by intro a b; unfold expect; rw [if_pos rfl]) h (by omega) hsize
    obtain ⟨c2, g3, g4⟩ := interRow_spec hs hm hek rest (k + 1) c1 (by omega) hd'
      (g2.congr (by intro x y; constructor <;> intro g <;> omega))
    obtain ⟨c3, g5, g6⟩ := interLoop_spec hs hm rest (k + 1) c2 hd' g4
    exact ⟨c3, by rw [interLoop, g1, Res.ok_bind, g3, Res.ok_bind, g5], g6⟩

end Hcp
