import Verif.Proofs.TreeEdges
import Verif.Spec.Tree

/-! # Invariant of the selection loop of `spanning_tree` -/

namespace Hcp
open Spec

variable {W : Type}

/-- end points of an edge as an ordered pair -/
def Edge.pair (x : Edge W) : Nat × Nat := (x.a, x.b)

/-- normalised edge: smallest end point first -/
def Edge.nrm (x : Edge W) : Edge W := { a := min x.a x.b, b := max x.a x.b, r := x.r }

@[simp] theorem Edge.flip_nrm (x : Edge W) : x.flip.nrm = x.nrm := by
  simp [Edge.nrm, Edge.flip, min_comm, max_comm]

/-- the edge crosses the cut given by the flags -/
def Crosses (t : Nat → Bool) (x : Edge W) : Prop := t x.a ≠ t x.b

theorem crosses_nrm (t : Nat → Bool) (x : Edge W) : Crosses t x.nrm ↔ Crosses t x := by
  unfold Crosses Edge.nrm
  rcases le_total x.a x.b with h | h
  · simp [h]
  · simp [h, ne_comm]

/-- all edges have their end points in range -/
def InRange (len : Nat) (e : List (Edge W)) : Prop := ∀ x ∈ e, x.a < len ∧ x.b < len

theorem scanDown_first (len : Nat) (e : List (Edge W)) (t : Nat → Bool) {n : Nat} (hn : 0 < n) :
    scanDown len e t true n = .ok (n - 1) := by
  cases n with
  | zero => omega
  | succ n => simp [scanDown]

theorem scanDown_spec {len : Nat} {e : List (Edge W)} (hr : InRange len e) (t : Nat → Bool) :
    ∀ n, n ≤ e.length → (∃ i x, i < n ∧ e[i]? = some x ∧ Crosses t x) →
      ∃ i x, scanDown len e t false n = .ok i ∧ i < n ∧ e[i]? = some x ∧ Crosses t x ∧
        ∀ j y, i < j → j < n → e[j]? = some y → ¬ Crosses t y
  | 0, _, ⟨i, x, h, _⟩ => by omega
  | n + 1, hn, hex => by
    have hlt : n < e.length := by omega
    have hx : e[n]? = some e[n] := List.getElem?_eq_getElem hlt
    obtain ⟨ha, hb⟩ := hr e[n] (List.getElem_mem hlt)
    by_cases hc : Crosses t e[n]
    · refine ⟨n, e[n], ?_, by omega, hx, hc, fun j y h1 h2 _ => by omega⟩
      unfold Crosses at hc
      simp [scanDown, hx, readFlag, ha, hb, hc]
    · have hex' : ∃ i x, i < n ∧ e[i]? = some x ∧ Crosses t x := by
        obtain ⟨i, x, h1, h2, h3⟩ := hex
        refine ⟨i, x, ?_, h2, h3⟩
        rcases Nat.lt_succ_iff_lt_or_eq.1 h1 with h | h
        · exact h
        · subst h; rw [hx] at h2; cases h2; exact absurd h3 hc
      obtain ⟨i, x, h1, h2, h3, h4, h5⟩ := scanDown_spec hr t n (by omega) hex'
      refine ⟨i, x, ?_, by omega, h3, h4, ?_⟩
      · have hc' : t e[n].a = t e[n].b := by simpa [Crosses] using hc
        simp [scanDown, hx, readFlag, ha, hb, hc', h1]
      · intro j y hj1 hj2 hy
        rcases Nat.lt_succ_iff_lt_or_eq.1 hj2 with h | h
        · exact h5 j y hj1 h hy
        · subst h; rw [hx] at hy; cases hy; exact hc

/-- what is known of the edge `x` selected after the edges `out`, `E` being the sorted list of candidates -/
structure GoodStep (E out : List (Edge W)) (x : Edge W) : Prop where
  mem : x.nrm ∈ E
  new : ¬ Touches (out.map Edge.pair) x.b
  old : out ≠ [] → Touches (out.map Edge.pair) x.a
  last : ∃ i : Nat, E[i]? = some x.nrm ∧ ∀ (j : Nat) (y : Edge W), i < j → E[j]? = some y → out ≠ [] ∧
    (Touches (out.map Edge.pair) y.a ↔ Touches (out.map Edge.pair) y.b)

/-- invariant of the selection loop after the edges `s.tree.e` have been selected -/
structure SelInv (E : List (Edge W)) (s : Sel W) : Prop where
  norm : s.e.map Edge.nrm = E
  flags : ∀ v, s.t v = true ↔ Touches (s.tree.e.map Edge.pair) v
  steps : ∀ k (h : k < s.tree.e.length), GoodStep E (s.tree.e.take k) s.tree.e[k]
  few : ∃ V : List Nat, V.length ≤ s.tree.e.length + 1 ∧ ∀ v, s.t v = true → v ∈ V

theorem saveWorst_e (o : WOps W) (tr : Tree W) (k : Nat) (x : Edge W) : (saveWorst o tr k x).e = tr.e := by
  unfold saveWorst; split <;> rfl

theorem saveWorst_n (o : WOps W) (tr : Tree W) (k : Nat) (x : Edge W) : (saveWorst o tr k x).n = tr.n := by
  unfold saveWorst; split <;> rfl

theorem touches_snoc (out : List (Edge W)) (x : Edge W) (v : Nat) :
    Touches ((out ++ [x]).map Edge.pair) v ↔ Touches (out.map Edge.pair) v ∨ v = x.a ∨ v = x.b := by
  simp [Touches, Edge.pair, or_and_right, exists_or]

theorem bool_iff_ne {p q : Bool} : p ≠ q ↔ ¬ (p = true ↔ q = true) := by
  cases p <;> cases q <;> simp

/-- complete list of candidate edges on `len` points -/
def AllPairs (wt : Nat → Nat → W) (len : Nat) (E : List (Edge W)) : Prop :=
  ∀ x : Edge W, x ∈ E ↔ x.a < x.b ∧ x.b < len ∧ x.r = wt x.a x.b

theorem AllPairs.inRange {wt : Nat → Nat → W} {len : Nat} {E e : List (Edge W)} (hE : AllPairs wt len E)
    (h : e.map Edge.nrm = E) : InRange len e := by
  intro x hx
  have := (hE x.nrm).1 (h ▸ List.mem_map_of_mem hx)
  simp [Edge.nrm] at this
  omega

theorem AllPairs.ne {wt : Nat → Nat → W} {len : Nat} {E : List (Edge W)} (hE : AllPairs wt len E)
    {x : Edge W} (h : x.nrm ∈ E) : x.a ≠ x.b := by
  have := ((hE x.nrm).1 h).1
  simp [Edge.nrm] at this
  omega

/-- one step of the loop succeeds and keeps the invariant -/
theorem selStep_inv (o : WOps W) {wt : Nat → Nat → W} {len : Nat} {E : List (Edge W)}
    (hE : AllPairs wt len E) {s : Sel W} (hs : SelInv E s) (hk : s.tree.e.length + 1 < len) :
    ∃ s' x, selStep o len s.tree.e.length s = .ok s' ∧ SelInv E s' ∧
      s'.tree = saveWorst o { s.tree with e := s.tree.e ++ [x] } s.tree.e.length x := by
  have hr := hE.inRange hs.norm
  have hlen : s.e.length = E.length := by rw [← hs.norm, List.length_map]
  -- the scan finds an edge
  have hscan : ∃ i x0, scanDown len s.e s.t (s.tree.e.length == 0) s.e.length = .ok i ∧
      s.e[i]? = some x0 ∧ (s.tree.e ≠ [] → Crosses s.t x0) ∧
      ∀ j y, i < j → s.e[j]? = some y → s.tree.e ≠ [] ∧ ¬ Crosses s.t y := by
    by_cases h0 : s.tree.e = []
    · have hpos : 0 < s.e.length := by
        rw [hlen]
        have : (⟨0, 1, wt 0 1⟩ : Edge W) ∈ E := (hE _).2 ⟨Nat.zero_lt_one, by simp [h0] at hk; simpa using hk, rfl⟩
        exact List.length_pos_of_mem this
      refine ⟨s.e.length - 1, s.e[s.e.length - 1], ?_, ?_, ?_, ?_⟩
      · rw [h0]; exact scanDown_first len s.e s.t hpos
      · exact List.getElem?_eq_getElem (by omega)
      · intro h; exact absurd h0 h
      · intro j y h1 h2
        rw [List.getElem?_eq_none (by omega)] at h2; cases h2
    · have hb : (s.tree.e.length == 0) = false := by
        cases h : s.tree.e with
        | nil => exact absurd h h0
        | cons _ _ => rfl
      rw [hb]
      -- a touched vertex and an untouched one
      obtain ⟨x1, hx1⟩ := List.exists_mem_of_ne_nil _ h0
      have htu : s.t x1.a = true := (hs.flags _).2 ⟨x1.pair, List.mem_map_of_mem hx1, Or.inl rfl⟩
      have hu : x1.a < len := by
        obtain ⟨k, hk1, rfl⟩ := List.getElem_of_mem hx1
        have := (hE _).1 (hs.steps k hk1).mem
        simp [Edge.nrm] at this
        omega
      obtain ⟨v, hv, htv⟩ : ∃ v, v < len ∧ s.t v = false := by
        by_contra hcon
        push Not at hcon
        obtain ⟨V, hV1, hV2⟩ := hs.few
        have hsub : (List.range len) ⊆ V := by
          intro v hv
          exact hV2 v (by simpa using hcon v (List.mem_range.1 hv))
        have := (List.subperm_of_subset List.nodup_range hsub).length_le
        rw [List.length_range] at this
        omega
      have hne : x1.a ≠ v := by rintro rfl; rw [htu] at htv; cases htv
      let y : Edge W := ⟨min x1.a v, max x1.a v, wt (min x1.a v) (max x1.a v)⟩
      have hy : y ∈ E := (hE y).2 ⟨by simp [y]; omega, by simp [y]; omega, rfl⟩
      have hcy : Crosses s.t y := by
        have : y = Edge.nrm ⟨x1.a, v, y.r⟩ := rfl
        rw [this, crosses_nrm]
        simp [Crosses, htu, htv]
      rw [← hs.norm] at hy
      obtain ⟨z, hz, hzy⟩ := List.mem_map.1 hy
      have hcz : Crosses s.t z := by rw [← crosses_nrm, hzy]; exact hcy
      obtain ⟨i0, hi0, rfl⟩ := List.getElem_of_mem hz
      obtain ⟨i, x, h1, h2, h3, h4, h5⟩ := scanDown_spec hr s.t s.e.length le_rfl
        ⟨i0, _, hi0, List.getElem?_eq_getElem hi0, hcz⟩
      refine ⟨i, x, h1, h3, fun _ => h4, ?_⟩
      intro j y hj hy
      refine ⟨h0, h5 j y hj ?_ hy⟩
      by_contra hcon
      rw [List.getElem?_eq_none (by omega)] at hy; cases hy
  obtain ⟨i, x0, h1, h2, h3, h4⟩ := hscan
  have hi : i < s.e.length := by
    by_contra hcon
    rw [List.getElem?_eq_none (by omega)] at h2; cases h2
  have hx0 : x0 ∈ s.e := by
    rw [List.getElem?_eq_getElem hi] at h2; cases h2; exact List.getElem_mem hi
  obtain ⟨hxa, hxb⟩ := hr x0 hx0
  let x : Edge W := if s.t x0.b then x0.flip else x0
  have hxr : x.a < len ∧ x.b < len := by
    by_cases hb : s.t x0.b <;> simp [x, hb, Edge.flip, hxa, hxb]
  have hnx : x.nrm = x0.nrm := by
    by_cases hb : s.t x0.b <;> simp [x, hb]
  have hEi : E[i]? = some x.nrm := by
    rw [← hs.norm, List.getElem?_map, h2, hnx]; rfl
  have hxE : x.nrm ∈ E := List.mem_of_getElem? hEi
  have hnone : s.tree.e = [] → ∀ v, s.t v = false := by
    intro h0 v
    have := hs.flags v
    rw [h0] at this
    simp [Touches] at this
    exact this
  have hnew : s.t x.b = false := by
    by_cases h0 : s.tree.e = []
    · exact hnone h0 _
    · have := h3 h0
      unfold Crosses at this
      by_cases hb : s.t x0.b = true
      · simp [x, hb, Edge.flip]; rw [hb] at this; simpa using this
      · simp [x, hb]
  have hold : s.tree.e ≠ [] → s.t x.a = true := by
    intro h0
    have := h3 h0
    unfold Crosses at this
    by_cases hb : s.t x0.b = true
    · simp [x, hb, Edge.flip]
    · simp [x, hb]
      simp at hb; rw [hb] at this; simpa using this
  let s' : Sel W :=
    { e := s.e.set i x, t := fun v => if v = x.a ∨ v = x.b then true else s.t v,
      tree := saveWorst o { s.tree with e := s.tree.e ++ [x] } s.tree.e.length x }
  have he' : s'.tree.e = s.tree.e ++ [x] := saveWorst_e _ _ _ _
  refine ⟨s', x, ?_, ?_, rfl⟩
  · unfold selStep
    rw [h1, Res.ok_bind, h2]
    simp only
    rw [readFlag, if_pos hxb, Res.ok_bind]
    change (readFlag len s.t x.a >>= fun _ => readFlag len s.t x.b >>= fun _ => Res.ok s') = Res.ok s'
    rw [readFlag, if_pos hxr.1, Res.ok_bind, readFlag, if_pos hxr.2, Res.ok_bind]
  · refine ⟨?_, ?_, ?_, ?_⟩
    · change (s.e.set i x).map Edge.nrm = E
      rw [List.map_set, hs.norm]
      apply List.ext_getElem?
      intro j
      rw [List.getElem?_set]
      split
      · rename_i hij; subst hij
        rw [← hlen, if_pos hi, hEi]
      · rfl
    · intro v
      rw [he', touches_snoc, ← hs.flags]
      change (if v = x.a ∨ v = x.b then true else s.t v) = true ↔ _
      split <;> simp [*]
    · intro k hk
      rw [he'] at hk
      simp only [he']
      rcases Nat.lt_or_ge k s.tree.e.length with hlt | hge
      · rw [List.getElem_append_left hlt, List.take_append_of_le_length hlt.le]
        exact hs.steps k hlt
      · have hkk : k = s.tree.e.length := by simp at hk; omega
        subst hkk
        have e1 : (s.tree.e ++ [x])[s.tree.e.length] = x := by simp
        have e2 : (s.tree.e ++ [x]).take s.tree.e.length = s.tree.e := by simp
        rw [e1, e2]
        refine ⟨hxE, ?_, ?_, i, hEi, ?_⟩
        · rw [← hs.flags, hnew]; simp
        · intro h0; rw [← hs.flags]; exact hold h0
        · intro j y hij hy
          rw [← hs.norm, List.getElem?_map] at hy
          cases hj : s.e[j]? with
          | none => rw [hj] at hy; cases hy
          | some y0 =>
            rw [hj] at hy
            simp only [Option.map_some, Option.some.injEq] at hy
            obtain ⟨g1, g2⟩ := h4 j y0 hij hj
            refine ⟨g1, ?_⟩
            rw [← crosses_nrm, hy] at g2
            unfold Crosses at g2
            rw [bool_iff_ne, not_not, hs.flags, hs.flags] at g2
            exact g2
    · obtain ⟨V, hV1, hV2⟩ := hs.few
      by_cases h0 : s.tree.e = []
      · refine ⟨[x.a, x.b], by rw [he']; simp, ?_⟩
        intro v hv
        change (if v = x.a ∨ v = x.b then true else s.t v) = true at hv
        rw [hnone h0] at hv
        simpa using hv
      · refine ⟨x.b :: V, by rw [he']; simp; omega, ?_⟩
        intro v hv
        change (if v = x.a ∨ v = x.b then true else s.t v) = true at hv
        rw [List.mem_cons]
        by_cases hvb : v = x.b
        · exact Or.inl hvb
        · right
          by_cases hva : v = x.a
          · rw [hva]; exact hV2 _ (hold h0)
          · simp [hva, hvb] at hv; exact hV2 _ hv

/-- the whole loop -/
theorem selLoop_inv (o : WOps W) {wt : Nat → Nat → W} {len : Nat} {E : List (Edge W)}
    (hE : AllPairs wt len E) (Q : Tree W → Prop)
    (hQ : ∀ tr x, Q tr → GoodStep E tr.e x → Q (saveWorst o { tr with e := tr.e ++ [x] } tr.e.length x)) :
    ∀ cnt (s : Sel W), SelInv E s → Q s.tree → s.tree.e.length + cnt < len ∨ cnt = 0 →
    ∃ s', selLoop o len cnt s.tree.e.length s = .ok s' ∧ SelInv E s' ∧
      s'.tree.e.length = s.tree.e.length + cnt ∧ Q s'.tree ∧ s'.tree.n = s.tree.n
  | 0, s, hs, hq, _ => ⟨s, rfl, hs, rfl, hq, rfl⟩
  | cnt + 1, s, hs, hq, hlen => by
    have hlen' : s.tree.e.length + (cnt + 1) < len := by omega
    obtain ⟨s1, x, h1, h2, h3⟩ := selStep_inv o hE hs (by omega)
    have he : s1.tree.e = s.tree.e ++ [x] := by rw [h3, saveWorst_e]
    have hl : s1.tree.e.length = s.tree.e.length + 1 := by rw [he]; simp
    have hgood : GoodStep E s.tree.e x := by
      have := h2.steps s.tree.e.length (by omega)
      simpa [he] using this
    obtain ⟨s2, g1, g2, g3, g4, g5⟩ := selLoop_inv o hE Q hQ cnt s1 h2 (by rw [h3]; exact hQ _ _ hq hgood) (by omega)
    refine ⟨s2, ?_, g2, by omega, g4, by rw [g5, h3, saveWorst_n]⟩
    rw [selLoop, h1, Res.ok_bind, ← hl, g1]

theorem selInv_init {E : List (Edge W)} (hE : E.map Edge.nrm = E) (tr : Tree W) :
    SelInv E { e := E, t := fun _ => false, tree := { tr with e := [] } } where
  norm := hE
  flags := by intro v; simp [Touches]
  steps := by intro k h; simp at h
  few := ⟨[], by simp, by simp⟩

theorem AllPairs.nrm_self {wt : Nat → Nat → W} {len : Nat} {E : List (Edge W)} (hE : AllPairs wt len E) :
    E.map Edge.nrm = E := by
  have : ∀ x ∈ E, Edge.nrm x = id x := by
    intro x hx
    have := ((hE x).1 hx).1
    cases x
    simp at this
    simp [Edge.nrm, le_of_lt this]
  rw [List.map_congr_left this, List.map_id]

end Hcp
