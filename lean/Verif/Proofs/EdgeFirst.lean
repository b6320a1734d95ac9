import Verif.Proofs.Loops
import Verif.Proofs.Compute
import Verif.Spec.Edge

/-!
# The first cell of each block of a row, for any arithmetic

`integrals_edge_factors` multiplies it by two factors and adds nothing to it.
-/

namespace Hcp

open Spec

variable {A : Type} {X : Arith A}

theorem loopUp_keeps {S : Type} {body : Nat → S → Res S} (P : S → Prop) : ∀ (cnt k : Nat) (s s' : S), (∀ i s s', k ≤ i → i < k + cnt → P s → body i s = .ok s' → P s') → P s →
    loopUp body cnt k s = .ok s' → P s'
  | 0, _, s, s', _, h, e => by
    cases e
    exact h
  | cnt + 1, k, s, s', hb, h, e => by
    unfold loopUp at e
    rw [Res.bind_eq_ok] at e
    obtain ⟨s1, e1, e2⟩ := e
    exact loopUp_keeps P cnt (k + 1) s1 s' (fun i a b h1 h2 => hb i a b (by omega) (by omega)) (hb k s s1 le_rfl (by omega) h e1) e2

theorem loopDown_keeps {S : Type} {body : Nat → S → Res S} (P : S → Prop) : ∀ (cnt k : Nat) (s s' : S), (∀ i s s', k ≤ i → i < k + cnt → P s → body i s = .ok s' → P s') → P s →
    loopDown body cnt k s = .ok s' → P s'
  | 0, _, s, s', _, h, e => by
    cases e
    exact h
  | cnt + 1, k, s, s', hb, h, e => by
    unfold loopDown at e
    rw [Res.bind_eq_ok] at e
    obtain ⟨s1, e1, e2⟩ := e
    exact loopDown_keeps P cnt k s1 s' (fun i a b h1 h2 => hb i a b h1 (by omega)) (hb (k + cnt) s s1 (by omega) (by omega) h e1) e2

theorem rdV_eq {sz i : Nat} {v : Nat → A} {a : A} (h : rdV sz v i = .ok a) : a = v i := by
  unfold rdV at h
  split at h
  · cases h; rfl
  · cases h

theorem wrV_eq {sz i : Nat} {v w : Nat → A} {a : A} (h : wrV sz v i a = .ok w) : w = fun j => if j = i then a else v j := by
  unfold wrV at h
  split at h
  · cases h; rfl
  · cases h

theorem mulCell_eq {sz i : Nat} {c : A} {x y : Nat → A} (h : mulCell X sz i c x = .ok y) : y = fun j => if j = i then X.mul (x i) c else x j := by
  unfold mulCell at h
  rw [Res.bind_eq_ok] at h
  obtain ⟨a, h1, h2⟩ := h
  rw [wrV_eq h2, rdV_eq h1]

theorem addmulCell_eq {sz i j : Nat} {c : A} {x y : Nat → A} (h : addmulCell X sz i j c x = .ok y) : y = fun k => if k = i then X.add (x i) (X.mul (x j) c) else x k := by
  unfold addmulCell at h
  rw [Res.bind_eq_ok] at h
  obtain ⟨a, h1, h2⟩ := h
  rw [Res.bind_eq_ok] at h2
  obtain ⟨b, h3, h4⟩ := h2
  rw [wrV_eq h4, rdV_eq h1, rdV_eq h3]

/-- cells not after the first one of the block, and those behind the block, are kept by the shift -/
theorem polyShift_first {sz off len : Nat} {c : A} {x y : Nat → A} (h : polyShift X sz off len c x = .ok y) : ∀ i, i ≤ off ∨ off + len ≤ i → y i = x i := by
  intro i hi
  unfold polyShift at h
  refine loopUp_keeps (fun s => s i = x i) _ _ _ _ (fun k s s' h1 h2 hs e => ?_) rfl h
  refine loopDown_keeps (fun s => s i = x i) _ _ _ _ (fun l a b h3 h4 ha e2 => ?_) hs e
  rw [addmulCell_eq e2]
  dsimp only
  rw [if_neg (by omega)]
  exact ha

theorem mulGeom_first {sz off len : Nat} {c0 c : A} {x : Nat → A} {y : (Nat → A) × A} (hlen : 0 < len) (h : mulGeom X sz off len c0 c x = .ok y) :
    y.1 off = X.mul (x off) c0 ∧ ∀ i, i < off ∨ off + len ≤ i → y.1 i = x i := by
  unfold mulGeom at h
  rw [Res.bind_eq_ok] at h
  obtain ⟨x0, h1, h2⟩ := h
  have e0 := mulCell_eq h1
  have key : ∀ i, i ≤ off ∨ off + len ≤ i → y.1 i = x0 i := by
    intro i hi
    refine loopUp_keeps (fun s : (Nat → A) × A => s.1 i = x0 i) _ _ _ _ (fun k s s' h3 h4 hs e => ?_) rfl h2
    dsimp only at e
    rw [Res.bind_eq_ok] at e
    obtain ⟨z, e1, e2⟩ := e
    cases e2
    rw [mulCell_eq e1]
    dsimp only
    rw [if_neg (by omega)]
    exact hs
  refine ⟨?_, fun i hi => ?_⟩
  · rw [key off (Or.inl le_rfl), e0]
    simp
  · rw [key i (by omega), e0]
    dsimp only
    rw [if_neg (by omega)]

theorem scalarMul_cells {sz off : Nat} {c : A} : ∀ (len k : Nat) {x y : Nat → A}, loopUp (fun k x => mulCell X sz (off + k) c x) len k x = .ok y →
    ∀ i, y i = if off + k ≤ i ∧ i < off + k + len then X.mul (x i) c else x i
  | 0, k, x, y, h, i => by
    cases h
    rw [if_neg (by omega)]
  | len + 1, k, x, y, h, i => by
    unfold loopUp at h
    rw [Res.bind_eq_ok] at h
    obtain ⟨x1, h1, h2⟩ := h
    rw [scalarMul_cells len (k + 1) h2 i, mulCell_eq h1]
    by_cases hi : i = off + k
    · subst hi
      rw [if_neg (by omega), if_pos (by omega)]
      exact if_pos rfl
    · dsimp only
      rw [if_neg hi]
      by_cases h3 : off + (k + 1) ≤ i ∧ i < off + (k + 1) + len
      · rw [if_pos h3, if_pos (by omega)]
      · rw [if_neg h3, if_neg (by omega)]

/-- the factor of the differentials with `y^j` -/
def blockFactor (X : Arith A) (m : Nat) (cab : A) (j : Nat) : A := X.div (X.neg (X.sub (unitRoots X m ((m - j) % m)) X.one)) (X.pow cab j)

theorem edgeFactorsStep_first {c : Shape} {ba2 ab cab : A} {j nij : Nat} {s t : (Nat → A) × Nat} (hn : 0 < nij) (h : edgeFactorsStep X c ba2 ab cab j nij s = .ok t) :
    t.2 = s.2 + nij ∧ t.1 s.2 = X.mul (X.mul (s.1 s.2) ba2) (blockFactor X c.m cab (c.j1 + j)) ∧ ∀ i, i < s.2 ∨ s.2 + nij ≤ i → t.1 i = s.1 i := by
  unfold edgeFactorsStep at h
  rw [Res.bind_eq_ok] at h
  obtain ⟨x1, h1, h⟩ := h
  rw [Res.bind_eq_ok] at h
  obtain ⟨x2, h2, h⟩ := h
  rw [Res.bind_eq_ok] at h
  obtain ⟨z, h3, h⟩ := h
  dsimp only at h
  rw [Res.bind_eq_ok] at h
  obtain ⟨x3, h4, h⟩ := h
  cases h
  have g1 := polyShift_first h1
  obtain ⟨g2, g3⟩ := mulGeom_first hn h2
  have g4 := scalarMul_cells _ _ h4
  rw [rdV_eq h3] at g4
  refine ⟨rfl, ?_, fun i hi => ?_⟩
  · show x3 s.2 = _
    rw [g4, if_pos (by omega), g2, g1 _ (Or.inl le_rfl), Nat.sub_sub]
    rfl
  · show x3 i = _
    rw [g4, if_neg (by omega), g3 i hi, g1 i (by omega)]

theorem edgeFactorsLoop_first {c : Shape} {ba2 ab cab : A} : ∀ {ni : List Nat} {j : Nat} {s t : (Nat → A) × Nat}, (∀ k ∈ ni, 0 < k) → edgeFactorsLoop X c ba2 ab cab j ni s = .ok t →
    (∀ i < s.2, t.1 i = s.1 i) ∧ ∀ r l, r < ni.sum → diffOf ni (c.j1 + j) r = (0, l) → t.1 (s.2 + r) = X.mul (X.mul (s.1 (s.2 + r)) ba2) (blockFactor X c.m cab l)
  | [], j, s, t, _, h => by
    cases h
    exact ⟨fun _ _ => rfl, fun r l hr => by simp at hr⟩
  | n :: rest, j, s, t, hpos, h => by
    unfold edgeFactorsLoop at h
    rw [Res.bind_eq_ok] at h
    obtain ⟨s1, h1, h2⟩ := h
    obtain ⟨a1, a2, a3⟩ := edgeFactorsStep_first (hpos n (by simp)) h1
    obtain ⟨b1, b2⟩ := edgeFactorsLoop_first (fun k hk => hpos k (by simp [hk])) h2
    have hn := hpos n (by simp)
    refine ⟨fun i hi => ?_, fun r l hr hd => ?_⟩
    · rw [b1 i (by omega), a3 i (Or.inl hi)]
    · unfold diffOf at hd
      by_cases hrn : r < n
      · rw [if_pos hrn] at hd
        cases hd
        rw [b1 _ (by omega), Nat.add_zero, a2]
      · rw [if_neg hrn] at hd
        rw [List.sum_cons] at hr
        have := b2 (r - n) l (by omega) hd
        rw [a1, show s.2 + n + (r - n) = s.2 + r by omega, a3 _ (by omega)] at this
        exact this

theorem edgeFactors_first {c : Shape} {ba2 ab cab : A} {x y : Nat → A} (hpos : ∀ k ∈ c.ni, 0 < k) (h : edgeFactors X c ba2 ab cab x = .ok y) {r l : Nat} (hr : r < c.ni.sum) (hd : diffOf c.ni c.j1 r = (0, l)) :
    y r = X.mul (X.mul (x r) ba2) (blockFactor X c.m cab l) := by
  unfold edgeFactors at h
  rw [Res.bind_eq_ok] at h
  obtain ⟨s, h1, h2⟩ := h
  cases h2
  have := (edgeFactorsLoop_first hpos h1).2 r l hr hd
  rwa [Nat.zero_add] at this

theorem treeDe_frame {B C W : Type} {O : MatOps} {V : AjEnv A B C W O} {c : Shape} {flag : Nat} {prec : Int} {data : List (YData A)} : ∀ {ks : List Nat} {de : DeInt A} {I I' : Nat → Nat → A},
    treeDe V c flag prec data ks de I = .ok I' → ∀ k ∉ ks, I' k = I k
  | [], _, _, _, h, k, _ => by cases h; rfl
  | l :: ks, de, I, I', h, k, hk => by
    unfold treeDe at h
    cases hl : data[l]? with
    | none => rw [hl] at h; cases h
    | some ye =>
      rw [hl] at h
      dsimp only at h
      rw [Res.bind_eq_ok] at h
      obtain ⟨p, _, h⟩ := h
      rw [Res.bind_eq_ok] at h
      obtain ⟨s, _, h⟩ := h
      rw [List.mem_cons, not_or] at hk
      rw [treeDe_frame h k hk.2, if_neg hk.1]

/-- the row of the first edge is computed with its own scheme -/
theorem treeDe_first {B C W : Type} {O : MatOps} {V : AjEnv A B C W O} {c : Shape} {flag : Nat} {prec : Int} {data : List (YData A)} {k : Nat} {ks : List Nat} {de0 : DeInt A} {I I' : Nat → Nat → A}
    (h0 : de0.n = 0) (hk : k ∉ ks) (h : treeDe V c flag prec data (k :: ks) de0 I = .ok I') :
    ∃ (ye : YData A) (p : DePar A) (de : DeInt A) (r : Nat → A), data[k]? = some ye ∧ V.dePar (pointsOf c.n ye) (c.n - 1) c.j1 c.m prec = .ok p ∧
      deIntInit (V.ar prec) (V.fns prec) p.h p.lam p.n p.err c.m = .ok de ∧
      deIntegralsPrecomp (V.ar prec) (V.tests prec) (c.n + 3) ye.u ye.n1 (c.n - 2) c de flag (decide (1000 < prec) && decide (5 < c.n - 2)) = .ok r ∧
      edgeFactors (V.ar prec) c ye.ba2 ye.ab ye.c (fun i => if i < c.g then de.err (r i) else r i) = .ok (I' k) := by
  unfold treeDe at h
  cases hl : data[k]? with
  | none => rw [hl] at h; cases h
  | some ye =>
    rw [hl] at h
    dsimp only at h
    rw [Res.bind_eq_ok] at h
    obtain ⟨p, hp, h⟩ := h
    rw [Res.bind_eq_ok] at h
    obtain ⟨s, hs, h⟩ := h
    have hI : I' k = s.2 := by rw [treeDe_frame h k hk, if_pos rfl]
    unfold deParIf at hp
    rw [if_pos (by simp [h0])] at hp
    unfold integralsEdgeDe at hs
    rw [Res.bind_eq_ok] at hs
    obtain ⟨de, hde, hs⟩ := hs
    rw [Res.bind_eq_ok] at hs
    obtain ⟨r, hr, hs⟩ := hs
    rw [Res.bind_eq_ok] at hs
    obtain ⟨r1, hr1, hs⟩ := hs
    cases hs
    unfold deScheme at hde
    rw [if_pos (by simp [h0, deReplace])] at hde
    exact ⟨ye, p, de, r, rfl, hp, hde, hr, by rw [hI]; exact hr1⟩

end Hcp
