import Verif.Model.Compute
import Verif.Proofs.Compute

/-!
# C75: the options which restrict what is computed do not change what is computed
-/

namespace Hcp

variable {A B C W : Type} {O : MatOps}

/-- the options differ at most by `AJ_NO_TAU`, `AJ_NO_AB` and `AJ_NO_INT` (bits 1, 2, 3; abel_jacobi.h 171-174) -/
def SameWork (f f' : Nat) : Prop := ∀ i, i ≠ 1 → i ≠ 2 → i ≠ 3 → f.testBit i = f'.testBit i

theorem SameWork.and {f f' : Nat} (h : SameWork f f') (i : Nat) (h1 : i ≠ 1) (h2 : i ≠ 2) (h3 : i ≠ 3) : f &&& (1 <<< i) = f' &&& (1 <<< i) := by
  apply Nat.eq_of_testBit_eq
  intro j
  rw [Nat.testBit_and, Nat.testBit_and, Nat.one_shiftLeft, Nat.testBit_two_pow]
  by_cases hj : i = j
  · subst hj
    rw [h i h1 h2 h3]
  · simp [hj]

theorem SameWork.intType {f f' : Nat} (h : SameWork f f') (m n : Int) : intType f m n = intType f' m n := by
  unfold Hcp.intType ajUseDe
  rw [h.and 0 (by decide) (by decide) (by decide)]

theorem SameWork.trimIf {f f' : Nat} (h : SameWork f f') (V : AjEnv A B C W O) : trimIf V f = trimIf V f' := by
  funext om
  unfold Hcp.trimIf ajTrim
  rw [h.and 4 (by decide) (by decide) (by decide)]

theorem SameWork.treeGc {f f' : Nat} (h : SameWork f f') (V : AjEnv A B C W O) (fuel : Nat) (c : Shape) (prec : Int) (data : List (YData A)) (ks : List Nat) (gc : GcInt A) (I : Nat → Nat → A) :
    treeGc V fuel c f prec data ks gc I = treeGc V fuel c f' prec data ks gc I := by
  have hs : ∀ (X : Arith A) (T : Tests A), sqrtPolSel X T f = sqrtPolSel X T f' := fun X T => by
    funext sz u d1 d x
    unfold sqrtPolSel
    rw [h 5 (by decide) (by decide) (by decide)]
  have he : ∀ (X : Arith A) (T : Tests A) (F : Fns A), integralsEdgeGc X T F c f = integralsEdgeGc X T F c f' := fun X T F => by
    funext ye need err gc
    unfold integralsEdgeGc gcIntegralsPrecomp
    rw [hs]
  induction ks generalizing gc I with
  | nil => rfl
  | cons k ks ih =>
    unfold Hcp.treeGc
    rw [he]
    simp only [ih]

theorem SameWork.treeDe {f f' : Nat} (h : SameWork f f') (V : AjEnv A B C W O) (c : Shape) (prec : Int) (data : List (YData A)) (ks : List Nat) (de : DeInt A) (I : Nat → Nat → A) :
    treeDe V c f prec data ks de I = treeDe V c f' prec data ks de I := by
  have h8 := h 8 (by decide) (by decide) (by decide)
  have hs : ∀ (X : Arith A) (T : Tests A), mthRootSel X T f = mthRootSel X T f' := fun X T => by
    funext big sz u d1 d x m
    unfold mthRootSel
    rw [h 5 (by decide) (by decide) (by decide), h 6 (by decide) (by decide) (by decide), h 7 (by decide) (by decide) (by decide)]
  have he : ∀ (X : Arith A) (T : Tests A) (F : Fns A), integralsEdgeDe X T F c f = integralsEdgeDe X T F c f' := fun X T F => by
    funext big ye p de
    unfold integralsEdgeDe deIntegralsPrecomp deScheme
    rw [hs, h8]
  have hp : deParIf V c f = deParIf V c f' := by
    funext prec old ye
    unfold deParIf
    rw [h8]
  induction ks generalizing de I with
  | nil => rfl
  | cons k ks ih =>
    unfold Hcp.treeDe
    rw [he, hp]
    simp only [ih]

theorem SameWork.ajIntegrals {f f' : Nat} (h : SameWork f f') (V : AjEnv A B C W O) (fuel : Nat) (c : Shape) (prec : Int) (type : IntType) (es : List (Edge W)) (data : List (YData A)) :
    ajIntegrals V fuel c f prec type es data = ajIntegrals V fuel c f' prec type es data := by
  unfold Hcp.ajIntegrals
  cases type
  · rfl
  · exact h.treeGc ..
  · exact h.treeDe ..

theorem SameWork.ajTree {f f' : Nat} (h : SameWork f f') (V : AjEnv A B C W O) (c : Sec) (prec : Int) (tr0 : Tree W) : ajTree V c f prec tr0 = ajTree V c f' prec tr0 := by
  unfold Hcp.ajTree
  rw [h.intType]

theorem and_bit_ne {f i : Nat} : f &&& (1 <<< i) ≠ 0 ↔ f.testBit i = true := by
  rw [Nat.one_shiftLeft]
  constructor
  · intro h
    by_contra hb
    refine h (Nat.eq_of_testBit_eq fun j => ?_)
    rw [Nat.testBit_and, Nat.testBit_two_pow, Nat.zero_testBit]
    by_cases hj : i = j
    · subst hj
      simpa using hb
    · simp [hj]
  · intro h h0
    have := congrArg (Nat.testBit · i) h0
    simp [h] at this

theorem noTau_iff {f : Nat} : f &&& ajNoTau ≠ 0 ↔ f.testBit 1 = true := and_bit_ne
theorem noAb_iff {f : Nat} : f &&& ajNoAb ≠ 0 ↔ f.testBit 2 = true := and_bit_ne
theorem noInt_iff {f : Nat} : f &&& ajNoInt ≠ 0 ↔ f.testBit 3 = true := and_bit_ne

/-- what the options `f` ask for: the integrals without `AJ_NO_INT`, the matrices of periods if moreover without `AJ_NO_AB`, `tau` if moreover without `AJ_NO_TAU` -/
def AjOut.keep {g : Nat} (out : AjOut A W O g) (f : Nat) : AjOut A W O g :=
  { out with
    integrals := if f.testBit 3 then none else out.integrals
    omega := if f.testBit 3 || f.testBit 2 then none else out.omega
    tau := if f.testBit 3 || f.testBit 2 || f.testBit 1 then none else out.tau }

variable {V : AjEnv A B C W O} {fuel : Nat} {c : Sec} {prec : Int} {tr0 : Tree W} {f f' : Nat}

/-- **C75 (asking for less).** If a call of `abel_jacobi_compute` returns, the call with some of `AJ_NO_TAU`, `AJ_NO_AB`, `AJ_NO_INT` added returns too, and stores the same tree, the same loops and, as far as they are asked for, the same integrals and periods. -/
theorem C75_less {out : AjOut A W O c.shape.g} (h : SameWork f f') (hle : ∀ i, f.testBit i = true → f'.testBit i = true) (hrun : ajRun V fuel c f prec tr0 = .ok out) : ajRun V fuel c f' prec tr0 = .ok (out.keep f') := by
  unfold ajRun at hrun ⊢
  simp only [Res.bind_eq_ok] at hrun
  obtain ⟨⟨tr, ip, data⟩, h1, ⟨al, be⟩, h2, h3⟩ := hrun
  rw [← h.ajTree, h1, Res.ok_bind]
  dsimp only at h2 ⊢
  rw [h2, Res.ok_bind]
  dsimp only at h3 ⊢
  rw [← h.intType]
  by_cases b3 : f.testBit 3 = true
  · have b3' := hle 3 b3
    rw [if_pos (noInt_iff.2 b3)] at h3
    rw [if_pos (noInt_iff.2 b3'), ← Res.ok.inj h3]
    simp [AjOut.keep, b3']
  rw [if_neg fun q => b3 (noInt_iff.1 q)] at h3
  simp only [Res.bind_eq_ok] at h3
  obtain ⟨_, h4, I, h5, h6⟩ := h3
  by_cases c3 : f'.testBit 3 = true
  · rw [if_pos (noInt_iff.2 c3)]
    by_cases b2 : f.testBit 2 = true
    · rw [if_pos (noAb_iff.2 b2)] at h6
      rw [← Res.ok.inj h6]
      simp [AjOut.keep, c3]
    rw [if_neg fun q => b2 (noAb_iff.1 q)] at h6
    simp only [Res.bind_eq_ok] at h6
    obtain ⟨om0, h7, om1, h8, h9⟩ := h6
    by_cases b1 : f.testBit 1 = true
    · rw [if_pos (noTau_iff.2 b1)] at h9
      rw [← Res.ok.inj h9]
      simp [AjOut.keep, c3]
    rw [if_neg fun q => b1 (noTau_iff.1 q)] at h9
    obtain ⟨t, h10, h11⟩ := Res.bind_eq_ok.1 h9
    rw [← Res.ok.inj h11]
    simp [AjOut.keep, c3]
  rw [if_neg fun q => c3 (noInt_iff.1 q), h4, Res.ok_bind, ← h.ajIntegrals, h5, Res.ok_bind]
  have c3' : f'.testBit 3 = false := by simpa using c3
  by_cases b2 : f.testBit 2 = true
  · have b2' := hle 2 b2
    rw [if_pos (noAb_iff.2 b2)] at h6
    rw [if_pos (noAb_iff.2 b2'), ← Res.ok.inj h6]
    simp [AjOut.keep, c3', b2']
  rw [if_neg fun q => b2 (noAb_iff.1 q)] at h6
  simp only [Res.bind_eq_ok] at h6
  obtain ⟨om0, h7, om1, h8, h9⟩ := h6
  by_cases c2 : f'.testBit 2 = true
  · rw [if_pos (noAb_iff.2 c2)]
    by_cases b1 : f.testBit 1 = true
    · rw [if_pos (noTau_iff.2 b1)] at h9
      rw [← Res.ok.inj h9]
      simp [AjOut.keep, c3', c2]
    rw [if_neg fun q => b1 (noTau_iff.1 q)] at h9
    obtain ⟨t, h10, h11⟩ := Res.bind_eq_ok.1 h9
    rw [← Res.ok.inj h11]
    simp [AjOut.keep, c3', c2]
  have c2' : f'.testBit 2 = false := by simpa using c2
  rw [if_neg fun q => c2 (noAb_iff.1 q), h7, Res.ok_bind, h8, Res.ok_bind, ← h.trimIf]
  by_cases b1 : f.testBit 1 = true
  · have b1' := hle 1 b1
    rw [if_pos (noTau_iff.2 b1)] at h9
    rw [if_pos (noTau_iff.2 b1'), ← Res.ok.inj h9]
    simp [AjOut.keep, c3', c2', b1']
  rw [if_neg fun q => b1 (noTau_iff.1 q)] at h9
  obtain ⟨t, h10, h11⟩ := Res.bind_eq_ok.1 h9
  have h4' : f &&& ajTrim = f' &&& ajTrim := h.and 4 (by decide) (by decide) (by decide)
  by_cases c1 : f'.testBit 1 = true
  · rw [if_pos (noTau_iff.2 c1), ← Res.ok.inj h11]
    simp [AjOut.keep, c3', c2', c1]
  have c1' : f'.testBit 1 = false := by simpa using c1
  rw [if_neg fun q => c1 (noTau_iff.1 q), h10, Res.ok_bind, ← Res.ok.inj h11]
  simp [AjOut.keep, c3', c2', c1', h4']

/-- **C75 (agreement).** Two calls whose options differ at most by `AJ_NO_TAU`, `AJ_NO_AB`, `AJ_NO_INT`, and which both return, store the same tree and the same loops; they store the same integrals, the same periods and the same `tau` whenever both store one. -/
theorem C75_agree {out out' : AjOut A W O c.shape.g} (h : SameWork f f') (hrun : ajRun V fuel c f prec tr0 = .ok out) (hrun' : ajRun V fuel c f' prec tr0 = .ok out') :
    out'.type = out.type ∧ out'.tree = out.tree ∧ out'.loopA = out.loopA ∧ out'.loopB = out.loopB ∧
      (∀ I I', out.integrals = some I → out'.integrals = some I' → I' = I) ∧ (∀ o o', out.omega = some o → out'.omega = some o' → o' = o) ∧ ∀ t t', out.tau = some t → out'.tau = some t' → t' = t := by
  have hf : ∀ f0, SameWork f f0 → (∀ i, f0.testBit i = (f.testBit i || f'.testBit i)) → out.keep f0 = out'.keep f0 := fun f0 h0 hi =>
    Res.ok.inj ((C75_less h0 (fun i hb => by rw [hi, hb]; rfl) hrun).symm.trans (C75_less (fun i h1 h2 h3 => by rw [← h0 i h1 h2 h3, h i h1 h2 h3]) (fun i hb => by rw [hi, hb]; simp) hrun'))
  have e : out.keep (f ||| f') = out'.keep (f ||| f') := hf _ (fun i h1 h2 h3 => by rw [Nat.testBit_or, ← h i h1 h2 h3, Bool.or_self]) fun i => Nat.testBit_or ..
  have hk : ∀ {f : Nat} {out : AjOut A W O c.shape.g}, ajRun V fuel c f prec tr0 = .ok out →
      (f.testBit 3 = true → out.integrals = none) ∧ (f.testBit 3 = true ∨ f.testBit 2 = true → out.omega = none) ∧ (f.testBit 3 = true ∨ f.testBit 2 = true ∨ f.testBit 1 = true → out.tau = none) := by
    intro f out hr
    have hk' := C75_less (f' := f) (fun i _ _ _ => rfl) (fun i hb => hb) hr
    have := Res.ok.inj (hr.symm.trans hk')
    rw [this]
    simp only [AjOut.keep]
    refine ⟨fun q => by simp [q], fun q => ?_, fun q => ?_⟩
    · rcases q with q | q <;> simp [q]
    · rcases q with q | q | q <;> simp [q]
  obtain ⟨k1, k2, k3⟩ := hk hrun
  obtain ⟨l1, l2, l3⟩ := hk hrun'
  refine ⟨(congrArg AjOut.type e).symm, (congrArg AjOut.tree e).symm, (congrArg AjOut.loopA e).symm, (congrArg AjOut.loopB e).symm, fun I I' q q' => ?_, fun o o' q q' => ?_, fun t t' q q' => ?_⟩
  · have a3 : f.testBit 3 = false := by
      cases hb : f.testBit 3
      · rfl
      · rw [k1 hb] at q; cases q
    have b3 : f'.testBit 3 = false := by
      cases hb : f'.testBit 3
      · rfl
      · rw [l1 hb] at q'; cases q'
    have := congrArg AjOut.integrals e
    simp only [AjOut.keep, Nat.testBit_or, a3, b3, Bool.or_self, Bool.false_eq_true, if_false] at this
    rw [q, q'] at this
    exact (Option.some.inj this).symm
  · have a3 : f.testBit 3 = false ∧ f.testBit 2 = false := by
      constructor <;> by_contra hb <;> rw [Bool.not_eq_false] at hb
      · rw [k2 (Or.inl hb)] at q; cases q
      · rw [k2 (Or.inr hb)] at q; cases q
    have b3 : f'.testBit 3 = false ∧ f'.testBit 2 = false := by
      constructor <;> by_contra hb <;> rw [Bool.not_eq_false] at hb
      · rw [l2 (Or.inl hb)] at q'; cases q'
      · rw [l2 (Or.inr hb)] at q'; cases q'
    have := congrArg AjOut.omega e
    simp only [AjOut.keep, Nat.testBit_or, a3.1, a3.2, b3.1, b3.2, Bool.or_self, Bool.false_eq_true, if_false] at this
    rw [q, q'] at this
    exact (Option.some.inj this).symm
  · have a3 : f.testBit 3 = false ∧ f.testBit 2 = false ∧ f.testBit 1 = false := by
      refine ⟨?_, ?_, ?_⟩ <;> by_contra hb <;> rw [Bool.not_eq_false] at hb
      · rw [k3 (Or.inl hb)] at q; cases q
      · rw [k3 (Or.inr (Or.inl hb))] at q; cases q
      · rw [k3 (Or.inr (Or.inr hb))] at q; cases q
    have b3 : f'.testBit 3 = false ∧ f'.testBit 2 = false ∧ f'.testBit 1 = false := by
      refine ⟨?_, ?_, ?_⟩ <;> by_contra hb <;> rw [Bool.not_eq_false] at hb
      · rw [l3 (Or.inl hb)] at q'; cases q'
      · rw [l3 (Or.inr (Or.inl hb))] at q'; cases q'
      · rw [l3 (Or.inr (Or.inr hb))] at q'; cases q'
    have := congrArg AjOut.tau e
    simp only [AjOut.keep, Nat.testBit_or, a3.1, a3.2.1, a3.2.2, b3.1, b3.2.1, b3.2.2, Bool.or_self, Bool.false_eq_true, if_false] at this
    rw [q, q'] at this
    exact (Option.some.inj this).symm

/-- **C75 (asking for `tau` too).** If the call without `tau` returns matrices of periods, the call with `tau` goes on with `tau_matrix` on these matrices and fails only if it fails. -/
theorem C75_tau {out : AjOut A W O c.shape.g} (h : SameWork f f') (h1 : f.testBit 1 = false) (h1' : f'.testBit 1 = true) (h2 : f.testBit 2 = false) (h2' : f'.testBit 2 = false) (h3 : f.testBit 3 = false) (h3' : f'.testBit 3 = false)
    (hrun : ajRun V fuel c f' prec tr0 = .ok out) : ∃ om0 om1, out.omega = some (om0, om1) ∧
      ajRun V fuel c f prec tr0 = (tauMatrix O (n := c.shape.g) (m := c.shape.g) (V.mat om0) (V.mat om1)).bind fun t => .ok { out with tau := some (if f.testBit 4 then V.trimTau t else t) } := by
  unfold ajRun at hrun ⊢
  simp only [Res.bind_eq_ok] at hrun
  obtain ⟨⟨tr, ip, data⟩, e1, ⟨al, be⟩, e2, e3⟩ := hrun
  rw [h.ajTree, e1, Res.ok_bind]
  dsimp only at e2 ⊢
  rw [e2, Res.ok_bind]
  dsimp only at e3 ⊢
  rw [if_neg fun q => by simpa [h3'] using noInt_iff.1 q] at e3
  simp only [Res.bind_eq_ok] at e3
  obtain ⟨_, e4, I, e5, e6⟩ := e3
  rw [if_neg fun q => by simpa [h2'] using noAb_iff.1 q] at e6
  simp only [Res.bind_eq_ok] at e6
  obtain ⟨om0, e7, om1, e8, e9⟩ := e6
  rw [if_pos (noTau_iff.2 h1')] at e9
  obtain rfl := (Res.ok.inj e9).symm
  refine ⟨_, _, rfl, ?_⟩
  rw [if_neg fun q => by simpa [h3] using noInt_iff.1 q, e4, Res.ok_bind, h.intType, h.ajIntegrals, e5, Res.ok_bind, if_neg fun q => by simpa [h2] using noAb_iff.1 q, e7, Res.ok_bind, e8, Res.ok_bind, if_neg fun q => by simpa [h1] using noTau_iff.1 q, h.trimIf]
  have h4 : (f &&& ajTrim ≠ 0) = (f.testBit 4 = true) := propext and_bit_ne
  simp only [h4]
  rfl

/-- the default options and `AJ_NO_TAU | AJ_NO_AB` ask for the same work -/
example : SameWork 0 (2 + 4) := fun i h1 h2 _ => by
  rw [show (2 : Nat) + 4 = 2 ^ 1 ||| 2 ^ 2 from rfl, Nat.testBit_or, Nat.testBit_two_pow, Nat.testBit_two_pow]
  simp [Ne.symm h1, Ne.symm h2]

end Hcp
