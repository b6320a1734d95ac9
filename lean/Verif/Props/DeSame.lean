import Verif.Props.DoubleExp
import Verif.Props.ComputeInst

/-!
# C84: the flag `AJ_DE_SAME`
-/

namespace Hcp

variable {A B C W : Type} {O : MatOps}

/-- the row of an edge computed with the scheme `de`: the sum over the points of `de`, the error of `de`, the factors of the edge -/
def RowWith (V : AjEnv A B C W O) (c : Shape) (flag : Nat) (prec : Int) (de : DeInt A) (yd : YData A) (row : Nat → A) : Prop :=
  ∃ s, deIntegralsPrecomp (V.ar prec) (V.tests prec) (c.n + 3) yd.u yd.n1 (c.n - 2) c de flag (decide (1000 < prec) && decide (5 < c.n - 2)) = .ok s ∧
    edgeFactors (V.ar prec) c yd.ba2 yd.ab yd.c (fun i => if i < c.g then de.err (s i) else s i) = .ok row

theorem bind_ok_inv {α β : Type} {x : Res α} {f : α → Res β} {b : β} (h : (x >>= f) = .ok b) : ∃ a, x = .ok a ∧ f a = .ok b := by
  cases x with
  | ok a => exact ⟨a, rfl, h⟩
  | _ => cases h

theorem edgeDe_inv {V : AjEnv A B C W O} {c : Shape} {flag : Nat} {prec : Int} {yd : YData A} {p : DePar A} {de : DeInt A} {s : DeInt A × (Nat → A)}
    (h : integralsEdgeDe (V.ar prec) (V.tests prec) (V.fns prec) c flag (decide (1000 < prec) && decide (5 < c.n - 2)) yd p de = .ok s) :
    deScheme (V.ar prec) (V.fns prec) c flag p de = .ok s.1 ∧ RowWith V c flag prec s.1 yd s.2 := by
  unfold integralsEdgeDe at h
  obtain ⟨d1, e1, h⟩ := bind_ok_inv h
  obtain ⟨r, e2, h⟩ := bind_ok_inv h
  obtain ⟨r1, e3, h⟩ := bind_ok_inv h
  obtain rfl := Res.ok.inj h
  exact ⟨e1, r, e2, e3⟩

theorem deScheme_same {X : Arith A} {F : Fns A} {c : Shape} {flag : Nat} (hflag : flag.testBit 8 = true) {p : DePar A} {de : DeInt A} (h : de.n ≠ 0) :
    deScheme X F c flag p de = .ok de := by
  unfold deScheme
  rw [hflag, decide_eq_false h]
  rfl

/-- once there is a scheme, it serves the rest of the loop -/
theorem treeDe_same_rows {V : AjEnv A B C W O} {c : Shape} {flag : Nat} (hflag : flag.testBit 8 = true) {prec : Int} {data : List (YData A)} {de : DeInt A} (hde : de.n ≠ 0) :
    ∀ {ks : List Nat} {I J : Nat → Nat → A}, ks.Nodup → treeDe V c flag prec data ks de I = .ok J →
      (∀ k ∈ ks, ∃ yd, data[k]? = some yd ∧ RowWith V c flag prec de yd (J k)) ∧ ∀ k ∉ ks, J k = I k
  | [], I, J, _, h => by
    obtain rfl := Res.ok.inj (show Res.ok I = .ok J from h)
    exact ⟨fun k hk => absurd hk List.not_mem_nil, fun k _ => rfl⟩
  | k :: ks, I, J, hnd, h => by
    unfold treeDe at h
    cases hyd : data[k]? with
    | none => rw [hyd] at h; cases h
    | some yd =>
      rw [hyd] at h
      obtain ⟨p, -, h⟩ := bind_ok_inv h
      obtain ⟨s, e2, h⟩ := bind_ok_inv h
      obtain ⟨f1, f2⟩ := edgeDe_inv e2
      rw [deScheme_same hflag hde] at f1
      have hs := (Res.ok.inj f1).symm
      rw [hs] at h f2
      obtain ⟨hk, hnd⟩ := List.nodup_cons.1 hnd
      obtain ⟨g1, g2⟩ := treeDe_same_rows hflag hde hnd h
      refine ⟨fun i hi => ?_, fun i hi => ?_⟩
      · rcases List.mem_cons.1 hi with rfl | hi
        · refine ⟨yd, hyd, ?_⟩
          rw [g2 _ hk, if_pos rfl]
          exact f2
        · exact g1 i hi
      · rw [g2 i fun q => hi (List.mem_cons_of_mem _ q), if_neg (show ¬ i = k from fun q => hi (by rw [q]; exact List.mem_cons_self))]

/-- once there is a scheme, `de_params` is not called -/
theorem treeDe_same_par {V : AjEnv A B C W O} {c : Shape} {flag : Nat} (hflag : flag.testBit 8 = true) {prec : Int} {data : List (YData A)}
    (f : List A → Nat → Nat → Nat → Int → Res (DePar A)) {de : DeInt A} (hde : de.n ≠ 0) :
    ∀ (ks : List Nat) (I : Nat → Nat → A), treeDe { V with dePar := f } c flag prec data ks de I = treeDe V c flag prec data ks de I
  | [], I => rfl
  | k :: ks, I => by
    unfold treeDe
    cases hyd : data[k]? with
    | none => rfl
    | some yd =>
      have hp : ∀ V' : AjEnv A B C W O, deParIf V' c flag prec de.n yd = .ok ⟨0, (V'.ar prec).zero, (V'.ar prec).zero, id⟩ := fun V' => by
        unfold deParIf
        rw [hflag, decide_eq_false hde]
        rfl
      dsimp only
      rw [hp, hp]
      dsimp only [Res.ok_bind]
      unfold integralsEdgeDe
      rw [deScheme_same hflag hde]
      simp only [Res.ok_bind]
      cases deIntegralsPrecomp (V.ar prec) (V.tests prec) (c.n + 3) yd.u yd.n1 (c.n - 2) c de flag (decide (1000 < prec) && decide (5 < c.n - 2)) with
      | ok r =>
        simp only [Res.ok_bind]
        cases edgeFactors (V.ar prec) c yd.ba2 yd.ab yd.c (fun i => if i < c.g then de.err (r i) else r i) with
        | ok r1 =>
          simp only [Res.ok_bind]
          exact treeDe_same_par hflag f hde ks _
        | _ => rfl
      | _ => rfl

/-- the first edge, with the scheme made from its parameters -/
theorem treeDe_same_first {V : AjEnv A B C W O} {c : Shape} {flag : Nat} {prec : Int} {data : List (YData A)} {de0 : DeInt A} (h0 : de0.n = 0) {k : Nat} {ks : List Nat}
    {yd : YData A} (hyd : data[k]? = some yd) {p : DePar A} (hp : V.dePar (pointsOf c.n yd) (c.n - 1) c.j1 c.m prec = .ok p) (I : Nat → Nat → A) :
    treeDe V c flag prec data (k :: ks) de0 I = (integralsEdgeDe (V.ar prec) (V.tests prec) (V.fns prec) c flag (decide (1000 < prec) && decide (5 < c.n - 2)) yd p de0 >>=
      fun s => treeDe V c flag prec data ks s.1 fun i => if i = k then s.2 else I i) := by
  rw [treeDe, hyd]
  dsimp only
  unfold deParIf
  rw [h0]
  simp only [decide_true, Bool.true_or, if_true]
  rw [hp, Res.ok_bind]

theorem deScheme_first {X : Arith A} {F : Fns A} {c : Shape} {flag : Nat} {p : DePar A} {de : DeInt A} (h : de.n = 0) :
    deScheme X F c flag p de = deIntInit X F p.h p.lam p.n p.err c.m := by
  unfold deScheme deReplace
  simp [h]

/-- **C84.** With `AJ_DE_SAME` the integrals of all edges are computed with one scheme, made from the parameters of the first edge `k0` of the order, and with the error bound of this edge. -/
theorem C84_one_scheme {V : AjEnv A B C W O} {fuel : Nat} {c : Shape} {flag : Nat} (hflag : flag.testBit 8 = true) {prec : Int} {es : List (Edge W)} {data : List (YData A)}
    {k0 : Nat} {ks : List Nat} (ho : V.order es = k0 :: ks) (hnd : (k0 :: ks).Nodup) {y0 : YData A} (hy0 : data[k0]? = some y0) {p : DePar A}
    (hp : V.dePar (pointsOf c.n y0) (c.n - 1) c.j1 c.m prec = .ok p) (hpn : p.n ≠ 0) {J : Nat → Nat → A} (hrun : ajIntegrals V fuel c flag prec .de es data = .ok J) :
    ∃ de, deIntInit (V.ar prec) (V.fns prec) p.h p.lam p.n p.err c.m = .ok de ∧ de.n = p.n ∧
      ∀ k ∈ V.order es, ∃ yd, data[k]? = some yd ∧ RowWith V c flag prec de yd (J k) := by
  unfold ajIntegrals at hrun
  dsimp only at hrun
  rw [ho, treeDe_same_first rfl hy0 hp] at hrun
  obtain ⟨s, e1, hrun⟩ := bind_ok_inv hrun
  obtain ⟨f1, f2⟩ := edgeDe_inv e1
  rw [deScheme_first rfl] at f1
  have hn := deIntInit_n f1
  obtain ⟨hk, hnd⟩ := List.nodup_cons.1 hnd
  obtain ⟨g1, g2⟩ := treeDe_same_rows hflag (by rw [hn]; exact hpn) hnd hrun
  refine ⟨s.1, f1, hn, fun k hk' => ?_⟩
  rw [ho] at hk'
  rcases List.mem_cons.1 hk' with rfl | hk'
  · refine ⟨y0, hy0, ?_⟩
    rw [g2 _ hk, if_pos rfl]
    exact f2
  · exact g1 k hk'

/-- **C84 (one call).** With `AJ_DE_SAME` the parameters are computed for the first edge of the order only: two ways of computing them which agree there give the same run, whatever they do
(also fail) for the other edges. -/
theorem C84_one_call {V : AjEnv A B C W O} {fuel : Nat} {c : Shape} {flag : Nat} (hflag : flag.testBit 8 = true) {prec : Int} {es : List (Edge W)} {data : List (YData A)}
    {k0 : Nat} {ks : List Nat} (ho : V.order es = k0 :: ks) {y0 : YData A} (hy0 : data[k0]? = some y0) {p : DePar A}
    (f : List A → Nat → Nat → Nat → Int → Res (DePar A)) (hp : V.dePar (pointsOf c.n y0) (c.n - 1) c.j1 c.m prec = .ok p)
    (hf : f (pointsOf c.n y0) (c.n - 1) c.j1 c.m prec = .ok p) (hpn : p.n ≠ 0) :
    ajIntegrals { V with dePar := f } fuel c flag prec .de es data = ajIntegrals V fuel c flag prec .de es data := by
  unfold ajIntegrals
  dsimp only
  rw [ho, treeDe_same_first rfl hy0 hp, treeDe_same_first (V := { V with dePar := f }) rfl hy0 hf]
  dsimp only
  cases e1 : integralsEdgeDe (V.ar prec) (V.tests prec) (V.fns prec) c flag (decide (1000 < prec) && decide (5 < c.n - 2)) y0 p
      ⟨0, (V.ar prec).zero, fun _ => (V.ar prec).zero, fun _ => (V.ar prec).zero, fun _ => (V.ar prec).zero, id⟩ with
  | ok s =>
    obtain ⟨f1, -⟩ := edgeDe_inv e1
    rw [deScheme_first rfl] at f1
    exact treeDe_same_par hflag f (by rw [deIntInit_n f1]; exact hpn) ks _
  | _ => rfl

/-- The hypotheses of `C84_one_scheme` hold for the equilateral triangle with two edges, `m = 3`, with ten points, at 64 bits (flag 8, and flag 5 for the root). -/
example : ∃ (p : DePar (Set ℂ)) (c : Sec) (data : List (YData (Set ℂ))) (y0 : YData (Set ℂ)) (J : Nat → Nat → Set ℂ), secInit 3 3 = .ok c ∧ (288 : Nat).testBit 8 = true ∧
    (setEnv tri p).order triEdges = [0, 1] ∧ data[0]? = some y0 ∧ (setEnv tri p).dePar (pointsOf c.shape.n y0) (c.shape.n - 1) c.shape.j1 c.shape.m 64 = .ok p ∧ p.n ≠ 0 ∧
    ajIntegrals (setEnv tri p) 2 c.shape 288 64 .de triEdges data = .ok J := by
  obtain ⟨c, data, p, h, lam, e, J, cc, h1, h2, -, -, h3, -, -, h4, -, -, h5, -⟩ := super_inst (m := 3) (Or.inr rfl) (f := 288) (by decide)
  have hrun : ajIntegrals (setEnv tri p) 2 c.shape 288 64 .de triEdges data = .ok J := treeDe_of_run (V := setEnv tri p) (par := fun _ => p) h5 fun _ _ _ _ => rfl
  cases hd : data[0]? with
  | none =>
    have : ajIntegrals (setEnv tri p) 2 c.shape 288 64 .de triEdges data = .ub "tree->data" := by
      unfold ajIntegrals
      dsimp only
      rw [show (setEnv tri p).order triEdges = [0, 1] from rfl, treeDe, hd]
    rw [this] at hrun
    cases hrun
  | some y0 => exact ⟨p, c, data, y0, J, h1, by decide, rfl, hd, rfl, by omega, hrun⟩

end Hcp
