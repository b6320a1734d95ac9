import Verif.Props.RiemannReal
import Verif.Proofs.RealTree

/-!
# C61: hyperelliptic curves with real branch points
-/

namespace Hcp
open Spec Set HalfPlane

variable {A B C W : Type} {O : MatOps} {R : A → ℂ → Prop}

/-- distinct edges without common vertex have intersection number zero -/
theorem number_apart {a b a' b' : Nat} (h1 : a ≠ a') (h2 : a ≠ b') (h3 : b ≠ a') (h4 : b ≠ b') (ca cb ca' cb' : ℂ) : pathNumber (passages 2 a b ca cb 0) (passages 2 a' b' ca' cb' 0) = 0 := by
  rw [pathNumber_eq, if_neg h1, if_neg h2, if_neg h3, if_neg h4]
  norm_num

section
variable {n : Nat} {ξ : Nat → ℝ} {V : AjEnv A B C W O} {RC : {n m : Nat} → O.C n m → Matrix (Fin n) (Fin m) ℂ → Prop} {c : Sec} {out : AjOut A W O c.shape.g}
  {Y : Nat → ℝ → ℂ} {ca cb : Nat → ℂ} {cc : IMat} {Q : Mat (out.tree.e.length * (2 - 1))}

/-- **The bilinear relations of Riemann** for `y^2 = ∏ (x - ξ_k)` with real `ξ_k`, the differentials `x^i dx / y` and the closed paths over the edges of the tree. -/
theorem relations_hyper_real (hn : 2 ≤ n) (h : secInit 2 n = .ok c) (hξ : InjOn ξ (Iio n)) (hr : AjRight V R RC 2 n (fun k => (ξ k : ℂ)) c out Y ca cb cc Q)
    (hfree : FreeEdges (fun k => (ξ k : ℂ)) n out.tree.e) :
    RiemannRelations (cyclePeriods 2 (fun k => (ξ k : ℂ)) out.tree.e Y c.shape) (cc.toMat (out.tree.e.length * (2 - 1))) := by
  obtain ⟨ζ, ρ, ho⟩ := order_exists hξ
  obtain ⟨htree, hsize, hin⟩ := hr.tree
  set es := out.tree.e with hes
  have hL : es.length * (2 - 1) = es.length := by omega
  -- the genus and the number of edges
  have hgen : IsGenus 2 n c.shape.g := isGenus_shape (by exact_mod_cast hn) h
  have hN : es.length = 2 * c.shape.g := by
    have := edges_genus le_rfl hsize hgen (by
      rcases Nat.even_or_odd n with q | q
      · exact Or.inr q.two_dvd
      · exact Or.inl (Nat.coprime_two_left.2 q))
    omega
  have hng : es.length + 2 = n ∨ es.length + 1 = n := by
    by_cases q : 2 ∣ n
    · exact Or.inl (hsize.1 q)
    · exact Or.inr (hsize.2 q)
  -- the edges
  have hne : ∀ k (hk : k < es.length), es[k].a ≠ es[k].b := by
    intro k hk
    have := (htree k (by simpa using hk)).1
    simpa using this
  have hfr : ∀ k (hk : k < es.length), FreeR n ξ es[k].a es[k].b := fun k hk =>
    freeR_of hξ hfree (List.getElem_mem hk) (hin _ (List.getElem_mem hk)).1 (hin _ (List.getElem_mem hk)).2 (hne k hk)
  have hold : ∀ k (hk : k < es.length), k ≠ 0 → ∃ j, ∃ hj : j < k, es[k].a = (es[j]'(hj.trans hk)).a ∨ es[k].a = (es[j]'(hj.trans hk)).b := by
    intro k hk h0
    obtain ⟨e, he, q⟩ := (htree k (by simpa using hk)).2.2 h0
    obtain ⟨j, hj, rfl⟩ := List.getElem_of_mem he
    rw [List.length_take, List.length_map] at hj
    refine ⟨j, by omega, ?_⟩
    simpa using q
  have hnew : ∀ k (hk : k < es.length), ∀ j (hj : j < k), es[k].b ≠ (es[j]'(hj.trans hk)).a ∧ es[k].b ≠ (es[j]'(hj.trans hk)).b := by
    intro k hk j hj
    have h2 := (htree k (by simpa using hk)).2.1
    have hmem : ((es[j]'(hj.trans hk)).a, (es[j]'(hj.trans hk)).b) ∈ (es.map fun f => (f.a, f.b)).take k := List.mem_take_iff_getElem.2 ⟨j, by simp; omega, by simp⟩
    have e2 : ((es.map fun f => (f.a, f.b))[k]'(by simpa using hk)).2 = es[k].b := by simp
    rw [e2] at h2
    exact ⟨fun e => h2 ⟨_, hmem, Or.inl e⟩, fun e => h2 ⟨_, hmem, Or.inr e⟩⟩
  have hdir : ∀ k : Fin es.length, ∃ σ, EdgeDir n ξ es[k.val].a es[k.val].b (Y k) (ca k) (cb k) σ := by
    intro k
    obtain ⟨b1, b2, b3⟩ := hr.branches k es[k.val] (List.getElem?_eq_getElem k.isLt)
    exact (hfr k k.isLt).dir b1 b2 b3
  choose σ0 hσ0 using hdir
  have hnum : ∀ k l : Fin es.length, ((cc k l : ℤ) : ℚ) = pathNumber (passages 2 es[k.val].a es[k.val].b (ca k) (cb k) 0) (passages 2 es[l.val].a es[l.val].b (ca l) (cb l) 0) := by
    intro k l
    have := hr.numbers k l es[k.val] es[l.val] 0 0 (List.getElem?_eq_getElem k.isLt) (List.getElem?_eq_getElem l.isLt) (by norm_num) (by norm_num)
    simpa using this
  have hanti : ∀ k l : Fin es.length, cc k l = -cc l k := by
    intro k l
    exact hr.whole.1 ⟨k.val, by show k.val < es.length * (2 - 1); have := k.isLt; omega⟩ ⟨l.val, by show l.val < es.length * (2 - 1); have := l.isLt; omega⟩
  -- two edges with a common vertex
  have hpair1 : ∀ k l : Fin es.length, k.val < l.val → (es[l.val].a = es[k.val].a ∨ es[l.val].a = es[k.val].b) →
      ∃ κ : ℤ, (κ = 1 ∨ κ = -1) ∧ cc k l = κ ∧ (starRingEnd ℂ) (σ0 k) * σ0 l = κ * Complex.I := by
    intro k l hkl hv
    have hnw := hnew l l.isLt k hkl
    have fk := hfr k k.isLt
    have fl := hfr l l.isLt
    have dk := hσ0 k
    have dl := hσ0 l
    have hn' := hnum k l
    rcases hv with hv | hv
    · rw [hv] at fl dl hn'
      obtain ⟨κ, h1, h2, h3⟩ := number_start hξ fk fl hnw.2.symm dk dl
      rw [h2] at hn'
      exact ⟨κ, h1, by exact_mod_cast hn', h3⟩
    · rw [hv] at fl dl hn'
      obtain ⟨κ, h1, h2, h3⟩ := number_end hξ fk fl hnw.1.symm dk dl
      rw [h2] at hn'
      exact ⟨κ, h1, by exact_mod_cast hn', h3⟩
  -- positions
  set α : Nat → Nat := fun k => if hk : k < es.length then ρ es[k].a else 0 with hα
  set β : Nat → Nat := fun k => if hk : k < es.length then ρ es[k].b else 0 with hβ
  have eα : ∀ k (hk : k < es.length), α k = ρ es[k].a := fun k hk => by rw [hα]; exact dif_pos hk
  have eβ : ∀ k (hk : k < es.length), β k = ρ es[k].b := fun k hk => by rw [hβ]; exact dif_pos hk
  have hadj : ∀ k < es.length, β k = α k + 1 ∨ α k = β k + 1 := fun k hk => by
    rw [eα k hk, eβ k hk]
    exact ho.adj (hfr k hk)
  have hold' : ∀ k < es.length, k ≠ 0 → ∃ j < k, α k = α j ∨ α k = β j := by
    intro k hk h0
    obtain ⟨j, hj, q⟩ := hold k hk h0
    refine ⟨j, hj, ?_⟩
    rw [eα k hk, eα j (by omega), eβ j (by omega)]
    rcases q with q | q
    · exact Or.inl (by rw [q])
    · exact Or.inr (by rw [q])
  have hnew' : ∀ k < es.length, ∀ j < k, β k ≠ α j ∧ β k ≠ β j := by
    intro k hk j hj
    obtain ⟨q1, q2⟩ := hnew k hk j hj
    rw [eβ k hk, eα j (by omega), eβ j (by omega)]
    have fk := hfr k hk
    have fj := hfr j (hj.trans hk)
    exact ⟨fun e => q1 (ho.inj hξ fk.hb fj.ha e), fun e => q2 (ho.inj hξ fk.hb fj.hb e)⟩
  obtain ⟨s, hsl, hpos⟩ : ∃ s, s + es.length < n ∧ ∀ p, s ≤ p → p < s + es.length → ∃ j < es.length, min (α j) (β j) = p := by
    by_cases h0 : es.length = 0
    · exact ⟨0, by omega, fun p h1 h2 => by omega⟩
    · obtain ⟨s, t1, t2⟩ := tree_interval hadj hold' hnew' es.length le_rfl h0
      refine ⟨s, ?_, fun p h1 h2 => (t2 p).2 ⟨h1, h2⟩⟩
      obtain ⟨j, hj, q⟩ := (t1 (s + es.length)).2 ⟨by omega, le_rfl⟩
      rw [eα j hj, eβ j hj] at q
      rcases q with q | q <;> rw [q]
      · exact ho.lt _ (hfr j hj).ha
      · exact ho.lt _ (hfr j hj).hb
  have hsur : ∀ q : Fin (2 * c.shape.g), ∃ k : Fin (es.length * (2 - 1)), min (α k) (β k) = s + q := by
    intro q
    have hq := q.isLt
    obtain ⟨j, hj, e⟩ := hpos (s + q) (by omega) (by omega)
    exact ⟨⟨j, by omega⟩, e⟩
  choose E hE using hsur
  have hEinj : Function.Injective E := by
    intro p q e
    have h1 := hE p
    rw [e, hE q] at h1
    exact Fin.ext (by omega)
  have hEbij : Function.Bijective E := (Fintype.bijective_iff_injective_and_card E).2 ⟨hEinj, by simp only [Fintype.card_fin]; omega⟩
  have hElt : ∀ q, (E q).val < es.length := fun q => by have := (E q).isLt; omega
  -- neighbours
  have hpair : ∀ p q : Fin (2 * c.shape.g), p.val + 1 = q.val →
      ∃ κ : ℤ, (κ = 1 ∨ κ = -1) ∧ cc (E p) (E q) = κ ∧ (starRingEnd ℂ) (σ0 ⟨E p, hElt p⟩) * σ0 ⟨E q, hElt q⟩ = κ * Complex.I := by
    intro p q hpq
    have hp := hE p
    have hq := hE q
    have ap := hadj _ (hElt p)
    have aq := hadj _ (hElt q)
    have hmeet : ∀ k l, (hk : k < es.length) → (hl : l < es.length) → k < l → (α l = α k ∨ α l = β k ∨ β l = α k ∨ β l = β k) → es[l].a = es[k].a ∨ es[l].a = es[k].b := by
      intro k l hk hl hkl hv
      have hnw := hnew' l hl k hkl
      have fk := hfr k hk
      have fl := hfr l hl
      rcases hv with hv | hv | hv | hv
      · rw [eα k hk, eα l hl] at hv
        exact Or.inl (ho.inj hξ fl.ha fk.ha hv)
      · rw [eβ k hk, eα l hl] at hv
        exact Or.inr (ho.inj hξ fl.ha fk.hb hv)
      · exact absurd hv hnw.1
      · exact absurd hv hnw.2
    rcases lt_trichotomy (E p).val (E q).val with hlt | heq | hgt
    · exact hpair1 ⟨E p, hElt p⟩ ⟨E q, hElt q⟩ hlt (hmeet _ _ (hElt p) (hElt q) hlt (by omega))
    · exfalso
      rw [heq] at hp
      omega
    · obtain ⟨κ, h1, h2, h3⟩ := hpair1 ⟨E q, hElt q⟩ ⟨E p, hElt p⟩ hgt (hmeet _ _ (hElt q) (hElt p) hgt (by omega))
      refine ⟨-κ, by rcases h1 with rfl | rfl <;> simp, ?_, ?_⟩
      · rw [← h2]
        exact hanti ⟨E p, hElt p⟩ ⟨E q, hElt q⟩
      · have := congrArg (starRingEnd ℂ) h3
        simp only [map_mul, Complex.conj_conj, Complex.conj_I, map_intCast] at this
        rw [mul_comm, this]
        push_cast
        ring
  have hapart : ∀ p q : Fin (2 * c.shape.g), p.val + 1 ≠ q.val → q.val + 1 ≠ p.val → cc (E p) (E q) = 0 := by
    intro p q h1 h2
    by_cases hpq : p = q
    · subst hpq
      have := hanti ⟨E p, hElt p⟩ ⟨E p, hElt p⟩
      simp only at this
      omega
    · have hpq' : p.val ≠ q.val := fun e => hpq (Fin.ext e)
      have hp := hE p
      have hq := hE q
      have ap := hadj _ (hElt p)
      have aq := hadj _ (hElt q)
      have e1 := eα _ (hElt p)
      have e2 := eβ _ (hElt p)
      have e3 := eα _ (hElt q)
      have e4 := eβ _ (hElt q)
      have := hnum ⟨E p, hElt p⟩ ⟨E q, hElt q⟩
      rw [number_apart (fun e => ?_) (fun e => ?_) (fun e => ?_) (fun e => ?_)] at this
      · exact_mod_cast this
      · simp only at e
        rw [e] at e1
        omega
      · simp only at e
        rw [e] at e1
        omega
      · simp only at e
        rw [e] at e2
        omega
      · simp only at e
        rw [e] at e2
        omega
  -- the chain
  let m : Fin c.shape.g → Nat → ℝ := fun r q => 2 * seg n ζ (Pi.single r (1 : ℝ)) (s + q)
  have hζ : InjOn ζ (Iio n) := by
    intro i hi j hj e
    rcases lt_trichotomy i j with q | q | q
    · exact absurd e (ho.mono i j q hj).ne
    · exact q
    · exact absurd e.symm (ho.mono j i q hi).ne
  have hcomb : ∀ a q, comb m a q = 2 * seg n ζ a (s + q) := by
    intro a q
    rw [seg_comb hζ (by omega)]
    unfold comb
    rw [Finset.mul_sum]
    exact Finset.sum_congr rfl fun r _ => by ring
  have htri : ∀ a b, HalfPlane.tri (2 * c.shape.g) (fun p => eps p * comb m b p) (fun q => ome q * comb m a q) = 4 * form n ζ s a b := by
    intro a b
    simp only [hcomb]
    unfold form HalfPlane.tri
    rw [Finset.mul_sum]
    refine Finset.sum_congr rfl fun j _ => ?_
    rw [show ∑ i ∈ Finset.range j, eps i * (2 * seg n ζ b (s + i)) = 2 * ∑ i ∈ Finset.range j, eps i * seg n ζ b (s + i) by rw [Finset.mul_sum]; exact Finset.sum_congr rfl fun i _ => by ring]
    ring
  have hfr' := form_riemann (g := c.shape.g) ho.mono (s := s) (by omega)
  refine relations_reindex (Equiv.ofBijective E hEbij) ?_
  let σ : Nat → ℂ := fun q => if hq : q < 2 * c.shape.g then σ0 ⟨E ⟨q, hq⟩, hElt _⟩ else 0
  let κ : Nat → ℤ := fun q => if hq : q + 1 < 2 * c.shape.g then cc (E ⟨q, by omega⟩) (E ⟨q + 1, hq⟩) else 0
  have eσ : ∀ q : Fin (2 * c.shape.g), σ q = σ0 ⟨E q, hElt q⟩ := fun q => dif_pos q.isLt
  have eκ : ∀ p q : Fin (2 * c.shape.g), p.val + 1 = q.val → κ p = cc (E p) (E q) := by
    intro p q hpq
    have : q = ⟨p.val + 1, by have := q.isLt; omega⟩ := Fin.ext hpq.symm
    rw [this]
    exact dif_pos _
  refine relations_chain (κ := κ) (σ := σ) (m := m) (fun p q hpq => ?_) (fun p q hpq => ?_) (fun p q h1 h2 => ?_) (fun q hq => ?_) (fun q hq => ?_) (fun q hq => ?_) (fun r q => ?_) (fun a b => ?_) fun a ha => ?_
  · rw [eκ p q hpq]
    rfl
  · rw [eκ q p hpq]
    exact hanti ⟨E p, hElt p⟩ ⟨E q, hElt q⟩
  · exact hapart p q h1 h2
  · have := eκ ⟨q, by omega⟩ ⟨q + 1, hq⟩ rfl
    simp only at this
    rw [this]
    obtain ⟨k, h1, h2, -⟩ := hpair ⟨q, by omega⟩ ⟨q + 1, hq⟩ rfl
    rw [h2]
    rcases h1 with rfl | rfl <;> norm_num
  · have := eσ ⟨q, hq⟩
    simp only at this
    rw [this]
    exact (hσ0 _).norm
  · have e1 := eκ ⟨q, by omega⟩ ⟨q + 1, hq⟩ rfl
    have e2 := eσ ⟨q, by omega⟩
    have e3 := eσ ⟨q + 1, hq⟩
    simp only at e1 e2 e3
    obtain ⟨k, -, h2, h3⟩ := hpair ⟨q, by omega⟩ ⟨q + 1, hq⟩ rfl
    have hu := (hσ0 ⟨E ⟨q, by omega⟩, hElt _⟩).norm
    rw [e1, e2, e3, h2]
    linear_combination (σ0 ⟨E ⟨q, by omega⟩, hElt _⟩) * h3 - (σ0 ⟨E ⟨q + 1, hq⟩, hElt _⟩) * hu
  · rw [eσ]
    simp only [Matrix.submatrix_apply, id, Equiv.ofBijective_apply, cyclePeriods, Matrix.of_apply, show (2 : Nat) - 1 = 1 from rfl, Nat.div_one, Nat.mod_one, List.getElem?_eq_getElem (hElt q), diffOf_two (by exact_mod_cast hn) h r.isLt]
    rw [(hσ0 ⟨E q, hElt q⟩).cyc, ho.mom (hfr _ (hElt q)) r, ← eα _ (hElt q), ← eβ _ (hElt q), hE q]
  · rw [htri, htri, (hfr' a b).1]
  · rw [htri]
    have := (hfr' a a).2 ha
    linarith

/-- **C61 (hyperelliptic curves with real branch points).** Curve `y^2 = ∏ (x - ξ_k)` with at least two distinct real branch points, any genus.  If the output is right in the sense of C56 and no edge of the tree passes
through a third branch point, then the exact matrix of the periods over the loops `alpha` is invertible and the matrix `tau` with `omega0 tau = omega1` is symmetric with a positive definite imaginary part. -/
theorem C61_hyperelliptic_real (hn : 2 ≤ n) (h : secInit 2 n = .ok c) (hξ : InjOn ξ (Iio n)) (hr : AjRight V R RC 2 n (fun k => (ξ k : ℂ)) c out Y ca cb cc Q)
    (hfree : FreeEdges (fun k => (ξ k : ℂ)) n out.tree.e) :
    (periodsOf 2 (fun k => (ξ k : ℂ)) out.tree.e Y c.shape out.loopA).det ≠ 0 ∧
      ∀ tau, periodsOf 2 (fun k => (ξ k : ℂ)) out.tree.e Y c.shape out.loopA * tau = periodsOf 2 (fun k => (ξ k : ℂ)) out.tree.e Y c.shape out.loopB → IsRiemannMatrix tau :=
  C61_relations le_rfl hr (relations_hyper_real hn h hξ hr hfree)

end

/-- The hypotheses of `C61_hyperelliptic_real` are met for every `n`: points 0, 1, 2, ..., exact arithmetic. -/
example {B C : Type} {O : MatOps} (V : AjEnv ℂ B C ℝ O) {n : Nat} (hn : 2 ≤ n) {c : Sec} (h : secInit 2 n = .ok c) : ∃ (out : AjOut ℂ ℝ O c.shape.g) (Y : Nat → ℝ → ℂ) (ca cb : Nat → ℂ) (cc : IMat) (Q : Mat (out.tree.e.length * (2 - 1))),
    AjRight V (fun a z => a = z) (fun _ _ => True) 2 n (fun k => ((k : ℝ) : ℂ)) c out Y ca cb cc Q ∧ FreeEdges (fun k => ((k : ℝ) : ℂ)) n out.tree.e := by
  have hx : InjOn (fun k : Nat => ((k : ℝ) : ℂ)) (Iio n) := fun a _ b _ h => Nat.cast_injective (Complex.ofReal_injective h)
  obtain ⟨N, hN⟩ : ∃ N, TreeSize 2 n N := by
    by_cases q : 2 ∣ n
    · exact ⟨n - 2, fun _ => by omega, fun q' => absurd q q'⟩
    · exact ⟨n - 1, fun q' => absurd q' q, fun _ => by omega⟩
  obtain ⟨tr, data, al, be, -, -, -, hf, Y, ca, cb, cc, Q, hr⟩ := ajRight_exact V (RC := fun _ _ => True) (lam := Real.pi / 2) (by positivity) .gc hn h hx hN
  exact ⟨_, Y, ca, cb, cc, Q, hr, hf⟩

end Hcp
