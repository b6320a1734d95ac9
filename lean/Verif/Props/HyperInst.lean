import Verif.Props.HyperPeriods

/-!
# An instance of the hypotheses of C45 and C47: arithmetic on sets

Sets of complex numbers with the images of the exact operations form an arithmetic with the inclusion property, in which adding an error is possible.
-/

namespace Hcp

open Set

/-- operations on sets -/
noncomputable def setArith : Arith (Set ℂ) where
  zero := {0}
  one := {1}
  add := image2 exact.add
  sub := image2 exact.sub
  mul := image2 exact.mul
  neg := image exact.neg
  div := image2 exact.div
  inv := image exact.inv
  pow s k := (exact.pow · k) '' s
  ofInt k := {exact.ofInt k}
  mul2exp s k := (exact.mul2exp · k) '' s
  root m := image (exact.root m)
  sqrt := image exact.sqrt
  unitRoot n := {exact.unitRoot n}
  log := image exact.log
  exp := image exact.exp
  divI := image exact.divI
  pi := {exact.pi}

theorem setArith_encloses : Encloses setArith exact (fun s z => z ∈ s) where
  zero := rfl
  one := rfl
  add := mem_image2_of_mem
  sub := mem_image2_of_mem
  mul := mem_image2_of_mem
  neg := mem_image_of_mem _
  div := mem_image2_of_mem
  inv := mem_image_of_mem _
  pow k h := mem_image_of_mem (exact.pow · k) h
  ofInt _ := rfl
  mul2exp k h := mem_image_of_mem (exact.mul2exp · k) h
  root _ := mem_image_of_mem _
  sqrt := mem_image_of_mem _
  unitRoot _ := rfl
  log := mem_image_of_mem _
  exp := mem_image_of_mem _
  divI := mem_image_of_mem _
  pi := rfl

noncomputable def setFns : Fns (Set ℂ) where
  re := image exactFns.re
  im := image exactFns.im
  sinh := image exactFns.sinh
  cosh := image exactFns.cosh
  gammaQ p q := {exactFns.gammaQ p q}
  sqrtPi := {exactFns.sqrtPi}

theorem setFns_encloses : EnclosesFns setFns exactFns (fun s z => z ∈ s) where
  re := mem_image_of_mem _
  im := mem_image_of_mem _
  sinh := mem_image_of_mem _
  cosh := mem_image_of_mem _
  gammaQ _ _ := rfl
  sqrtPi := rfl

/-- non-empty sets of real numbers -/
abbrev RSet := {s : Set ℝ // s.Nonempty}

namespace RSet

/-- image of a function -/
def map (f : ℝ → ℝ) (b : RSet) : RSet := ⟨f '' b.1, b.2.image f⟩
/-- image of a function of two variables -/
def map2 (f : ℝ → ℝ → ℝ) (b c : RSet) : RSet := ⟨image2 f b.1 c.1, b.2.image2 c.2⟩
/-- one number -/
def pt (x : ℝ) : RSet := ⟨{x}, singleton_nonempty x⟩

end RSet

open Classical in
/-- the operations of `gc_params` on sets -/
noncomputable def setPar : ParOps (Set ℂ) RSet where
  addSi s k := (fun z => z + (k : ℂ)) '' s
  abs s := if h : s.Nonempty then ⟨norm '' s, h.image _⟩ else RSet.pt 0
  add := RSet.map2 (· + ·)
  sub := RSet.map2 (· - ·)
  mul := RSet.map2 (· * ·)
  div := RSet.map2 (· / ·)
  mulSi b k := RSet.map (fun x => x * k) b
  mul2exp b k := RSet.map (fun x => x * 2 ^ k) b
  sub1 := RSet.map (fun x => x - 1)
  subArf b t := RSet.map (fun x => x - t) b
  log := RSet.map Real.log
  exp := RSet.map Real.exp
  acosh := RSet.map Real.arcosh
  logSqrt2pi := RSet.pt (Real.log (Real.sqrt (2 * Real.pi)))
  log2 := RSet.pt (Real.log 2)
  one := RSet.pt 1
  isPositive b := decide (∀ x ∈ b.1, 0 < x)
  isFinite _ := true
  overlaps b c := decide (b.1 ∩ c.1).Nonempty
  ball t _ := RSet.pt t
  mid b := b.2.some
  absLbound b := sInf ((fun x => |x|) '' b.1)
  ubound b := if BddAbove b.1 then some (sSup b.1) else none
  mag b := if BddAbove ((fun x => |x|) '' b.1) then some (sSup ((fun x => |x|) '' b.1)) else none

theorem setPar_sound : Spec.ParSound setPar (fun s z => z ∈ s) (fun b x => x ∈ b.1) where
  addSi k h := mem_image_of_mem _ h
  abs := by
    intro s z h
    have hs : s.Nonempty := ⟨z, h⟩
    have : setPar.abs s = ⟨norm '' s, hs.image _⟩ := dif_pos hs
    rw [this]
    exact mem_image_of_mem _ h
  add := mem_image2_of_mem
  sub := mem_image2_of_mem
  mul := mem_image2_of_mem
  div h1 h2 _ := mem_image2_of_mem h1 h2
  mulSi k h := mem_image_of_mem _ h
  mul2exp k h := mem_image_of_mem _ h
  sub1 h := mem_image_of_mem (fun x => x - 1) h
  subArf t h := mem_image_of_mem _ h
  log h _ := mem_image_of_mem _ h
  exp h := mem_image_of_mem _ h
  acosh h _ := mem_image_of_mem _ h
  logSqrt2pi := rfl
  log2 := rfl
  one := rfl
  isPositive h1 h2 := by
    simp only [setPar, decide_eq_true_eq] at h1
    exact h1 _ h2
  overlaps h1 h2 h3 := by
    simp only [setPar, decide_eq_false_iff_not] at h1
    exact h1 ⟨_, h2, h3⟩
  ball _ _ _ := rfl
  mid b := b.2.some_mem
  mid_ball t _ := by
    have : (RSet.pt t).2.some ∈ ({t} : Set ℝ) := (RSet.pt t).2.some_mem
    exact this
  absLbound h := csInf_le ⟨0, by rintro _ ⟨y, _, rfl⟩; exact abs_nonneg y⟩ (mem_image_of_mem _ h)
  ubound := by
    intro b x t h1 h2
    simp only [setPar] at h1
    split at h1
    · rename_i hb
      obtain rfl := Option.some.inj h1
      exact le_csSup hb h2
    · cases h1
  mag := by
    intro b x e h1 h2
    simp only [setPar] at h1
    split at h1
    · rename_i hb
      obtain rfl := Option.some.inj h1
      exact le_csSup hb (mem_image_of_mem _ h2)
    · cases h1

/-! ## `gc_params` on one-point sets is `gc_params` in exact arithmetic -/

section
theorem map_pt (f : ℝ → ℝ) (x : ℝ) : RSet.map f (RSet.pt x) = RSet.pt (f x) := Subtype.ext image_singleton
theorem map2_pt (f : ℝ → ℝ → ℝ) (x y : ℝ) : RSet.map2 f (RSet.pt x) (RSet.pt y) = RSet.pt (f x y) := Subtype.ext image2_singleton

theorem set_addSi (z : ℂ) (k : Int) : setPar.addSi {z} k = {exactPar.addSi z k} := image_singleton
theorem set_abs (z : ℂ) : setPar.abs {z} = RSet.pt (exactPar.abs z) := by
  simp only [setPar, dif_pos (singleton_nonempty z)]
  exact Subtype.ext image_singleton
theorem set_add (x y : ℝ) : setPar.add (RSet.pt x) (RSet.pt y) = RSet.pt (exactPar.add x y) := map2_pt _ x y
theorem set_sub (x y : ℝ) : setPar.sub (RSet.pt x) (RSet.pt y) = RSet.pt (exactPar.sub x y) := map2_pt _ x y
theorem set_mul (x y : ℝ) : setPar.mul (RSet.pt x) (RSet.pt y) = RSet.pt (exactPar.mul x y) := map2_pt _ x y
theorem set_div (x y : ℝ) : setPar.div (RSet.pt x) (RSet.pt y) = RSet.pt (exactPar.div x y) := map2_pt _ x y
theorem set_mulSi (x : ℝ) (k : Int) : setPar.mulSi (RSet.pt x) k = RSet.pt (exactPar.mulSi x k) := map_pt _ x
theorem set_mul2exp (x : ℝ) (k : Int) : setPar.mul2exp (RSet.pt x) k = RSet.pt (exactPar.mul2exp x k) := map_pt _ x
theorem set_sub1 (x : ℝ) : setPar.sub1 (RSet.pt x) = RSet.pt (exactPar.sub1 x) := map_pt _ x
theorem set_subArf (x t : ℝ) : setPar.subArf (RSet.pt x) t = RSet.pt (exactPar.subArf x t) := map_pt _ x
theorem set_log (x : ℝ) : setPar.log (RSet.pt x) = RSet.pt (exactPar.log x) := map_pt _ x
theorem set_exp (x : ℝ) : setPar.exp (RSet.pt x) = RSet.pt (exactPar.exp x) := map_pt _ x
theorem set_acosh (x : ℝ) : setPar.acosh (RSet.pt x) = RSet.pt (exactPar.acosh x) := map_pt _ x
theorem set_logSqrt2pi : setPar.logSqrt2pi = RSet.pt exactPar.logSqrt2pi := rfl
theorem set_log2 : setPar.log2 = RSet.pt exactPar.log2 := rfl
theorem set_one : setPar.one = RSet.pt exactPar.one := rfl
theorem set_isPositive (x : ℝ) : setPar.isPositive (RSet.pt x) = exactPar.isPositive x := by
  simp [setPar, exactPar, RSet.pt]
theorem set_overlaps (x y : ℝ) : setPar.overlaps (RSet.pt x) (RSet.pt y) = exactPar.overlaps x y := by
  simp [setPar, exactPar, RSet.pt, eq_comm]
theorem set_ball (t s : ℝ) : setPar.ball t s = RSet.pt (exactPar.ball t s) := rfl
theorem set_mid (x : ℝ) : setPar.mid (RSet.pt x) = exactPar.mid x := setPar_sound.mid_ball x 0
theorem set_absLbound (x : ℝ) : setPar.absLbound (RSet.pt x) = exactPar.absLbound x := by
  simp [setPar, exactPar, RSet.pt]
theorem set_ubound (x : ℝ) : setPar.ubound (RSet.pt x) = exactPar.ubound x := by
  simp [setPar, exactPar, RSet.pt]
theorem set_mag (x : ℝ) : setPar.mag (RSet.pt x) = exactPar.mag x := by
  simp [setPar, exactPar, RSet.pt]

theorem set_funcR (z : ℂ) : funcRGc setPar {z} = (funcRGc exactPar z >>= fun r => .ok (RSet.pt r)) := by
  unfold funcRGc
  simp only [set_addSi, set_abs, set_add, set_mul2exp, set_sub1, set_isPositive]
  split <;> rfl

theorem set_vecR : ∀ (u : List ℂ) (r0 : Option ℝ), vecR setPar (u.map fun z => {z}) r0 =
    (vecR exactPar u r0 >>= fun s => .ok (s.1, s.2.map RSet.pt))
  | [], r0 => rfl
  | z :: us, r0 => by
    simp only [List.map_cons, vecR, set_funcR]
    cases funcRGc exactPar z with
    | ok r =>
      simp only [Res.ok_bind, set_absLbound, set_vecR us]
      cases vecR exactPar us _ <;> rfl
    | abort w => rfl
    | ub w => rfl
    | diverge => rfl

theorem set_majLoop (r : ℝ) (t : ℝ) : ∀ (vr : List ℝ) (m : ℝ) (K : Nat), majLoop setPar (RSet.pt r) t (vr.map RSet.pt) (RSet.pt m) K =
    (RSet.pt (majLoop exactPar r t vr m K).1, (majLoop exactPar r t vr m K).2)
  | [], m, K => rfl
  | v :: vr, m, K => by
    simp only [List.map_cons, majLoop, set_overlaps, set_subArf, set_mul]
    split
    · exact set_majLoop r t vr m (K + 1)
    · exact set_majLoop r t vr _ K

theorem set_majYr (m0 r : ℝ) (vr : List ℝ) : majYr setPar (RSet.pt m0) (RSet.pt r) (vr.map RSet.pt) =
    (majYr exactPar m0 r vr >>= fun s => .ok (RSet.pt s.1, s.2)) := by
  have h1 : ∀ b, setPar.isFinite b = true := fun _ => rfl
  have h2 : ∀ b, exactPar.isFinite b = true := fun _ => rfl
  unfold majYr
  simp only [h1, h2, if_true, set_one, set_mid, set_majLoop, set_log, set_mul2exp, set_sub]
  rfl

theorem set_chooseR (D : DblOps) (r0 m : ℝ) (K : Nat) : chooseR setPar D r0 (RSet.pt m) K = (chooseR exactPar D r0 m K >>= fun r => .ok (RSet.pt r)) := by
  unfold chooseR
  rw [set_mid]
  split
  · split <;> rfl
  · rfl

theorem set_loop (D : DblOps) (r0 m0 : ℝ) (vr : List ℝ) : ∀ (fuel : Nat) (r : ℝ), gcParLoop setPar D r0 (RSet.pt m0) (vr.map RSet.pt) fuel (RSet.pt r) =
    (gcParLoop exactPar D r0 m0 vr fuel r >>= fun s => .ok (RSet.pt s.1, RSet.pt s.2))
  | 0, r => rfl
  | fuel + 1, r => by
    simp only [gcParLoop, set_majYr]
    cases majYr exactPar m0 r vr with
    | ok s =>
      obtain ⟨m, K⟩ := s
      simp only [Res.ok_bind]
      by_cases hK : K = 0
      · simp only [hK, if_true, Res.ok_bind]
      · simp only [hK, if_false, set_chooseR]
        cases chooseR exactPar D r0 m K with
        | ok r' => exact set_loop D r0 m0 vr fuel r'
        | abort w => rfl
        | ub w => rfl
        | diverge => rfl
    | abort w => rfl
    | ub w => rfl
    | diverge => rfl

theorem set_gcParams (D : DblOps) (fuel : Nat) (u : List ℂ) (d prec : Int) :
    gcParams setPar D fuel (u.map fun z => {z}) d prec = gcParams exactPar D fuel u d prec := by
  unfold gcParams
  rw [set_vecR]
  cases vecR exactPar u none with
  | ok s =>
    obtain ⟨r0, vr⟩ := s
    simp only [Res.ok_bind, set_ball, set_logSqrt2pi, set_mul2exp, set_log, set_mulSi, set_add, set_log2, set_loop]
    cases gcParLoop exactPar D (r0.getD 0) _ vr fuel _ with
    | ok s =>
      simp only [Res.ok_bind, set_acosh, set_div, set_mul2exp, set_ubound, set_exp, set_mulSi, set_sub1, set_mag, set_mid]
    | abort w => rfl
    | ub w => rfl
    | diverge => rfl
  | abort w => rfl
  | ub w => rfl
  | diverge => rfl

end

/-! ## The curve with branch points `-1, 1, 2` -/

theorem setArith_pt : Encloses setArith exact (fun s z => s = {z}) where
  zero := rfl
  one := rfl
  add := by rintro _ _ _ _ rfl rfl; exact image2_singleton
  sub := by rintro _ _ _ _ rfl rfl; exact image2_singleton
  mul := by rintro _ _ _ _ rfl rfl; exact image2_singleton
  neg := by rintro _ _ rfl; exact image_singleton
  div := by rintro _ _ _ _ rfl rfl; exact image2_singleton
  inv := by rintro _ _ rfl; exact image_singleton
  pow k := by rintro rfl; exact image_singleton
  ofInt _ := rfl
  mul2exp k := by rintro rfl; exact image_singleton
  root _ := by rintro rfl; exact image_singleton
  sqrt := by rintro _ _ rfl; exact image_singleton
  unitRoot _ := rfl
  log := by rintro _ _ rfl; exact image_singleton
  exp := by rintro _ _ rfl; exact image_singleton
  divI := by rintro _ _ rfl; exact image_singleton
  pi := rfl

/-- tests that never report a zero -/
def setTests : Tests (Set ℂ) where
  reNeg _ := false
  reNonpos _ := false
  reNonneg _ := false
  imNonpos _ := false
  imHasZero _ := false
  imSgn _ := 1
  hasZero _ := false
  finite _ := true
  arg s := s
  uniqueInt _ := none

/-- branch points `-1, 1, 2` -/
noncomputable def pts3 (k : Nat) : ℂ := if k = 0 then -1 else if k = 1 then 1 else 2

/-- Instance of `C45_edge_partial`, `C45_tree_partial` and `C47_periods_partial`: all their hypotheses together hold for the curve with branch points `-1, 1, 2`, the edge from `-1` to `1`,
64 bits and the loop made of the elementary cycle over this edge. -/
theorem hyper_inst : ∃ (c : Sec) (data : List (YData (Set ℂ))) (par : Nat → GcPar) (e : Nat → ℝ) (err : Nat → Set ℂ → Set ℂ) (I' : Nat → Nat → Set ℂ),
    secInit 2 3 = .ok c ∧ c.shape.g = 1 ∧ (∀ ed ∈ [({ a := 0, b := 1, r := () } : Edge Unit)], ed.a < 3 ∧ ed.b < 3 ∧ pts3 ed.a ≠ pts3 ed.b) ∧
    treeYdataInit setArith setTests (fun k => {pts3 k}) 3 2 [({ a := 0, b := 1, r := () } : Edge Unit)] = .ok data ∧ data.length = 1 ∧
    (∀ (k : Nat) (yd : YData (Set ℂ)), data[k]? = some yd → gcParams setPar dblInst 2 ((List.range (3 - 2)).map yd.u) c.shape.g 64 = .ok (par k) ∧ (par k).e = some (e k) ∧
      1 < (par k).r ∧ (par k).r ≤ (par k).r0 ∧ 1 ≤ (par k).n) ∧
    (∀ (k : Nat) (v : Set ℂ) (z z' : ℂ), z ∈ v → ‖z - z'‖ ≤ e k → z' ∈ err k v) ∧
    integralsTreeGc setArith setTests setFns c.shape (2 ^ 5) data (fun k => (par k).n.toNat) err [0] { n := 0, len := 0, x := fun _ => {0} } (fun _ _ => {0}) = .ok I' := by
  obtain ⟨c, hc, hg⟩ : ∃ c, secInit 2 3 = .ok c ∧ c.shape.g = 1 := by
    refine ⟨_, rfl, ?_⟩
    decide +kernel
  have hcn : c.shape.n = 3 := by
    obtain ⟨_, _, e2, _⟩ := secInit_fields hc (by norm_num)
    unfold Sec.shape
    simp [e2]
  obtain ⟨p, e, hp, hpe, h1, h2, h3, -⟩ := gcParams_inst
  have h01 : pts3 0 ≠ pts3 1 := by
    simp only [pts3]
    norm_num
  rcases C20_edge_data setArith_pt setTests (x := fun k => {pts3 k}) (fun _ => rfl) (a := 0) (b := 1) (n := 3) (m := 2) (by norm_num) (by norm_num) (by norm_num) (by norm_num) h01
    with ⟨yd, hyd, _, _, u', hu, hE⟩ | ⟨_, s, _, _, h, _⟩
  swap
  · exact absurd h (by simp [setTests])
  have hu0 : u' 0 = 2 := by
    obtain ⟨τ, hτ, hx⟩ := hE.pts
    have h0 := hx 0 (by norm_num)
    obtain ⟨k1, k2, k3⟩ := hτ.mapsTo (show (0 : Nat) ∈ Set.Iio (3 - 2) by simp)
    have : τ 0 = 2 := by omega
    rw [this] at h0
    simp only [Spec.edgePt, pts3] at h0
    norm_num at h0
    exact h0
  have hpar : gcParams setPar dblInst 2 ((List.range (3 - 2)).map yd.u) c.shape.g 64 = .ok p := by
    rw [hg, show (List.range (3 - 2)).map yd.u = ([2] : List ℂ).map fun z => {z} by simp [hu 0, hu0], set_gcParams]
    exact hp
  let err : Nat → Set ℂ → Set ℂ := fun _ v => {z' | ∃ z ∈ v, ‖z - z'‖ ≤ e}
  obtain ⟨r, r', hr, hr1, -⟩ := gcIntegrals_sum setArith_encloses setFns_encloses setTests (sz := 6) (g := 1) (d1 := yd.n1) (d := 1) (by norm_num) (by norm_num) hE.n1_le
    (u := yd.u) (u' := u') (fun k => by rw [hu k]; rfl) p.n.toNat (2 ^ 5) (Or.inl (by decide)) (fun h => absurd h (by decide))
  have hz : ∀ i, (if i < 1 then r' i else r' i) ∈ (if i < 1 then err 0 (r i) else r i) := by
    intro i
    have he : 0 ≤ e := by
      have := C45_error_partial exactPar_sound (u' := [2]) (List.Forall₂.cons rfl .nil) hp hpe h1 h2 h3 (N := p.n.toNat) (by omega) (i := 0) (by norm_num) (n1 := 0) (by norm_num)
      exact (norm_nonneg _).trans this
    split
    · exact ⟨r' i, hr1 i, by simpa using he⟩
    · exact hr1 i
  obtain ⟨row, row', hrow, -, -⟩ := C19_encloses setArith_encloses (by norm_num) hc (ba2 := yd.ba2) (ab := yd.ab) (cab := yd.c)
    (by unfold YData.ba2; rw [hu]; rfl) (by unfold YData.ab; rw [hu]; rfl) (by unfold YData.c; rw [hu]; rfl) hz
  refine ⟨c, [yd], fun _ => p, fun _ => e, err, fun i => if i = 0 then row else fun _ => {0}, hc, hg, ?_, ?_, rfl, ?_, ?_, ?_⟩
  · intro ed hed
    obtain rfl := List.mem_singleton.1 hed
    exact ⟨by norm_num, by norm_num, h01⟩
  · simp only [treeYdataInit, hyd, Res.ok_bind]
  · intro k yd' hk
    cases k with
    | zero =>
      obtain rfl := Option.some.inj hk
      exact ⟨hpar, hpe, h1, h2, h3⟩
    | succ k => cases hk
  · exact fun k v z z' h h' => ⟨z, h, h'⟩
  · have hsch : gcScheme setArith setFns c.shape p.n.toNat { n := 0, len := 0, x := fun _ => {0} } = gcIntInit setArith setFns p.n.toNat := by
      unfold gcScheme
      rw [if_pos]
      simp [gcReplace]
    simp only [gcIntegrals, Res.bind_eq_ok] at hr
    obtain ⟨gc, hgc, hr⟩ := hr
    simp only [integralsTreeGc, List.getElem?_cons_zero, integralsEdgeGc, hsch, hgc, Res.ok_bind, hcn, hg, hr, hrow]

/-- `C47_periods_partial` applied to the instance: the matrix contains the period over the cycle above the edge. -/
example : ∃ (c : Sec) (I' : Nat → Nat → Set ℂ) (Y : ℝ → ℂ) (om : Nat → Nat → Set ℂ), secInit 2 3 = .ok c ∧ Spec.IsBranch 3 pts3 (-1) 1 Y ∧
    periodMatrix setArith c.shape [[{ coeff := 1, shift := 0, index := 0 }]] 1 I' = .ok om ∧ Spec.cycleInt (-1) 1 0 Y 0 ∈ om 0 0 := by
  obtain ⟨c, data, par, e, err, I', h1, hg, h2, h3, -, h4, h5, h6⟩ := hyper_inst
  obtain ⟨Y, om, k1, k2, k3⟩ := C47_periods_partial setArith_encloses setFns_encloses setPar_sound setTests (n := 3) (le_refl 3) h1 (x := fun k => {pts3 k}) (x' := pts3) (fun k => mem_singleton _) h2 h3
    (flag := 2 ^ 5) h4 h5 (ks := [0]) (List.Perm.refl _) (List.pairwise_singleton _ _) (fun _ _ _ _ _ => Or.inl (by decide)) (I := fun _ _ => {0}) (fun _ _ => mem_singleton _) rfl h6
    [[{ coeff := 1, shift := 0, index := 0 }]] (by rw [hg]; rfl) (by
      intro l hl t ht
      obtain rfl := List.mem_singleton.1 hl
      obtain rfl := List.mem_singleton.1 ht
      exact ⟨by decide, by decide, by decide, by decide⟩)
  have e0 : pts3 0 = -1 := by simp [pts3]
  have e1 : pts3 1 = 1 := by simp [pts3]
  have k4 := k1 0 _ rfl
  have k5 := k3 0 0 _ (by omega) (by omega) rfl
  simp only [e0, e1] at k4
  simp only [List.getElem?_cons_zero, List.map_cons, List.map_nil, List.sum_cons, List.sum_nil, e0, e1] at k5
  refine ⟨c, I', Y 0, om, h1, k4, k2, ?_⟩
  simpa using k5

end Hcp
