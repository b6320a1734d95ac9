import Verif.Props.ComputeGcTotal

/-!
# C73: total correctness from the branch points

The environment of exact numbers: sets of complex numbers for the balls, the parameters of the edges computed without rounding, a correct `qsort`.
-/

namespace Hcp

open Set Spec Filter Topology

open Classical in
/-- magnitudes without rounding; a logarithm outside of the range of `slong` is replaced by a large value. -/
noncomputable def clampMag : MagOps (Set ℂ) RSet := { setMag with log2 := fun s => if |setMag.log2 s| < 2 ^ 61 then setMag.log2 s else 2 ^ 61 }

theorem clampMag_sound : MagSound clampMag (fun s z => z ∈ s) (fun b x => x ∈ b.1) where
  abs := setMag_sound.abs
  div := setMag_sound.div
  mul := setMag_sound.mul
  mul2exp := setMag_sound.mul2exp
  pow := setMag_sound.pow
  root := setMag_sound.root
  inv := setMag_sound.inv
  bin := setMag_sound.bin
  mag := setMag_sound.mag
  log2 := by
    intro s h
    have e : clampMag.log2 s = if |setMag.log2 s| < 2 ^ 61 then setMag.log2 s else 2 ^ 61 := rfl
    rw [e] at h ⊢
    split at h
    · rename_i h'
      rw [if_pos h']
      exact setMag_sound.log2 s h
    · exact absurd h (lt_irrefl _)

theorem clampMag_log2 (s : Option ℝ) : FitsSlong (clampMag.log2 s + 1) := by
  have e : clampMag.log2 s = if |setMag.log2 s| < 2 ^ 61 then setMag.log2 s else 2 ^ 61 := rfl
  rw [e]
  unfold FitsSlong slongMin slongMax
  split
  · rename_i h
    rw [abs_lt] at h
    constructor <;> omega
  · constructor <;> omega

/-- a correct sorting routine for `comp_cmp`: the numbers of the edges by increasing parameter -/
structure OrdersByR (ord : List (Edge ℝ) → List Nat) : Prop where
  perm : ∀ es, (ord es).Perm (List.range es.length)
  sorted : ∀ es, (ord es).Pairwise fun k l => ∀ ed f : Edge ℝ, es[k]? = some ed → es[l]? = some f → ed.r ≤ f.r

/-- exact numbers, for the branch points `x`; `sort` and `ord` are the two uses of `qsort`. -/
noncomputable def idealEnv (x : Nat → ℂ) (lam : ℝ) (sort : List (Edge ℝ) → List (Edge ℝ)) (ord : List (Edge ℝ) → List Nat) (p : DePar (Set ℂ)) : AjEnv (Set ℂ) RSet ℂ ℝ setMat where
  ar _ := setArith
  fns _ := setFns
  tests _ := sndTests
  roots _ k := {x k}
  approx := pick
  cops := exactCOps lam
  wops := WOps.ofOrder (-1)
  sortEdges := sort
  mag := clampMag
  xgcd := XGcd.std
  order := ord
  par := setPar
  dbl := exactDbl
  dePar _ _ _ _ _ := .ok p
  addErr e v := e.elim univ fun e => growBall e v
  trim v := v
  mat {g} om := {M : Matrix (Fin g) (Fin g) ℂ | ∀ i j : Fin g, M i j ∈ om i j}
  trimTau t := t

variable {x : Nat → ℂ} {lam : ℝ} {sort : List (Edge ℝ) → List (Edge ℝ)} {ord : List (Edge ℝ) → List Nat} {p : DePar (Set ℂ)}

theorem idealEnv_sound (hs : SortsByR sort) (ho : OrdersByR ord) : (idealEnv x lam sort ord p).Sound (fun s z => z ∈ s) (fun b x => x ∈ b.1) InC where
  ar _ _ := setArith_encloses
  fns _ _ := setFns_encloses
  tests _ _ := sndTests_sound
  par := setPar_sound
  mag := clampMag_sound
  addErr _ _ z _ h h' := ⟨z, h, h'⟩
  trim _ _ h := h
  mat _ _ h := h
  trimTau _ _ h := h
  sortEdges := hs.perm
  order := ho.perm

theorem idealEnv_exact : ExactGc (idealEnv x lam sort ord p) x := ⟨fun _ => rfl, fun _ => rfl, fun _ _ => rfl, rfl, rfl⟩

/-- Two pairs of branch points with the same smallest ellipse have the same ellipses. -/
def TiesHarmless (x : Nat → ℂ) (n : Nat) : Prop :=
  ∀ a b c d, a < n → b < n → c < n → d < n → a ≠ b → c ≠ d → ∀ r, IsLeastIn r (edgeRs x n a b) → IsLeastIn r (edgeRs x n c d) → (edgeRs x n a b).Perm (edgeRs x n c d)

theorem tiesHarmless_three (x : Nat → ℂ) : TiesHarmless x 3 := by
  have key : ∀ a b, a < 3 → b < 3 → a ≠ b → ∃ t, edgeRs x 3 a b = [t] := by
    intro a b ha hb hab
    have h : ((List.range 3).filter fun k => k ≠ a ∧ k ≠ b).length = 1 := by
      interval_cases a <;> interval_cases b <;> first | (exfalso; exact hab rfl) | decide
    obtain ⟨k, hk⟩ := List.length_eq_one_iff.1 h
    exact ⟨_, by unfold edgeRs; rw [hk]; rfl⟩
  intro a b c d ha hb hc hd hab hcd r h1 h2
  obtain ⟨s, es⟩ := key a b ha hb hab
  obtain ⟨t, et⟩ := key c d hc hd hcd
  rw [es] at h1 ⊢
  rw [et] at h2 ⊢
  have e1 : r = s := by simpa using h1.1
  have e2 : r = t := by simpa using h2.1
  rw [← e1, ← e2]

theorem edgeRs_comm (x : Nat → ℂ) (n a b : Nat) : edgeRs x n a b = edgeRs x n b a := by
  unfold edgeRs
  have e : ((List.range n).filter fun k => k ≠ a ∧ k ≠ b) = (List.range n).filter fun k => k ≠ b ∧ k ≠ a := by
    congr 1
    funext k
    rw [decide_eq_decide]
    exact and_comm
  rw [e]
  refine List.map_congr_left fun k _ => ?_
  rw [add_comm, norm_sub_rev (x b)]

/-- the parameter of an edge is its smallest ellipse -/
theorem paramEdge_least (hn : 3 ≤ n) {i j : Nat} (x : Nat → ℂ) :
    IsLeastIn (paramEdge (WOps.ofOrder (-1 : ℝ)) (fun k => treeParam (exactCOps lam) .gc (x i) (x j) (x k)) i j n) (edgeRs x n i j) := by
  have hf : ∀ k, treeParam (exactCOps lam) .gc (x i) (x j) (x k) = (‖x k - x i‖ + ‖x k - x j‖) / ‖x j - x i‖ := fun k => rfl
  obtain ⟨h1, h2⟩ := C42_edge_parameter (-1 : ℝ) (by norm_num) (fun k => treeParam (exactCOps lam) .gc (x i) (x j) (x k)) (fun k => by rw [hf]; positivity) i j n
  constructor
  · rcases h2 with ⟨k, hk, ki, kj, e⟩ | ⟨h, -⟩
    · rw [e, hf]
      exact List.mem_map.2 ⟨k, by simp [hk, ki, kj], rfl⟩
    · exfalso
      have a0 := h 0 (by omega)
      have a1 := h 1 (by omega)
      have a2 := h 2 (by omega)
      omega
  · intro s hs
    obtain ⟨k, hk, rfl⟩ := List.mem_map.1 hs
    simp only [List.mem_filter, List.mem_range, decide_eq_true_eq] at hk
    have := h1 k hk.1 hk.2.1 hk.2.2
    rwa [hf] at this

theorem ellipseOrder_of_sorted (ho : OrdersByR ord) (hn : 3 ≤ n) (ht : TiesHarmless x n) {es : List (Edge ℝ)} (hes : ∀ ed ∈ es, ed.a < n ∧ ed.b < n ∧ ed.a ≠ ed.b)
    (hr : ∀ ed ∈ es, ed.r = paramEdge (WOps.ofOrder (-1 : ℝ)) (fun k => treeParam (exactCOps lam) .gc (x (min ed.a ed.b)) (x (max ed.a ed.b)) (x k)) (min ed.a ed.b) (max ed.a ed.b) n) :
    EllipseOrder x n es (ord es) := by
  have hl : ∀ ed ∈ es, IsLeastIn ed.r (edgeRs x n ed.a ed.b) := by
    intro ed hed
    rw [hr ed hed]
    have := paramEdge_least (lam := lam) hn (i := min ed.a ed.b) (j := max ed.a ed.b) x
    rcases le_total ed.a ed.b with h | h
    · rw [min_eq_left h, max_eq_right h] at this ⊢
      exact this
    · rw [min_eq_right h, max_eq_left h] at this ⊢
      rw [edgeRs_comm x n ed.a ed.b]
      exact this
  refine (ho.sorted es).imp fun {k l} h ed f hk hl' => ?_
  have m1 := List.mem_of_getElem? hk
  have m2 := List.mem_of_getElem? hl'
  obtain ⟨a1, a2, a3⟩ := hes ed m1
  obtain ⟨b1, b2, b3⟩ := hes f m2
  have l1 := hl ed m1
  have l2 := hl f m2
  rcases (h ed f hk hl').lt_or_eq with h | h
  · exact Or.inl ⟨ed.r, l1.1, fun s hs => h.trans_le (l2.2 s hs)⟩
  · rw [← h] at l2
    exact Or.inr (ht _ _ _ _ a1 a2 b1 b2 a3 b3 _ l1 l2)

/-- **C73 (total correctness).** Take any `n ≥ 3` distinct branch points, and exact numbers.  `abel_jacobi_compute` for `y^2 = ∏ (x - x_k)` with the Gauss-Chebyshev rule chooses a tree and `extra` bits.  At every precision large enough for the
tree (`GcReady`: two explicit inequalities for the ellipses of each edge, and decreasing numbers of points) it returns as long as the numbers of points fit in machine integers, and everything it returns is right: the tree, the loops, the integrals and
the periods.  All precisions from some precision on are large enough if two pairs of points with the same smallest ellipse have the same ellipses (always so for three points).
The options are those which do not ask for `tau`, with `AJ_ROOT_DEF` when there are more than three points. -/
theorem C73_exact_numbers (hs : SortsByR sort) (ho : OrdersByR ord) (hlam : lam ≠ 0) {n : Nat} (hn : 3 ≤ n) (hx : InjOn x (Iio n)) {c : Sec} (hc : secInit 2 n = .ok c) :
    ∃ (tr : Tree ℝ) (extra : Int), spanningTreeOf (exactCOps lam) (WOps.ofOrder (-1)) sort x (treeInit (WOps.ofOrder (-1)) (treeEdges c).toNat) n .gc = .ok tr ∧
      extraprecTree setArith clampMag tr.e (fun k => {x k}) c.shape = .ok extra ∧ (TiesHarmless x n → ∃ P0 : Nat, ∀ ip : Nat, P0 ≤ ip → GcReady x n c.shape.g tr.e (ord tr.e) ip) ∧
      ∀ (prec : Int) (ip : Nat), prec + extra = ip → 2 ≤ ip → (ip : Int) < 2 ^ 62 → GcReady x n c.shape.g tr.e (ord tr.e) ip →
        (∀ ed ∈ tr.e, ∀ r, IsLeastIn r (edgeRs x n ed.a ed.b) → 2 * gcN (edgeRs x n ed.a ed.b) r c.shape.g ip < 2 ^ 63) →
        ∀ fuel flag : Nat, 2 ≤ fuel → intType flag c.m c.n = .gc → flag &&& ajNoInt = 0 → flag &&& ajNoAb ≠ 0 ∨ flag &&& ajNoTau ≠ 0 → flag.testBit 5 = true ∨ n = 3 →
        ∃ out : AjOut (Set ℂ) ℝ setMat c.shape.g, ajRun (idealEnv x lam sort ord p) fuel c flag prec (treeInit (WOps.ofOrder (-1)) (treeEdges c).toNat) = .ok out ∧ out.tree = tr ∧ out.integrals ≠ none ∧ (flag &&& ajNoAb = 0 → out.omega ≠ none) ∧
          ∃ (Y : Nat → ℝ → ℂ) (ca cb : Nat → ℂ) (cc : IMat) (Q : Mat (out.tree.e.length * (2 - 1))), AjRight (idealEnv x lam sort ord p) (fun s z => z ∈ s) InC 2 n x c out Y ca cb cc Q := by
  have hn2 : (2 : Int) ≤ n := by omega
  have hec := C03_tree_size (by omega) hc
  have hlt := edgeCount_lt (edgeCount_of_size hec)
  obtain ⟨tr, h1, -, h3⟩ := C46_no_third_point hs hlam .gc (treeInit (WOps.ofOrder (-1)) (treeEdges c).toNat) n (Or.inl hlt) hx
  have h1' := h1
  unfold spanningTreeOf at h1'
  obtain ⟨t1, e1, -, g0, g1, g2⟩ := C09_grows_as_tree (WOps.ofOrder (-1)) sort hs.perm _ (treeInit (WOps.ofOrder (-1)) (treeEdges c).toNat) n (Or.inl hlt)
  obtain rfl := Res.ok.inj (h1'.symm.trans e1)
  have hes : ∀ ed ∈ tr.e, ed.a < n ∧ ed.b < n ∧ ed.a ≠ ed.b := by
    intro ed hed
    obtain ⟨k, hk, rfl⟩ := List.getElem_of_mem hed
    have := (g1 k (by rw [Tree.pairs, List.length_map]; exact hk)).1
    exact ⟨(g2 _ hed).1, (g2 _ hed).2.1, by simpa [Tree.pairs] using this⟩
  have hapx : (fun k => (idealEnv x lam sort ord p).approx ((idealEnv x lam sort ord p).roots 64 k)) = x := funext fun k => pick_singleton _
  have hpos : 0 ≤ treeEdges c := by
    obtain ⟨_, e1, e2, e3, _⟩ := secInit_fields hc hn2
    unfold treeEdges
    rw [e1, e2, e3]
    split <;> omega
  have hfree : FreeEdges x n tr.e := fun f hf k hk ha hb t t1 t2 e => h3 f hf ⟨k, hk, ha, hb, t, t1, t2, e⟩
  obtain ⟨extra, hext⟩ : ∃ extra, extraprecTree ((idealEnv x lam sort ord p).ar 64) (idealEnv x lam sort ord p).mag tr.e ((idealEnv x lam sort ord p).roots 64) c.shape = .ok extra := ⟨_, chk_ok (clampMag_log2 _)⟩
  refine ⟨tr, extra, h1, hext, fun ht => ?_, fun prec ip hip hip2 hip62 hready hfits fuel flag f1 f2 f3 f4 f5 => ?_⟩
  · refine C72_edges (fun ed hed r hr => ?_) (ellipseOrder_of_sorted ho hn ht hes fun ed hed => (g2 ed hed).2.2) _
    obtain ⟨a1, a2, a3⟩ := hes ed hed
    obtain ⟨k, hk, rfl⟩ := List.mem_map.1 hr
    simp only [List.mem_filter, List.mem_range, decide_eq_true_eq] at hk
    have hab : x ed.a ≠ x ed.b := fun h => a3 (hx a1 a2 h)
    refine lt_of_le_of_ne (ellipseParam_ge _ _ (x k) hab) fun h => ?_
    obtain ⟨t, t1, t2, e⟩ := (ellipseParam_eq _ _ (x k) hab).1 h.symm
    exact hfree ed hed k hk.1 hk.2.1 hk.2.2 t t1 t2 e
  · exact C73_returns_right setMat_encl (idealEnv_sound (x := x) (lam := lam) (p := p) hs ho) idealEnv_exact hn hx hc (tr0 := treeInit (WOps.ofOrder (-1)) (treeEdges c).toNat) (tr := tr)
      (by show ((treeEdges c).toNat : Int) = treeEdges c; omega) (by rw [hapx]; exact h1) hfree hext hip hip2 hip62 hready hfits f1 f2 f3 f4 f5

/-! ## The equilateral triangle -/

open Classical in
/-- numbers of the edges by increasing parameter, with merge sort -/
noncomputable def orderByR (es : List (Edge ℝ)) : List Nat := (List.range es.length).mergeSort fun k l => decide (((es[k]?).map (·.r)).getD 0 ≤ ((es[l]?).map (·.r)).getD 0)

theorem orderByR_orders : OrdersByR orderByR where
  perm es := List.mergeSort_perm _ _
  sorted es := by
    have := List.pairwise_mergeSort (le := fun k l => decide (((es[k]?).map (·.r)).getD 0 ≤ ((es[l]?).map (·.r)).getD 0)) (fun a b c h1 h2 => by
      simp only [decide_eq_true_eq] at h1 h2 ⊢
      exact h1.trans h2) (fun a b => by
      simp only [Bool.or_eq_true, decide_eq_true_eq]
      exact le_total _ _) (List.range es.length)
    refine this.imp fun {k l} h ed f hk hl => ?_
    simpa [hk, hl] using h

theorem tri_dist {a b : Nat} (ha : a < 3) (hb : b < 3) (hab : a ≠ b) : ‖tri a - tri b‖ = 2 := by
  have h3 : (√3 : ℝ) ^ 2 = 3 := Real.sq_sqrt (by norm_num)
  have hn : ∀ z : ℂ, z.re ^ 2 + z.im ^ 2 = 4 → ‖z‖ = 2 := by
    intro z h
    have : ‖z‖ ^ 2 = 2 ^ 2 := by
      rw [← Complex.normSq_eq_norm_sq, Complex.normSq_apply]
      linarith
    exact (sq_eq_sq₀ (norm_nonneg _) (by norm_num)).1 this
  refine hn _ ?_
  interval_cases a <;> interval_cases b <;> first | exact absurd rfl hab | (simp [tri]; try norm_num [h3])

theorem tri_rs {a b : Nat} (ha : a < 3) (hb : b < 3) (hab : a ≠ b) : edgeRs tri 3 a b = [2] := by
  have h : ∃ k, ((List.range 3).filter fun k => k ≠ a ∧ k ≠ b) = [k] ∧ k < 3 ∧ k ≠ a ∧ k ≠ b := by
    interval_cases a <;> interval_cases b <;> first | (exfalso; exact hab rfl) | exact ⟨0, by decide⟩ | exact ⟨1, by decide⟩ | exact ⟨2, by decide⟩
  obtain ⟨k, e, k1, k2, k3⟩ := h
  unfold edgeRs
  rw [e, List.map_singleton, tri_dist k1 ha k2, tri_dist k1 hb k3, tri_dist hb ha hab.symm]
  norm_num

theorem ajTree_extra {A B : Type} {C W : Type} {O : MatOps} {V : AjEnv A B C W O} {c : Sec} {flag : Nat} {prec : Int} {tr0 tr : Tree W} {ip : Int} {data : List (YData A)} (h : ajTree V c flag prec tr0 = .ok (tr, ip, data)) :
    extraprecTree (V.ar 64) V.mag tr.e (V.roots 64) c.shape = .ok (ip - prec) := by
  unfold ajTree at h
  simp only [Res.bind_eq_ok] at h
  obtain ⟨tr', h1, ex, h2, ip', h3, cp, h4, _, h5, data', h6, h7⟩ := h
  obtain ⟨rfl, h8⟩ := Prod.mk.inj (Res.ok.inj h7)
  obtain ⟨rfl, rfl⟩ := Prod.mk.inj h8
  unfold chk at h3
  split at h3
  · obtain rfl := Res.ok.inj h3
    rw [h2]
    congr 1
    ring
  · cases h3

theorem magL_clamp (mab mi : RSet) (i : Nat) (ls : List Nat) (s : Option ℝ) : magL clampMag mab mi i ls s = magL setMag mab mi i ls s := by
  induction ls generalizing s with
  | nil => rfl
  | cons l ls ih => exact ih _

theorem magI_clamp (mab mba : RSet) (ls : List Nat) (s : RSet × Option ℝ) : magI clampMag mab mba ls s = magI setMag mab mba ls s := by
  induction ls generalizing s with
  | nil => rfl
  | cons l ls ih =>
    unfold magI
    rw [ih, magL_clamp]
    rfl

theorem magJ_clamp (mab mba mc : RSet) (j1 j : Nat) (ls : List Nat) (s : Option ℝ) : magJ clampMag mab mba mc j1 j ls s = magJ setMag mab mba mc j1 j ls s := by
  induction ls generalizing j s with
  | nil => rfl
  | cons l ls ih =>
    unfold magJ
    rw [ih, magI_clamp]
    rfl

theorem magTree_one {x : Nat → ℂ} {c : Shape} {es : List (Edge W)} (h : ∀ e ∈ es, magEdge setArith clampMag (fun k => {x k}) e.a e.b c = some 1) {s : ℝ} (hs : s ≤ 1) (h1 : es ≠ [] ∨ s = 1) :
    magTree setArith clampMag (fun k => {x k}) c es (some s) = some 1 := by
  induction es generalizing s with
  | nil => exact congrArg some (h1.resolve_left fun h => h rfl)
  | cons e es ih =>
    unfold magTree
    rw [h e (List.mem_cons_self ..)]
    exact ih (fun f hf => h f (List.mem_cons_of_mem _ hf)) (max_le hs le_rfl) (Or.inr (max_eq_right hs))

/-- the tree of the triangle: two edges of length 2, one extra bit, precisions from 3 to `2^58` are large enough -/
theorem tri_setup {c : Sec} (hc : secInit 2 3 = .ok c) {lam : ℝ} {sort : List (Edge ℝ) → List (Edge ℝ)} (hs : SortsByR sort) (ord : List (Edge ℝ) → List Nat) {tr : Tree ℝ} {extra : Int}
    (h1 : spanningTreeOf (exactCOps lam) (WOps.ofOrder (-1)) sort tri (treeInit (WOps.ofOrder (-1)) (treeEdges c).toNat) 3 .gc = .ok tr) (hext : extraprecTree setArith clampMag tr.e (fun k => {tri k}) c.shape = .ok extra) :
    c.shape.g = 1 ∧ tr.e.length = 2 ∧ extra = 1 ∧ GrowsAsTree (tr.e.map fun f => (f.a, f.b)) ∧ (∀ ed ∈ tr.e, ed.a < 3 ∧ ed.b < 3 ∧ ed.a ≠ ed.b) ∧
      ∀ ip : Nat, 3 ≤ ip → GcReady tri 3 c.shape.g tr.e (ord tr.e) ip ∧ (ip < 2 ^ 58 → ∀ ed ∈ tr.e, ∀ r, IsLeastIn r (edgeRs tri 3 ed.a ed.b) → 2 * gcN (edgeRs tri 3 ed.a ed.b) r c.shape.g ip < 2 ^ 63) := by
  have hg : c.shape.g = 1 := by
    have := isGenus_shape (by norm_num) hc
    unfold IsGenus at this
    norm_num at this
    omega
  have hlt := edgeCount_lt (edgeCount_of_size (C03_tree_size (m := 2) (n := 3) (by norm_num) hc))
  unfold spanningTreeOf at h1
  obtain ⟨t1, e1, -, g0, g1, g2⟩ := C09_grows_as_tree (WOps.ofOrder (-1 : ℝ)) sort hs.perm _ (treeInit (WOps.ofOrder (-1)) (treeEdges c).toNat) 3 (Or.inl hlt)
  obtain rfl := Res.ok.inj (h1.symm.trans e1)
  have hes : ∀ ed ∈ tr.e, edgeRs tri 3 ed.a ed.b = [2] := by
    intro ed hed
    obtain ⟨k, hk, rfl⟩ := List.getElem_of_mem hed
    have := (g1 k (by rw [Tree.pairs, List.length_map]; exact hk)).1
    exact tri_rs (g2 _ hed).1 (g2 _ hed).2.1 (by simpa [Tree.pairs] using this)
  have hl : ∀ r, IsLeastIn r [2] → r = 2 := fun r h => by simpa using h.1
  have hc' : c = ⟨2, 3, 1, 1, 1, 1, [1]⟩ := by
    have h : secInit 2 3 = .ok ⟨2, 3, 1, 1, 1, 1, [1]⟩ := by decide
    exact Res.ok.inj (hc.symm.trans h)
  have hlen2 : tr.e.length = 2 := by
    rw [g0]
    show (treeEdges c).toNat = 2
    rw [tri_treeEdges hc]
    rfl
  have hextra : extra = 1 := by
    have hm : magTree setArith clampMag (fun k => {tri k}) c.shape tr.e (some 0) = some 1 := magTree_one (fun e he => by
      obtain ⟨k, hk, rfl⟩ := List.getElem_of_mem he
      have := (g1 k (by rw [Tree.pairs, List.length_map]; exact hk)).1
      exact (magJ_clamp ..).trans <| setMag_unit (x := tri) (c := c.shape) (k := 0) (tri_dist (g2 _ he).2.1 (g2 _ he).1 (Ne.symm (by simpa [Tree.pairs] using this))) (by rw [hc']; rfl)) zero_le_one (Or.inl (by
      rintro h
      rw [h] at hlen2
      cases hlen2))
    unfold extraprecTree at hext
    rw [hm] at hext
    have h0 : clampMag.log2 (some 1) = 0 := by
      have e0 : setMag.log2 (some 1) = 0 := by
        show (if 0 ≤ Real.logb 2 1 then ⌊Real.logb 2 1⌋ else ⌈Real.logb 2 1⌉) = 0
        simp
      have e : clampMag.log2 (some 1) = if |setMag.log2 (some 1)| < 2 ^ 61 then setMag.log2 (some 1) else 2 ^ 61 := rfl
      rw [e, e0]
      norm_num
    rw [h0] at hext
    exact (Res.ok.inj hext).symm
  refine ⟨hg, hlen2, hextra, g1, fun ed hed => ?_, fun ip h1' => ⟨⟨fun ed hed r hr => ?_, List.pairwise_of_forall fun k l ed f hk hl' r s hr hs => ?_⟩, fun hip ed hed r hr => ?_⟩⟩
  · obtain ⟨k, hk, rfl⟩ := List.getElem_of_mem hed
    have := (g1 k (by rw [Tree.pairs, List.length_map]; exact hk)).1
    exact ⟨(g2 _ hed).1, (g2 _ hed).2.1, by simpa [Tree.pairs] using this⟩
  · rw [hes ed hed] at hr ⊢
    rw [hl r hr, hg]
    exact gcPrec_two h1'
  · rw [hes _ (List.mem_of_getElem? hk)] at hr ⊢
    rw [hes _ (List.mem_of_getElem? hl')] at hs ⊢
    rw [hl r hr, hl s hs]
  · have hN := gcN_two h1'
    rw [hes ed hed] at hr ⊢
    rw [hl r hr, hg]
    omega

/-- The elliptic curve with branch points `-1`, `1`, `i√3`: for all precisions from `2` to `2^58 - 2`, with any options which select the Gauss-Chebyshev rule and do not ask for `tau`, the computation returns and is right; it works with one extra bit. -/
theorem C73_triangle (p : DePar (Set ℂ)) {c : Sec} (hc : secInit 2 3 = .ok c) {prec : Int} (hp : 2 ≤ prec) (hp' : prec + 1 < 2 ^ 58) {fuel flag : Nat} (hf : 2 ≤ fuel) (hty : intType flag c.m c.n = .gc) (hni : flag &&& ajNoInt = 0) (hnt : flag &&& ajNoAb ≠ 0 ∨ flag &&& ajNoTau ≠ 0) :
      ∃ out : AjOut (Set ℂ) ℝ setMat c.shape.g, ajRun (idealEnv tri 1 sortByR orderByR p) fuel c flag prec (treeInit (WOps.ofOrder (-1)) (treeEdges c).toNat) = .ok out ∧ out.tree.e.length = 2 ∧ out.intprec = prec + 1 ∧
        GcReady tri 3 c.shape.g out.tree.e (orderByR out.tree.e) (prec + 1).toNat ∧ out.integrals ≠ none ∧ (flag &&& ajNoAb = 0 → out.omega ≠ none) ∧
        ∃ (Y : Nat → ℝ → ℂ) (ca cb : Nat → ℂ) (cc : IMat) (Q : Mat (out.tree.e.length * (2 - 1))), AjRight (idealEnv tri 1 sortByR orderByR p) (fun s z => z ∈ s) InC 2 3 tri c out Y ca cb cc Q := by
  obtain ⟨tr, extra, h1, hext, -, H⟩ := C73_exact_numbers (p := p) (lam := 1) sortByR_sorts orderByR_orders one_ne_zero le_rfl tri_inj hc
  obtain ⟨-, hlen2, rfl, -, -, hR⟩ := tri_setup hc sortByR_sorts orderByR h1 hext
  obtain ⟨ip, hip⟩ : ∃ ip : Nat, prec + 1 = ip := ⟨(prec + 1).toNat, by omega⟩
  obtain ⟨r1, r2⟩ := hR ip (by omega)
  obtain ⟨out, q1, rfl, q2⟩ := H prec ip hip (by omega) (by omega) r1 (r2 (by omega)) fuel flag hf hty hni hnt (Or.inr rfl)
  have hx := (ajTree_extra (ajRun_ok q1).1).symm.trans hext
  refine ⟨out, q1, hlen2, ?_, ?_, q2⟩
  · have := Res.ok.inj hx
    omega
  · rw [hip, Int.toNat_natCast]
    exact r1

/-- three points: large precisions are large enough, without conditions -/
example (x : Nat → ℂ) (hx : InjOn x (Iio 3)) {c : Sec} (hc : secInit 2 3 = .ok c) :
    ∃ tr, spanningTreeOf (exactCOps 1) (WOps.ofOrder (-1)) sortByR x (treeInit (WOps.ofOrder (-1)) (treeEdges c).toNat) 3 .gc = .ok tr ∧ ∃ P0 : Nat, ∀ ip : Nat, P0 ≤ ip → GcReady x 3 c.shape.g tr.e (orderByR tr.e) ip := by
  obtain ⟨tr, extra, h1, -, h2, -⟩ := C73_exact_numbers (p := ⟨0, ∅, ∅, id⟩) (lam := 1) sortByR_sorts orderByR_orders one_ne_zero le_rfl hx hc
  exact ⟨tr, h1, h2 (tiesHarmless_three x)⟩

end Hcp
