import Verif.Model.SchemeMem
import Verif.Props.Life
import Mathlib.Data.List.Perm.Basic
import Mathlib.Tactic.Linarith

/-!
# C82: working memory
-/

namespace Hcp

/-- a heap with distinct live blocks and unused addresses above them -/
def Heap.Good (h : Heap) : Prop := h.live.Nodup ∧ ∀ p ∈ h.live, p < h.next

theorem Heap.Good.owned {h : Heap} (H : h.Good) : Owned h.live h := ⟨List.Subperm.refl _, H.1, H.2⟩

/-- `h'` holds the blocks of `h` and `k` others -/
def Extra (h h' : Heap) (k : Nat) : Prop := h.live.Subperm h'.live ∧ h'.live.length = h.live.length + k ∧ h'.Good

theorem vecInit_owned (len : Nat) {ps : List Nat} {h : Heap} (H : Owned ps h) :
    Owned ((vecInit len h).1.arr :: ((vecInit len h).1.digits ++ ps)) (vecInit len h).2 ∧
    (vecInit len h).2.live.length = h.live.length + 1 + len ∧ (vecInit len h).1.digits.length = len := by
  obtain ⟨H1, l1⟩ := alloc_owned H
  obtain ⟨H2, l2, l3⟩ := allocN_owned len H1
  exact ⟨H2.mono List.perm_middle.symm.subperm, by simp only [vecInit]; omega, l3⟩

theorem vecClear_owned {v : NVec} {k : Nat} {ps : List Nat} {h : Heap} (hk : k ≤ v.digits.length)
    (H : Owned (v.arr :: (v.digits ++ ps)) h) : ∃ h', vecClear v k h = .ok h' ∧ Owned (v.digits.drop k ++ ps) h' ∧
    h'.live.length + 1 + k = h.live.length := by
  have hp : (v.digits.take k ++ (v.arr :: (v.digits.drop k ++ ps))).Perm (v.arr :: (v.digits ++ ps)) := by
    refine List.perm_middle.trans ?_
    rw [← List.append_assoc, List.take_append_drop]
  obtain ⟨h1, e1, H1, l1⟩ := freeAll_owned _ (H.mono hp.subperm)
  obtain ⟨h2, e2, H2, l2⟩ := free_owned H1
  refine ⟨h2, ?_, H2, ?_⟩
  · rw [vecClear, if_pos hk, e1]; exact e2
  · rw [List.length_take, Nat.min_eq_left hk] at l1; omega

theorem vecClear_all {v : NVec} {ps : List Nat} {h : Heap} (H : Owned (v.arr :: (v.digits ++ ps)) h) :
    ∃ h', vecClear v v.digits.length h = .ok h' ∧ Owned ps h' ∧ h'.live.length + 1 + v.digits.length = h.live.length := by
  obtain ⟨h', e, H', l⟩ := vecClear_owned le_rfl H
  rw [List.drop_length] at H'
  exact ⟨h', e, H', l⟩

/-- number of blocks of an array -/
def NVec.blocks (v : NVec) : List Nat := v.arr :: v.digits

theorem cosPi_owned {c : NVec} (len : Nat) {ps : List Nat} {h : Heap} (H : Owned (c.arr :: (c.digits ++ ps)) h) :
    ∃ h', cosPiMem c len h = .ok h' ∧ Owned (c.arr :: (c.digits ++ ps)) h' ∧ h'.live.length = h.live.length + 1 := by
  obtain ⟨H1, l1, d1⟩ := vecInit_owned (len + 1) H
  obtain ⟨H2, l2⟩ := alloc_owned H1
  obtain ⟨h3, e3, H3, l3⟩ := free_owned H2
  obtain ⟨h4, e4, H4, l4⟩ := vecClear_owned (k := len) (by omega) H3
  refine ⟨h4, ?_, H4.mono (List.sublist_append_right _ _).subperm, by omega⟩
  simp only [cosPiMem]
  rw [touchAll_owned H2 (by intro q hq; simp only [List.mem_cons, List.mem_append] at hq ⊢; tauto)]
  simp only [Res.ok_bind, e3]
  rw [touchAll_owned H3 (by intro q hq; simp only [List.mem_cons, List.mem_append] at hq ⊢; tauto)]
  exact e4

/-- well formed scheme -/
def GcMem.Wf (gc : GcMem) : Prop := gc.x.digits.length = gc.len ∧ gc.len = gc.n / 2

theorem gcInit_owned (n : Nat) {ps : List Nat} {h : Heap} (H : Owned ps h) :
    ∃ gc h', gcIntInitMem n h = .ok (gc, h') ∧ gc.Wf ∧ gc.n = n ∧ Owned (gc.x.arr :: (gc.x.digits ++ ps)) h' ∧
      h'.live.length = h.live.length + 1 + n / 2 + (if n = 0 then 0 else 1) := by
  obtain ⟨H1, l1, d1⟩ := vecInit_owned (n / 2) H
  by_cases hn : n = 0
  · refine ⟨⟨n, n / 2, (vecInit (n / 2) h).1⟩, (vecInit (n / 2) h).2, ?_, ⟨d1, rfl⟩, rfl, H1, ?_⟩
    · simp only [gcIntInitMem]; rw [if_neg (by simpa using hn)]
    · rw [if_pos hn]; omega
  · obtain ⟨h2, e2, H2, l2⟩ := cosPi_owned (n / 2) H1
    refine ⟨⟨n, n / 2, (vecInit (n / 2) h).1⟩, h2, ?_, ⟨d1, rfl⟩, rfl, H2, ?_⟩
    · simp only [gcIntInitMem]; rw [if_pos hn, e2]; rfl
    · rw [if_neg hn]; omega

theorem gcClear_owned {gc : GcMem} (hw : gc.Wf) {ps : List Nat} {h : Heap} (H : Owned (gc.x.arr :: (gc.x.digits ++ ps)) h) :
    ∃ h', gcIntClearMem gc h = .ok h' ∧ Owned ps h' ∧ h'.live.length + 1 + gc.n / 2 = h.live.length := by
  obtain ⟨h', e, H', l⟩ := vecClear_all H
  rw [hw.1, hw.2] at l
  exact ⟨h', by rw [gcIntClearMem, ← hw.1]; exact e, H', l⟩

/-- a scheme of size `cur` is replaced by one of size `n` -/
def Replaced (cn cg cur n : Nat) : Prop := cur = 0 ∨ ((cur : Int) - n) * (cn + cg) > n

instance (cn cg cur n : Nat) : Decidable (Replaced cn cg cur n) := inferInstanceAs (Decidable (_ ∨ _))

theorem gcReplace_iff (cn cg cur n : Nat) : gcReplace cur n cn cg = true ↔ Replaced cn cg cur n := decide_eq_true_iff

theorem edgeGc_owned (cn cg : Nat) {gc : GcMem} (hw : gc.Wf) (n : Nat) {ps : List Nat} {h : Heap}
    (H : Owned (gc.x.arr :: (gc.x.digits ++ ps)) h) :
    ∃ gc' h', edgeGcMem cn cg gc n h = .ok (gc', h') ∧ gc'.Wf ∧ gc'.n = (if Replaced cn cg gc.n n then n else gc.n) ∧
      Owned (gc'.x.arr :: (gc'.x.digits ++ ps)) h' ∧
      h'.live.length + gc.n / 2 = h.live.length + gc'.n / 2 + (if Replaced cn cg gc.n n ∧ n ≠ 0 then 1 else 0) := by
  obtain ⟨H1, l1⟩ := alloc_owned H
  -- the scheme used
  have hs : ∃ gc' h', refreshGcMem cn cg gc n h.alloc.2 = Res.ok (gc', h') ∧ gc'.Wf ∧ gc'.n = (if Replaced cn cg gc.n n then n else gc.n) ∧
      Owned (gc'.x.arr :: (gc'.x.digits ++ (h.alloc.1 :: ps))) h' ∧
      h'.live.length + gc.n / 2 = h.live.length + 1 + gc'.n / 2 + (if Replaced cn cg gc.n n ∧ n ≠ 0 then 1 else 0) := by
    have H1' : Owned (gc.x.arr :: (gc.x.digits ++ (h.alloc.1 :: ps))) h.alloc.2 := by
      refine H1.mono (List.Perm.subperm ?_)
      exact ((List.perm_middle).cons _).trans (List.Perm.swap _ _ _)
    by_cases hr : Replaced cn cg gc.n n
    · obtain ⟨h2, e2, H2, l2⟩ := gcClear_owned hw H1'
      obtain ⟨gc', h3, e3, hw', hn', H3, l3⟩ := gcInit_owned n H2
      refine ⟨gc', h3, (if_pos ((gcReplace_iff ..).2 hr)).trans (by rw [e2]; exact e3), hw', by rw [if_pos hr, hn'], H3, ?_⟩
      rw [hn']
      by_cases hn : n = 0
      · rw [if_neg (by tauto)]; rw [if_pos hn] at l3; omega
      · rw [if_pos ⟨hr, hn⟩]; rw [if_neg hn] at l3; omega
    · refine ⟨gc, _, if_neg (mt (gcReplace_iff ..).1 hr), hw, by rw [if_neg hr], H1', ?_⟩
      rw [if_neg (by tauto)]; omega
  obtain ⟨gc', h2, e2, hw', hn', H2, l2⟩ := hs
  obtain ⟨H3, l3, d3⟩ := allocN_owned 4 H2
  obtain ⟨h4, e4, H4, l4⟩ := freeAll_owned _ H3
  obtain ⟨h5, e5, H5, l5⟩ := free_owned (H4.mono (List.Perm.subperm
    ((List.Perm.swap _ _ _).trans ((List.perm_middle (l₁ := gc'.x.digits) (a := h.alloc.1)).symm.cons _)))
    : Owned (h.alloc.1 :: gc'.x.arr :: (gc'.x.digits ++ ps)) h4)
  refine ⟨gc', h5, ?_, hw', hn', H5, by omega⟩
  simp only [edgeGcMem]
  rw [e2]
  simp only [Res.ok_bind]
  rw [touchAll_owned H3 (by intro q hq; simp only [List.mem_cons, List.mem_append] at hq ⊢; tauto)]
  simp only [Res.ok_bind, e4, e5]

/-- number of schemes of positive size built for the edges `ns`, the current scheme having size `cur` -/
def builds (cn cg : Nat) : Nat → List Nat → Nat
  | _, [] => 0
  | cur, n :: ns =>
    (if Replaced cn cg cur n ∧ n ≠ 0 then 1 else 0) + builds cn cg (if Replaced cn cg cur n then n else cur) ns

theorem edgesGc_owned (cn cg : Nat) : ∀ (ns : List Nat) {gc : GcMem}, gc.Wf → ∀ {ps : List Nat} {h : Heap},
    Owned (gc.x.arr :: (gc.x.digits ++ ps)) h →
    ∃ gc' h', edgesGcMem cn cg ns gc h = .ok (gc', h') ∧ gc'.Wf ∧ Owned (gc'.x.arr :: (gc'.x.digits ++ ps)) h' ∧
      h'.live.length + gc.n / 2 = h.live.length + gc'.n / 2 + builds cn cg gc.n ns
  | [], gc, hw, ps, h, H => ⟨gc, h, rfl, hw, H, rfl⟩
  | n :: ns, gc, hw, ps, h, H => by
    obtain ⟨gc1, h1, e1, w1, n1, H1, l1⟩ := edgeGc_owned cn cg hw n H
    obtain ⟨gc2, h2, e2, w2, H2, l2⟩ := edgesGc_owned cn cg ns w1 H1
    refine ⟨gc2, h2, ?_, w2, H2, ?_⟩
    · simp only [edgesGcMem]; rw [e1]; exact e2
    · simp only [builds]; rw [n1] at l2; omega

theorem Owned.extra {h h' : Heap} {k : Nat} (H : Owned h.live h') (l : h'.live.length = h.live.length + k) : Extra h h' k :=
  ⟨H.sub, l, H.nodup, H.lt⟩

theorem builds_le (cn cg : Nat) : ∀ (ns : List Nat) (cur : Nat), builds cn cg cur ns ≤ ns.length
  | [], _ => le_rfl
  | n :: ns, cur => by
    have := builds_le cn cg ns (if Replaced cn cg cur n then n else cur)
    simp only [builds, List.length_cons]
    split <;> omega

/-- The Gauss–Chebyshev integration of any tree never frees a block twice, never reads a freed block and never releases a block of the caller.
It loses exactly one block (the last number of the table of roots of unity) for each scheme of positive size which it builds. -/
theorem C82_gc_partial (cn cg : Nat) (ns : List Nat) (h : Heap) (hg : h.Good) :
    ∃ h', treeGcMem cn cg ns h = .ok h' ∧ Extra h h' (builds cn cg 0 ns) ∧ builds cn cg 0 ns ≤ ns.length := by
  obtain ⟨H1, l1⟩ := alloc_owned hg.owned
  obtain ⟨gc, h2, e2, w2, n2, H2, l2⟩ := gcInit_owned 0 H1
  obtain ⟨gc3, h3, e3, w3, H3, l3⟩ := edgesGc_owned cn cg ns w2 H2
  obtain ⟨h4, e4, H4, l4⟩ := gcClear_owned w3 H3
  obtain ⟨h5, e5, H5, l5⟩ := free_owned H4
  refine ⟨h5, ?_, H5.extra ?_, builds_le cn cg ns 0⟩
  · simp only [treeGcMem]; rw [e2]; simp only [Res.ok_bind]; rw [e3]; simp only [Res.ok_bind]; rw [e4]; exact e5
  · rw [if_pos rfl] at l2; rw [n2] at l3; omega

/-- The claim that the working memory is returned is false: a tree whose first edge needs at least one node leaves more live blocks than
before the call, whatever the other edges. -/
theorem C82_gc_leak_fails (cn cg : Nat) (n : Nat) (ns : List Nat) (hn : 0 < n) (h : Heap) (hg : h.Good) :
    ∃ h', treeGcMem cn cg (n :: ns) h = .ok h' ∧ h.live.length < h'.live.length := by
  obtain ⟨h', e, ⟨_, l, _⟩, _⟩ := C82_gc_partial cn cg (n :: ns) h hg
  refine ⟨h', e, ?_⟩
  simp only [builds] at l
  rw [if_pos ⟨Or.inl rfl, by omega⟩] at l
  omega

/-- trees of genus-2 curves with five edges: one scheme for the same number of nodes, three when the numbers decrease a lot -/
example : builds 5 2 0 [30, 30, 30, 30, 30] = 1 ∧ builds 5 2 0 [300, 100, 99, 10, 10] = 3 ∧ (⟨1, []⟩ : Heap).Good := by
  refine ⟨by decide, by decide, ⟨List.nodup_nil, fun p hp => absurd hp (by simp)⟩⟩

/-- blocks of a double-exponential scheme -/
def DeMem.blocks (de : DeMem) : List Nat :=
  match de.body with
  | none => []
  | some (fs, x, dx, ch2m) => fs ++ (x.blocks ++ (dx.blocks ++ ch2m.blocks))

/-- well formed scheme: empty or complete -/
def DeMem.Wf (de : DeMem) : Prop :=
  (de.n = 0 ∧ de.body = none) ∨ (de.n ≠ 0 ∧ ∃ fs x dx ch2m, de.body = some (fs, x, dx, ch2m) ∧ x.digits.length = de.n ∧
    dx.digits.length = de.n ∧ ch2m.digits.length = de.n)

theorem deInit_owned (n : Nat) {ps : List Nat} {h : Heap} (H : Owned ps h) :
    ∃ de h', deIntInitMem n h = .ok (de, h') ∧ de.Wf ∧ de.n = n ∧ Owned (de.blocks ++ ps) h' ∧
      h'.live.length = h.live.length + de.blocks.length := by
  by_cases hn : n = 0
  · exact ⟨⟨n, none⟩, h, if_neg (by simpa using hn), Or.inl ⟨hn, rfl⟩, rfl, H, rfl⟩
  · obtain ⟨H1, l1, d1⟩ := allocN_owned 4 H
    obtain ⟨H2, l2, d2⟩ := vecInit_owned n H1
    obtain ⟨H3, l3, d3⟩ := vecInit_owned n H2
    obtain ⟨H4, l4, d4⟩ := vecInit_owned n H3
    obtain ⟨H5, l5, d5⟩ := allocN_owned 7 H4
    obtain ⟨h6, e6, H6, l6⟩ := freeAll_owned _ H5
    refine ⟨⟨n, some ((Heap.allocN 4 h).1, _, _, _)⟩, h6, ?_, Or.inr ⟨hn, _, _, _, _, rfl, d2, d3, d4⟩, rfl, H6.mono (List.Perm.subperm ?_), ?_⟩
    · simp only [deIntInitMem]
      rw [if_pos hn, touchAll_owned H5 (by intro q hq; simp only [List.mem_cons, List.mem_append] at hq ⊢; tauto)]
      simp only [Res.ok_bind, e6]
    · rw [List.perm_iff_count]
      intro a
      simp only [DeMem.blocks, NVec.blocks, List.count_cons, List.count_append]
      omega
    · simp only [DeMem.blocks, NVec.blocks, List.length_cons, List.length_append]
      omega

theorem deClear_owned {de : DeMem} (hw : de.Wf) {ps : List Nat} {h : Heap} (H : Owned (de.blocks ++ ps) h) :
    ∃ h', deIntClearMem de h = .ok h' ∧ Owned ps h' ∧ h'.live.length + de.blocks.length = h.live.length := by
  rcases hw with ⟨h0, hb⟩ | ⟨h0, fs, x, dx, ch2m, hb, lx, ldx, lc⟩
  · refine ⟨h, if_neg (by simpa using h0), ?_, ?_⟩
    · simpa only [DeMem.blocks, hb, List.nil_append] using H
    · simp only [DeMem.blocks, hb]; rfl
  · have H0 : Owned (fs ++ (x.arr :: (x.digits ++ (dx.arr :: (dx.digits ++ (ch2m.arr :: (ch2m.digits ++ ps))))))) h := by
      refine H.mono (List.Perm.subperm ?_)
      simp only [DeMem.blocks, hb, NVec.blocks, List.append_assoc, List.cons_append]
      exact List.Perm.refl _
    obtain ⟨h1, e1, H1, l1⟩ := freeAll_owned _ H0
    obtain ⟨h2, e2, H2, l2⟩ := vecClear_all H1
    obtain ⟨h3, e3, H3, l3⟩ := vecClear_all H2
    obtain ⟨h4, e4, H4, l4⟩ := vecClear_all H3
    rw [lx] at e2; rw [ldx] at e3; rw [lc] at e4
    refine ⟨h4, ?_, H4, ?_⟩
    · rw [deIntClearMem, if_pos h0, hb]
      simp only [e1, Res.ok_bind, e2, e3, e4]
    · simp only [DeMem.blocks, hb, NVec.blocks, List.length_cons, List.length_append]
      omega

theorem refreshDe_owned (cn cg : Nat) (same : Bool) {de : DeMem} (hw : de.Wf) {n : Nat} (hn : n ≠ 0) {ps : List Nat} {h : Heap}
    (H : Owned (de.blocks ++ ps) h) :
    ∃ de' h', refreshDeMem cn cg same de n h = .ok (de', h') ∧ de'.Wf ∧ de'.n ≠ 0 ∧ Owned (de'.blocks ++ ps) h' ∧
      h'.live.length + de.blocks.length = h.live.length + de'.blocks.length := by
  unfold refreshDeMem
  by_cases h1 : de.n = 0 ∨ same = false
  · rw [if_pos h1]
    by_cases h2 : deReplace de.n n cn cg = true
    · rw [if_pos h2]
      obtain ⟨h3, e3, H3, l3⟩ := deClear_owned hw H
      obtain ⟨de', h4, e4, w4, n4, H4, l4⟩ := deInit_owned n H3
      exact ⟨de', h4, by rw [e3]; exact e4, w4, by rw [n4]; exact hn, H4, by omega⟩
    · rw [if_neg h2]
      exact ⟨de, h, rfl, hw, fun h0 => h2 (by rw [deReplace]; exact decide_eq_true (Or.inl h0)), H, rfl⟩
  · rw [if_neg h1]
    exact ⟨de, h, rfl, hw, by tauto, H, rfl⟩

theorem deRead_owned {de : DeMem} (hw : de.Wf) (hn : de.n ≠ 0) {ps : List Nat} {h : Heap} (H : Owned ps h)
    (hs : ∀ q ∈ de.blocks, q ∈ ps) : deReadMem de h = .ok () := by
  rcases hw with ⟨h0, hb⟩ | ⟨h0, fs, x, dx, ch2m, hb, lx, ldx, lc⟩
  · exact absurd h0 hn
  · rw [deReadMem, hb]
    refine touchAll_owned H fun q hq => hs q ?_
    simp only [DeMem.blocks, hb, NVec.blocks, List.mem_cons, List.mem_append] at hq ⊢
    tauto

theorem edgeDe_owned (cn cg : Nat) (m : Nat) (same : Bool) {de : DeMem} (hw : de.Wf) {n : Nat} (hn : n ≠ 0) {ps : List Nat} {h : Heap}
    (H : Owned (de.blocks ++ ps) h) :
    ∃ de' h', edgeDeMem cn cg m same de n h = .ok (de', h') ∧ de'.Wf ∧ Owned (de'.blocks ++ ps) h' ∧
      h'.live.length + de.blocks.length = h.live.length + de'.blocks.length := by
  obtain ⟨H1, l1, d1⟩ := allocN_owned 3 H
  have H1' : Owned (de.blocks ++ ((Heap.allocN 3 h).1 ++ ps)) (Heap.allocN 3 h).2 := by
    refine H1.mono (List.Perm.subperm ?_)
    rw [List.perm_iff_count]
    intro a
    simp only [List.count_append]
    omega
  obtain ⟨de', h2, e2, w2, n2, H2, l2⟩ := refreshDe_owned cn cg same hw hn H1'
  obtain ⟨H3, l3, d3⟩ := allocN_owned 4 H2
  obtain ⟨H4, l4, d4⟩ := vecInit_owned m H3
  have H4' : Owned ((Heap.allocN 4 h2).1 ++ ((vecInit m (Heap.allocN 4 h2).2).1.arr :: ((vecInit m (Heap.allocN 4 h2).2).1.digits ++
      ((Heap.allocN 3 h).1 ++ (de'.blocks ++ ps))))) (vecInit m (Heap.allocN 4 h2).2).2 := by
    refine H4.mono (List.Perm.subperm ?_)
    rw [List.perm_iff_count]
    intro a
    simp only [List.count_append, List.count_cons]
    omega
  obtain ⟨h5, e5, H5, l5⟩ := freeAll_owned _ H4'
  obtain ⟨h6, e6, H6, l6⟩ := vecClear_all H5
  rw [d4] at e6 l6
  obtain ⟨h7, e7, H7, l7⟩ := freeAll_owned _ H6
  refine ⟨de', h7, ?_, w2, H7, by omega⟩
  simp only [edgeDeMem]
  rw [e2]
  simp only [Res.ok_bind]
  rw [deRead_owned w2 n2 H4 (by intro q hq; simp only [List.mem_cons, List.mem_append]; tauto)]
  simp only [Res.ok_bind, e5, e6, e7]

theorem edgesDe_owned (cn cg : Nat) (m : Nat) (same : Bool) : ∀ (ns : List Nat), (∀ n ∈ ns, n ≠ 0) → ∀ {de : DeMem}, de.Wf →
    ∀ {ps : List Nat} {h : Heap}, Owned (de.blocks ++ ps) h →
    ∃ de' h', edgesDeMem cn cg m same ns de h = .ok (de', h') ∧ de'.Wf ∧ Owned (de'.blocks ++ ps) h' ∧
      h'.live.length + de.blocks.length = h.live.length + de'.blocks.length
  | [], _, de, hw, ps, h, H => ⟨de, h, rfl, hw, H, rfl⟩
  | n :: ns, hn, de, hw, ps, h, H => by
    obtain ⟨d1, h1, e1, w1, H1, l1⟩ := edgeDe_owned cn cg m same hw (hn n (by simp)) H
    obtain ⟨d2, h2, e2, w2, H2, l2⟩ := edgesDe_owned cn cg m same ns (fun x hx => hn x (by simp [hx])) w1 H1
    refine ⟨d2, h2, ?_, w2, H2, by omega⟩
    simp only [edgesDeMem]; rw [e1]; exact e2

/-- The double-exponential integration of any tree, for any sequence of positive numbers of nodes and with or without the flag which keeps the
first scheme, never frees a block twice, reads no freed block and no scheme which does not exist, and leaves exactly the blocks which were
live before the call. -/
theorem C82_de (cn cg : Nat) (m : Nat) (same : Bool) (ns : List Nat) (hn : ∀ n ∈ ns, 0 < n) (h : Heap) (hg : h.Good) :
    ∃ h', treeDeMem cn cg m same ns h = .ok h' ∧ h'.live.Perm h.live := by
  obtain ⟨H1, l1⟩ := alloc_owned hg.owned
  obtain ⟨de, h2, e2, w2, H2, l2⟩ := edgesDe_owned cn cg m same ns (fun n hm => (hn n hm).ne') (de := ⟨0, none⟩) (Or.inl ⟨rfl, rfl⟩) H1
  obtain ⟨h3, e3, H3, l3⟩ := deClear_owned w2 H2
  obtain ⟨h4, e4, H4, l4⟩ := free_owned H3
  refine ⟨h4, ?_, (H4.sub.perm_of_length_le ?_).symm⟩
  · simp only [treeDeMem]; rw [e2]; simp only [Res.ok_bind]; rw [e3]; exact e4
  · have : (DeMem.blocks ⟨0, none⟩).length = 0 := rfl
    omega

/-- three edges of a curve of degree 5 and genus 2 -/
example : ∀ n ∈ [120, 80, 80], 0 < n := by decide

/-- number of pairs of edges `k < l` such that `l` starts at an end point of `k` -/
def meetings : List (Nat × Nat) → Nat
  | [] => 0
  | ek :: ls => (ls.filter fun el => el.1 = ek.1 ∨ el.1 = ek.2).length + meetings ls

theorem pair_owned (ek el : Nat × Nat) {ps : List Nat} {h : Heap} (H : Owned ps h) :
    ∃ h', pairMem ek el h = .ok h' ∧ Owned ps h' ∧
      h'.live.length = h.live.length + (if el.1 = ek.1 ∨ el.1 = ek.2 then 2 else 0) := by
  obtain ⟨H1, l1, d1⟩ := allocN_owned 2 H
  have H1' : Owned ps (shiftNumberMem h) := H1.mono (List.sublist_append_right _ _).subperm
  have l1' : (shiftNumberMem h).live.length = h.live.length + 2 := l1
  unfold pairMem
  by_cases h1 : ek.1 ≠ el.1 ∧ ek.2 ≠ el.1
  · rw [if_pos h1, if_neg (by rintro (e | e); exacts [h1.1 e.symm, h1.2 e.symm])]
    exact ⟨h, rfl, H, rfl⟩
  · rw [if_neg h1]
    by_cases h2 : el.1 = ek.1
    · rw [if_pos h2, if_pos (Or.inl h2)]
      obtain ⟨H2, l2⟩ := alloc_owned H1'
      obtain ⟨h3, e3, H3, l3⟩ := free_owned H2
      exact ⟨h3, e3, H3, by omega⟩
    · rw [if_neg h2]
      have h3 : el.1 = ek.2 := by
        by_contra h3
        exact h1 ⟨fun e => h2 e.symm, fun e => h3 e.symm⟩
      rw [if_pos h3, if_pos (Or.inr h3)]
      exact ⟨_, rfl, H1', l1'⟩

theorem row_owned (ek : Nat × Nat) : ∀ (ls : List (Nat × Nat)) {ps : List Nat} {h : Heap}, Owned ps h →
    ∃ h', rowMem ek ls h = .ok h' ∧ Owned ps h' ∧
      h'.live.length = h.live.length + 2 * (ls.filter fun el => el.1 = ek.1 ∨ el.1 = ek.2).length
  | [], ps, h, H => ⟨h, rfl, H, rfl⟩
  | el :: ls, ps, h, H => by
    obtain ⟨h1, e1, H1, l1⟩ := pair_owned ek el H
    obtain ⟨h2, e2, H2, l2⟩ := row_owned ek ls H1
    refine ⟨h2, by rw [rowMem, e1]; exact e2, H2, ?_⟩
    rw [List.filter_cons]
    by_cases hc : el.1 = ek.1 ∨ el.1 = ek.2
    · rw [if_pos hc] at l1; rw [if_pos (by simpa using hc), List.length_cons]; omega
    · rw [if_neg hc] at l1; rw [if_neg (by simpa using hc)]; omega

theorem intersection_owned : ∀ (es : List (Nat × Nat)) {ps : List Nat} {h : Heap}, Owned ps h →
    ∃ h', intersectionMem es h = .ok h' ∧ Owned ps h' ∧ h'.live.length = h.live.length + 2 * meetings es
  | [], ps, h, H => ⟨h, rfl, H, rfl⟩
  | ek :: ls, ps, h, H => by
    obtain ⟨h1, e1, H1, l1⟩ := row_owned ek ls H
    obtain ⟨h2, e2, H2, l2⟩ := intersection_owned ls H1
    refine ⟨h2, by rw [intersectionMem, e1]; exact e2, H2, ?_⟩
    simp only [meetings]; omega

/-- each edge after the first starts at an end point of an earlier one -/
def Grown (es : List (Nat × Nat)) : Prop :=
  ∀ l (hl : l < es.length), 0 < l → ∃ k, ∃ hk : k < l, es[l].1 = (es[k]'(hk.trans hl)).1 ∨ es[l].1 = (es[k]'(hk.trans hl)).2

theorem meetings_append (es : List (Nat × Nat)) (el : Nat × Nat) :
    meetings (es ++ [el]) = meetings es + (es.filter fun ek => el.1 = ek.1 ∨ el.1 = ek.2).length := by
  induction es with
  | nil => simp [meetings]
  | cons ek es ih =>
    simp only [List.cons_append, meetings, ih, List.filter_append, List.length_append, List.filter_cons, List.filter_nil]
    split <;> simp_all <;> omega

theorem grown_meetings (es : List (Nat × Nat)) : Grown es → es.length ≤ meetings es + 1 := by
  induction es using List.reverseRecOn with
  | nil => intro _; simp
  | append_singleton es el ih =>
    intro hg
    have hi : Grown es := by
      intro l hl h0
      obtain ⟨k, hk, hh⟩ := hg l (by rw [List.length_append]; simp; omega) h0
      refine ⟨k, hk, ?_⟩
      rwa [List.getElem_append_left hl, List.getElem_append_left (hk.trans hl)] at hh
    rw [meetings_append, List.length_append, List.length_singleton]
    have := ih hi
    rcases Nat.eq_zero_or_pos es.length with h0 | h0
    · omega
    · obtain ⟨k, hk, hh⟩ := hg es.length (by simp) h0
      rw [List.getElem_append_left hk, List.getElem_concat_length rfl] at hh
      have : 0 < (es.filter fun ek => el.1 = ek.1 ∨ el.1 = ek.2).length :=
        List.length_pos_of_mem (List.mem_filter.2 ⟨List.getElem_mem hk, by simpa using hh⟩)
      omega

/-- The computation of the intersection numbers of any list of edges frees nothing twice, keeps the blocks of the caller, and loses exactly two
numbers for each pair of edges which meet; on a tree with `n` edges (each edge starts on an earlier one) at least `2 (n - 1)` of them. -/
theorem C82_intersection_leak_fails (es : List (Nat × Nat)) (h : Heap) (hg : h.Good) :
    ∃ h', intersectionMem es h = .ok h' ∧ Extra h h' (2 * meetings es) ∧
      (Grown es → h.live.length + 2 * (es.length - 1) ≤ h'.live.length) := by
  obtain ⟨h', e, H, l⟩ := intersection_owned es hg.owned
  refine ⟨h', e, H.extra l, fun hgr => ?_⟩
  have := grown_meetings es hgr
  omega

/-- a chain of four edges -/
example : Grown [(0, 1), (1, 2), (2, 3), (3, 4)] ∧ meetings [(0, 1), (1, 2), (2, 3), (3, 4)] = 3 := by
  refine ⟨fun l hl h0 => ⟨l - 1, by omega, ?_⟩, by decide⟩
  simp only [List.length_cons, List.length_nil] at hl
  interval_cases l <;> simp

theorem solveReal_owned {n m : Nat} (hn : 0 < n) (hm : 0 < m) {ps : List Nat} {h : Heap} (H : Owned ps h) :
    ∃ h', solveRealMem n m h = .ok h' ∧ Owned ps h' ∧ h'.live.length = h.live.length + 2 := by
  obtain ⟨H1, l1, d1⟩ := allocN_owned 5 H
  obtain ⟨H2, l2⟩ := alloc_owned H1
  obtain ⟨H3, l3⟩ := alloc_owned H2
  obtain ⟨H4, l4⟩ := alloc_owned H3
  set h1 := (Heap.allocN 5 h).2
  set h2 := h1.alloc.2
  set h3 := h2.alloc.2
  set h4 := h3.alloc.2
  obtain ⟨h5, e5, H5, l5⟩ := freeAll_owned (Heap.allocN 5 h).1 (ps := h3.alloc.1 :: h2.alloc.1 :: ps) (H4.mono (by
    refine (List.Perm.subperm ?_ : List.Subperm _ (h3.alloc.1 :: h2.alloc.1 :: ((Heap.allocN 5 h).1 ++ ps))).trans ?_
    · rw [List.perm_iff_count]
      intro a
      simp only [List.count_append, List.count_cons]
      omega
    · exact (List.Sublist.cons_cons _ (List.Sublist.cons_cons _ (List.sublist_cons_self _ _))).subperm))
  obtain ⟨H6, l6⟩ := alloc_owned H5
  obtain ⟨h7, e7, H7, l7⟩ := free_owned (H6.mono (List.sublist_cons_self _ _).subperm)
  obtain ⟨h8, e8, H8, l8⟩ := free_owned H7
  refine ⟨h8, ?_, H8, by omega⟩
  rw [solveRealMem, if_neg (by omega)]
  show (do let h ← Heap.freeAll (Heap.allocN 5 h).1 h4
           let h' ← Heap.free h3.alloc.1 h.alloc.2
           Heap.free h2.alloc.1 h') = _
  rw [e5]; simp only [Res.ok_bind, e7, e8]

/-- number of blocks lost by the solver of the period matrix according to the results of its three attempts -/
def solverLoss : Bool → Bool → Bool → Nat
  | true, _, _ => 0
  | false, true, _ => 3
  | false, false, _ => 5

/-- When the first solver succeeds nothing is lost; each time it fails the determinant and two matrices per further attempt are lost.  Nothing
is freed twice and the blocks of the caller remain. -/
theorem C82_solver_leak_fails {n m : Nat} (hn : 0 < n) (hm : 0 < m) (ok1 ok2 ok3 : Bool) (h : Heap) (hg : h.Good) :
    ∃ h', solveMultiMem n m ok1 ok2 ok3 h = .ok h' ∧ Extra h h' (solverLoss ok1 ok2 ok3) := by
  cases ok1 with
  | true => exact ⟨h, rfl, hg.owned.extra rfl⟩
  | false =>
    obtain ⟨H1, l1⟩ := alloc_owned hg.owned
    obtain ⟨h2, e2, H2, l2⟩ := solveReal_owned hn hm (H1.mono (List.sublist_cons_self _ _).subperm)
    cases ok2 with
    | true =>
      refine ⟨h2, ?_, H2.extra (by simp only [solverLoss]; omega)⟩
      simp only [solveMultiMem, e2]; rfl
    | false =>
      obtain ⟨H3, l3, d3⟩ := allocN_owned 3 H2
      obtain ⟨h4, e4, H4, l4⟩ := solveReal_owned hn hm H3
      have h5 : ∃ h5, (if ok3 = true then Res.ok h4 else solveCharpolyMem h4) = .ok h5 ∧ Owned ((Heap.allocN 3 h2).1 ++ h.live) h5 ∧
          h5.live.length = h4.live.length := by
        cases ok3 with
        | true => exact ⟨h4, rfl, H4, rfl⟩
        | false =>
          obtain ⟨H5, l5, d5⟩ := allocN_owned 2 H4
          obtain ⟨h6, e6, H6, l6⟩ := freeAll_owned _ H5
          exact ⟨h6, e6, H6, by omega⟩
      obtain ⟨h5, e5, H5, l5⟩ := h5
      obtain ⟨h6, e6, H6, l6⟩ := freeAll_owned _ H5
      refine ⟨h6, ?_, H6.extra (by simp only [solverLoss]; omega)⟩
      have e7 : solveMultiMem n m false false ok3 h = (do
          let h' ← solveRealMem n m h.alloc.2
          let h'' ← solveRealMem n m (Heap.allocN 3 h').2
          let h'' ← (if ok3 = true then Res.ok h'' else solveCharpolyMem h'')
          Heap.freeAll (Heap.allocN 3 h').1 h'') := by
        simp only [solveMultiMem]
        cases ok3 <;> rfl
      rw [e7, e2]; simp only [Res.ok_bind]; rw [e4]; simp only [Res.ok_bind]; rw [e5]; exact e6

example : solverLoss true true true = 0 ∧ solverLoss false true true = 3 ∧ solverLoss false false true = 5 := ⟨rfl, rfl, rfl⟩

end Hcp
