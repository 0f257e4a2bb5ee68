import Verif.GC.Demo

/-!
# Properties of the collector (C11–C17)
-/

namespace GC

/-! ## C11: the reachable graph is preserved -/

/-- `garbage_collect` on any well-formed state: when it returns, every root denotes the same graph as before (same
headers, fields, sharing and cycles up to renaming of addresses), the state is well-formed again, and no word outside
the generations and the root arrays has changed. It never runs out of the scan bound, so it returns or aborts. -/
theorem C11_garbage_collect {Static : Nat → Prop} {D fuel : Nat} {malloc : Nat → Option Nat} {ti : TI} {N : Nat}
    {objs : Nat → List Nat} (w : MutatorOK Static ti N objs)
    (hm : MallocOK Static ti.heap N (Roots ti.fp) (ti.heap 0).size malloc)
    (hf : 2 ^ 41 * (ti.heap 0).size < fuel) :
    garbageCollect D fuel malloc ti = .abort ∨
    ∃ ti' N' objs', garbageCollect D fuel malloc ti = .ok ti' ∧ MutatorOK Static ti' N' objs' ∧ ti'.fp = ti.fp ∧
      SameGraph Static (InHeap objs) (InHeap objs') (Roots ti.fp) ti.mem ti'.mem ∧
      (∀ x, ¬ Roots ti.fp x → (∀ k, k < N' → x < (ti'.heap k).start ∨ (ti'.heap k).remLimit ≤ x) →
        ti'.mem x = ti.mem x) := by
  rcases garbageCollect_spec D fuel malloc ti N objs w hm hf with h | ⟨ti', N', objs', h, c⟩
  · exact Or.inl h
  · exact Or.inr ⟨ti', N', objs', h, c.mutator, c.fp, c.graph, c.outside⟩

example : ∃ ti' N' objs', garbageCollect 0 (2 ^ 44) demoMalloc demo = .ok ti' ∧ MutatorOK (fun _ => False) ti' N' objs' ∧
    SameGraph (fun _ => False) (InHeap demoObjs) (InHeap objs') (Roots demo.fp) demo.mem ti'.mem := by
  rcases C11_garbage_collect (D := 0) (fuel := 2 ^ 44) demo_ok demoMalloc_ok (by decide) with h | ⟨ti', N', objs', h, w, _, g, _⟩
  · exact absurd h (by
      have : (match garbageCollect 0 (2 ^ 44) demoMalloc demo with | .ok _ => true | _ => false) = true := by decide +kernel
      intro e; rw [e] at this; cases this)
  · exact ⟨ti', N', objs', h, w, g⟩

/-- Collecting a single generation `i` into `i+1` (`do_generation`) preserves the graph and leaves generation `i`
empty. -/
theorem C11_do_generation {Static : Nat → Prop} {m : Mem} {h : Heap} {N i : Nat} {objs : Nat → List Nat} {fr : List Frame}
    (w : WF Static m h N objs (Roots fr) i) (hN : i + 1 < N) (D fuel : Nat) (hfuel : (h i).size < fuel) :
    ∃ m' s t objs', doGeneration D fuel m (h i) (h (i+1)) fr = .ok (m', s, t) ∧ objs' i = [] ∧ s.next = s.start ∧
      WF Static m' (setSpace (setSpace h i s) (i+1) t) N objs' (Roots fr) (i+1) ∧
      SameGraph Static (InHeap objs) (InHeap objs') (Roots fr) m m' := by
  obtain ⟨m', h', objs', hg, hh, _, w', g, _⟩ := w.iterate hN D fuel hfuel
  have hb := w'.below i (by omega)
  exact ⟨m', h' i, h' (i+1), objs', hg, hb.1, hb.2.1, hh ▸ w', g⟩

example : ∃ m' s t objs', doGeneration 3 100 demo.mem (demoHeap 0) (demoHeap 1) demo.fp = .ok (m', s, t) ∧ objs' 0 = [] ∧
    SameGraph (fun _ => False) (InHeap demoObjs) (InHeap objs') (Roots demo.fp) demo.mem m' := by
  have w := demo_ok
  unfold MutatorOK at w
  rw [demo_current] at w
  obtain ⟨m', s, t, o, h1, h2, _, _, h3⟩ := C11_do_generation w (by decide) 3 100 (by decide)
  exact ⟨m', s, t, o, h1, h2, h3⟩

/-! ## C12: the requested space is provided -/

/-- When `garbage_collect` returns, the nursery is empty, the allocation pointer is at its start, nothing is reserved at
its end, and at least `nalloc` words are available. -/
theorem C12_space {Static : Nat → Prop} {D fuel : Nat} {malloc : Nat → Option Nat} {ti ti' : TI} {N : Nat}
    {objs : Nat → List Nat} (w : MutatorOK Static ti N objs)
    (hm : MallocOK Static ti.heap N (Roots ti.fp) (ti.heap 0).size malloc)
    (hf : 2 ^ 41 * (ti.heap 0).size < fuel) (h : garbageCollect D fuel malloc ti = .ok ti') :
    ti.nalloc ≤ ti'.limit - ti'.alloc ∧ ti'.alloc = (ti.heap 0).start ∧ ti'.limit = (ti.heap 0).remLimit := by
  rcases garbageCollect_spec D fuel malloc ti N objs w hm hf with h' | ⟨ti2, N', objs', h', c⟩
  · rw [h'] at h; cases h
  · rw [h'] at h
    cases h
    have hst : (ti.heap 0).start ≠ 0 := by
      have : 0 < (ti.heap 0).start := w.inUse 0 w.pos
      omega
    have := c.extents 0 hst
    exact ⟨c.enough, by rw [c.alloc.1, this.1], by rw [c.limit.1, this.2]⟩

/-- When it aborts, `malloc` failed, more was requested than the nursery can ever hold, or the program occupies more
than `2^41` nurseries (`2^57` words for the standard nursery). -/
theorem C12_abort {Static : Nat → Prop} {D fuel : Nat} {malloc : Nat → Option Nat} {ti : TI} {N : Nat}
    {objs : Nat → List Nat} (w : MutatorOK Static ti N objs)
    (hm : MallocOK Static ti.heap N (Roots ti.fp) (ti.heap 0).size malloc)
    (hf : 2 ^ 41 * (ti.heap 0).size < fuel) (h : garbageCollect D fuel malloc ti = .abort) :
    (∃ j, malloc j = none) ∨ (ti.heap 0).size < ti.nalloc ∨
      2 ^ 41 * (ti.heap 0).size < ∑ k ∈ Finset.range N, (currentHeap ti k).used :=
  garbageCollect_abort D fuel malloc ti N objs w hm hf h

/-- A request that exceeds the nursery is refused, never granted silently. -/
theorem C12_too_big {Static : Nat → Prop} {D fuel : Nat} {malloc : Nat → Option Nat} {ti : TI} {N : Nat}
    {objs : Nat → List Nat} (w : MutatorOK Static ti N objs)
    (hm : MallocOK Static ti.heap N (Roots ti.fp) (ti.heap 0).size malloc)
    (hf : 2 ^ 41 * (ti.heap 0).size < fuel) (hbig : (ti.heap 0).size < ti.nalloc) :
    garbageCollect D fuel malloc ti = .abort := by
  rcases garbageCollect_spec D fuel malloc ti N objs w hm hf with h | ⟨ti', N', objs', h, c⟩
  · exact h
  · exfalso
    have := C12_space w hm hf h
    rw [this.2.1, this.2.2] at this
    unfold Space.size at hbig
    omega

example : ∃ ti', garbageCollect 0 (2 ^ 44) demoMalloc demo = .ok ti' ∧ 4 ≤ ti'.limit - ti'.alloc := by
  cases h : garbageCollect 0 (2 ^ 44) demoMalloc demo with
  | ok ti' => exact ⟨ti', rfl, (C12_space demo_ok demoMalloc_ok (by decide) h).1⟩
  | abort =>
    have : (match garbageCollect 0 (2 ^ 44) demoMalloc demo with | .ok _ => true | _ => false) = true := by decide +kernel
    rw [h] at this; cases this
  | oof =>
    have : (match garbageCollect 0 (2 ^ 44) demoMalloc demo with | .ok _ => true | _ => false) = true := by decide +kernel
    rw [h] at this; cases this

/-! ## C13: no stray writes, each block copied once -/

/-- Collecting generation `i`: every word that changes is in the collected generation, in the part of the next
generation that was free before, a root, or a field of an older block recorded in the remembered set; the copied data
stays below the (possibly lowered) limit; and the copies are made from distinct blocks (no block is copied twice), so
that they occupy at most as many words as the collected generation held. -/
theorem C13_no_stray_writes {Static : Nat → Prop} {m : Mem} {h : Heap} {N i : Nat} {objs : Nat → List Nat}
    {fr : List Frame} (w : WF Static m h N objs (Roots fr) i) (hN : i + 1 < N) (D fuel : Nat) (hfuel : (h i).size < fuel) :
    ∃ m' n T', doGeneration D fuel m (h i) (h (i+1)) fr = .ok (m', { h i with next := (h i).start, limit := (h i).remLimit },
        { h (i+1) with next := n, limit := T' }) ∧
      n ≤ T' ∧ T' ≤ (h (i+1)).limit ∧ n - (h (i+1)).next ≤ (h i).next - (h i).start ∧
      (h (i+1)).limit - T' ≤ (h i).remLimit - (h i).limit ∧
      (∃ L copies : List Nat, L.Nodup ∧ (∀ a ∈ L, a ∈ objs i) ∧ Blocks m' (h (i+1)).next copies n ∧
        copies.length = L.length) ∧
      ∀ x, m' x ≠ m x →
        ((h i).start ≤ x ∧ x < (h i).limit) ∨ ((h (i+1)).next ≤ x ∧ x < (h (i+1)).limit) ∨ Roots fr x ∨
        ∃ k a j q, i < k ∧ a ∈ objs k ∧ Scanned m a ∧ j < blockSize m a ∧ x = a + j ∧
          (h i).limit ≤ q ∧ q < (h i).remLimit ∧ m q = 8 * x := by
  have o1 := w.order (i+1) hN
  obtain ⟨m', n, T', L, hg, hc⟩ := Setup.doGeneration_spec (w.setup_ok hN) D fuel (h i) (h (i+1)) fr rfl rfl rfl o1.1
    (w.rem_ok hN) (fun x hx => Or.inl hx)
    (fun x hx => by
      rcases hx with hx | ⟨_, j, hj, e⟩
      · exact Or.inl hx
      · exact Or.inr ⟨j, hj, e⟩)
    (by
      change (h i).limit - (h i).start + 1 ≤ fuel
      have := w.order i w.pos
      unfold Space.size at hfuel
      omega)
  have f : StepFacts Static m h N objs (Roots fr) i m' n T' L := ⟨w, hN, hc⟩
  have nb := f.n_bounds
  have cl := f.copied_le
  refine ⟨m', n, T', hg, nb.2.1, nb.2.2, by omega, by have := hc.lo; omega, ?_, ?_⟩
  · refine ⟨L, L.map ((stepSetup m h objs (Roots fr) i).pos L), hc.inv.nodup, hc.inv.objs, ?_, by simp⟩
    have hn : n = endOf (stepSetup m h objs (Roots fr) i).sz (h (i+1)).next L := hc.inv.next
    rw [hn]
    refine blocks_new L _ hc.inv.nodup ?_ ?_
    · intro a ha; exact ((w.setup_ok hN).obj (hc.inv.objs a ha)).2.2
    · intro a ha
      have := f.new_hdr ha
      unfold Setup.pos at this
      change m' (posOf _ (h (i+1)).next L a - 1) = _ at this
      rw [this]; rfl
  · intro x hx
    by_contra hcon
    push Not at hcon
    obtain ⟨h1, h2, h3, h4⟩ := hcon
    apply hx
    refine f.same (by
      by_cases c : (h i).start ≤ x
      · exact Or.inr (h1 c)
      · omega) (by
      by_cases c : (h (i+1)).next ≤ x
      · exact Or.inr (h2 c)
      · omega) ?_
    intro hcell
    obtain ⟨k, a, j, hk, ha, hs, hj, e⟩ := w.cell_old hcell h3
    rcases hcell with hr | ⟨hout, l, hl, el⟩
    · exact h3 hr
    · obtain ⟨k', a', j', hk', ha', hs', hj', e'⟩ := w.remset i ((h i).limit + l) w.pos (by omega) (by omega)
      refine h4 k a j ((h i).limit + l) hk ha hs hj e (by omega) (by omega) ?_
      rw [e'] at el ⊢
      unfold addrOf at el
      omega

/-! ## C14: raw blocks are copied unchanged -/

/-- In the preserved graph the payload of every reachable block with a tag of 251 or more is equal word for word, and
header words are equal for all blocks. -/
theorem C14_raw_blocks {Static : Nat → Prop} {D fuel : Nat} {malloc : Nat → Option Nat} {ti ti' : TI} {N : Nat}
    {objs : Nat → List Nat} (w : MutatorOK Static ti N objs)
    (hm : MallocOK Static ti.heap N (Roots ti.fp) (ti.heap 0).size malloc)
    (hf : 2 ^ 41 * (ti.heap 0).size < fuel) (h : garbageCollect D fuel malloc ti = .ok ti') (x a : Nat)
    (hx : Roots ti.fp x) (hxa : ti.mem x = 8 * a) (ha : InHeap objs a) (hraw : 251 ≤ ti.mem (a - 1) % 256) :
    ∃ a', ti'.mem x = 8 * a' ∧ ti'.mem (a' - 1) = ti.mem (a - 1) ∧
      ∀ i, i < blockSize ti.mem a → ti'.mem (a' + i) = ti.mem (a + i) := by
  rcases garbageCollect_spec D fuel malloc ti N objs w hm hf with h' | ⟨ti2, N', objs', h', c⟩
  · rw [h'] at h; cases h
  · rw [h'] at h
    cases h
    obtain ⟨ψ, h1, h2, _⟩ := c.graph
    have ho := h2 a (.root hx hxa ha)
    refine ⟨ψ a, ?_, ho.2.1, fun i hi => (ho.2.2 i hi).2 (by unfold Scanned; omega)⟩
    rcases h1 x hx with ⟨o, _⟩ | ⟨b, e, _, e'⟩ | ⟨b, e, hs, _⟩
    · omega
    · have : b = a := by omega
      rw [← this]; exact e'
    · have : b = a := by omega
      subst this
      exact absurd ha (w.static_not b hs)

/-- The example heap with a raw block whose payload looks like pointers into the nursery and into generation 1. -/
example : ∃ ti ti' objs, MutatorOK (fun _ => False) ti 3 objs ∧ garbageCollect 0 (2 ^ 44) demoMalloc ti = .ok ti' ∧
    ti.mem 101 = 8 * 11 ∧ ti.mem 10 = 2 * 1024 + 252 ∧ ti.mem 11 = 8 * 11 ∧ ti.mem 12 = 8 * 21 ∧
    ∃ a', ti'.mem 101 = 8 * a' ∧ ti'.mem a' = 8 * 11 ∧ ti'.mem (a' + 1) = 8 * 21 := by
  obtain ⟨t1, h1, h1'⟩ : ∃ t1, allocBlock demo 252 [8 * 11, 8 * 21] = .ok (t1, 11) ∧
      (match garbageCollect 0 (2 ^ 44) demoMalloc { t1 with mem := upd t1.mem 101 (8 * 11), fp := demo.fp, nalloc := 4 } with
        | .ok _ => true | _ => false) = true := ⟨_, rfl, by decide +kernel⟩
  obtain ⟨w1, f1, f2, f3, _, f5, f6, _⟩ := alloc_ok demo_ok (by decide) (by decide) (fun h => absurd h (by decide)) h1
  have w2 := roots_ok (m' := upd t1.mem 101 (8 * 11)) (fp' := demo.fp) (nalloc' := 4) w1 (by
      intro x k hk ha hb
      refine upd_other ?_
      rintro rfl
      rw [f6] at ha hb
      interval_cases k <;> revert ha hb <;> decide)
    (by
      intro x k hx hk
      rw [demo_roots] at hx
      rw [f6]
      rcases hx with rfl | rfl <;> interval_cases k <;> decide)
    (by
      intro x hx
      rw [demo_roots] at hx
      rcases hx with rfl | rfl
      · refine Or.inr (Or.inl ⟨41, ?_, 2, by decide⟩)
        rw [upd_other (by decide), f1 100 (by decide)]; rfl
      · exact Or.inr (Or.inl ⟨11, upd_same _ _ _, 0, by decide⟩))
  cases h : garbageCollect 0 (2 ^ 44) demoMalloc { t1 with mem := upd t1.mem 101 (8 * 11), fp := demo.fp, nalloc := 4 } with
  | ok ti' =>
    have g10 : upd t1.mem 101 (8 * 11) 10 = 2 * 1024 + 252 := by rw [upd_other (by decide)]; exact f2
    have g11 : upd t1.mem 101 (8 * 11) 11 = 8 * 11 := by rw [upd_other (by decide)]; exact f3 0 (by decide)
    have g12 : upd t1.mem 101 (8 * 11) 12 = 8 * 21 := by rw [upd_other (by decide)]; exact f3 1 (by decide)
    obtain ⟨a', e1, _, e2⟩ := C14_raw_blocks w2 (by simp only; rw [f6]; exact demoMalloc_ok) (by simp only; rw [f6]; decide) h
      101 11 ((demo_roots 101).2 (Or.inr rfl)) (upd_same t1.mem 101 (8 * 11)) ⟨0, by decide⟩ (by
        simp only [Nat.reduceSub]; rw [g10]; decide)
    have hs : blockSize (upd t1.mem 101 (8 * 11)) 11 = 2 := by unfold blockSize; simp only [Nat.reduceSub]; rw [g10]
    refine ⟨_, ti', _, w2, h, upd_same t1.mem 101 (8 * 11), g10, g11, g12, a', e1, ?_, ?_⟩
    · have := e2 0 (by simp only; rw [hs]; decide); rw [Nat.add_zero] at this; rw [this]; exact g11
    · have := e2 1 (by simp only; rw [hs]; decide); rw [this]; exact g12
  | abort => rw [h] at h1'; cases h1'
  | oof => rw [h] at h1'; cases h1'

/-! ## C15, C16: histories -/

theorem layout_unique {Static : Nat → Prop} {ti : TI} {N N' : Nat} {objs objs' : Nat → List Nat}
    (w : MutatorOK Static ti N objs) (l : Layout ti N' objs') : N' = N ∧ objs' = objs := by
  have hN : N' = N := by
    by_contra hne
    rcases Nat.lt_or_ge N' N with h | h
    · have h1 := w.inUse N' h
      have h2 := (l.unused N' (le_refl _)).1
      omega
    · have h1 := (w.unused N (le_refl _)).1
      have h2 := (l.inUse N (by omega)).1
      omega
  subst hN
  refine ⟨rfl, ?_⟩
  funext k
  by_cases hk : k < N'
  · exact blocks_unique (l.inUse k hk).2 _ (w.blocks k hk)
  · rw [(w.unused k (by omega)).2, (l.unused k (by omega)).2]

theorem makeTinfo_ok (Static : Nat → Prop) (m : Mem) (a : Nat) (ha : 0 < a)
    (hs : ∀ x, Static x → x < a ∨ a + nurserySize ≤ x) :
    MutatorOK Static (makeTinfo m a) 1 (fun _ => []) := by
  have hc : ∀ k, currentHeap (makeTinfo m a) k = if k = 0 then ⟨a, a, a + nurserySize, a + nurserySize⟩ else nullSpace := by
    intro k
    unfold currentHeap
    by_cases c : k = 0
    · subst c; rfl
    · rw [if_neg c, if_neg c]
      simp only [makeTinfo, createHeap, setSpace]
      rw [if_neg c]
  have hr : ∀ x, ¬ Roots (makeTinfo m a).fp x := by
    rintro x ⟨f, hf, _⟩
    cases hf
  unfold MutatorOK
  rw [funext hc]
  constructor
  · decide
  · intro i hi
    have : i = 0 := by omega
    subst this; exact ha
  · intro i hi
    rw [if_neg (by omega)]; exact ⟨rfl, rfl⟩
  · intro i hi
    have : i = 0 := by omega
    subst this
    simp only [if_true]; omega
  · intro i hi; omega
  · intro i j hi hj hij; omega
  · intro i hi
    have : i = 0 := by omega
    subst this; exact .nil _
  · intro i _ hi; omega
  · intro i hi; omega
  · intro x i hx hi
    have : i = 0 := by omega
    subst this
    simp only [if_true]; exact hs x hx
  · intro x i hx; exact absurd hx (hr x)
  · intro x hx; exact absurd hx (hr x)
  · intro k b i hb; cases hb
  · intro k b i j c hb; cases hb
  · intro j q hj q1 q2
    have : j = 0 := by omega
    subst this
    simp only [if_true] at q1 q2; omega

/-- The restriction under which the write barrier is right: the stored block is in the nursery or not younger than the
mutated one. -/
def Barriered (k j : Nat) : Prop := j = 0 ∨ k ≤ j

theorem action_ok {Static : Nat → Prop} {D fuel : Nat} {ti ti' : TI} {N N' : Nat} {objs objs' : Nat → List Nat}
    (w : MutatorOK Static ti N objs) (s : Action Static Barriered D fuel ti N objs ti' N' objs') :
    MutatorOK Static ti' N' objs' := by
  cases s with
  | alloc h1 h2 h3 h4 => exact (alloc_ok w h1 h2 h3 h4).1
  | modify h1 h2 h3 h4 h5 h6 => exact (modify_ok w h1 h2 h3 h4 h5 h6).1
  | frames h1 h2 h3 => exact roots_ok w h1 h2 h3
  | collect h1 h2 h3 h4 =>
    rcases garbageCollect_spec D fuel _ ti N objs w h1 h2 with h' | ⟨ti2, N2, objs2, h', c⟩
    · rw [h'] at h3; cases h3
    · rw [h'] at h3
      cases h3
      obtain ⟨rfl, rfl⟩ := layout_unique c.mutator h4
      exact c.mutator

theorem history_ok {Static : Nat → Prop} {D fuel : Nat} {ti ti' : TI} {N N' : Nat} {objs objs' : Nat → List Nat}
    (w : MutatorOK Static ti N objs) (s : History Static Barriered D fuel ti N objs ti' N' objs') :
    MutatorOK Static ti' N' objs' := by
  induction s with
  | refl => exact w
  | step _ a ih => exact action_ok ih a

/-- For every history of allocations, mutations, root changes and collections from a fresh heap the heap stays
well-formed. Partial: mutations must satisfy `Barriered`; for others see `C16_refuted`. -/
theorem C16_invariant_partial {Static : Nat → Prop} {D fuel : Nat} {m : Mem} {a : Nat} (ha : 0 < a)
    (hs : ∀ x, Static x → x < a ∨ a + nurserySize ≤ x) {ti' : TI} {N' : Nat} {objs' : Nat → List Nat}
    (s : History Static Barriered D fuel (makeTinfo m a) 1 (fun _ => []) ti' N' objs') :
    MutatorOK Static ti' N' objs' := history_ok (makeTinfo_ok Static m a ha hs) s

/-- The same for programs that never mutate a block: no restriction is left. -/
theorem C16_pure_programs {Static : Nat → Prop} {D fuel : Nat} {m : Mem} {a : Nat} (ha : 0 < a)
    (hs : ∀ x, Static x → x < a ∨ a + nurserySize ≤ x) {ti' : TI} {N' : Nat} {objs' : Nat → List Nat}
    (s : History Static (fun _ _ => False) D fuel (makeTinfo m a) 1 (fun _ => []) ti' N' objs') :
    MutatorOK Static ti' N' objs' := by
  apply history_ok (D := D) (fuel := fuel) (makeTinfo_ok Static m a ha hs)
  have key : ∀ {ti N objs ti' N' objs'}, Action Static (fun _ _ => False) D fuel ti N objs ti' N' objs' →
      Action Static Barriered D fuel ti N objs ti' N' objs' := by
    intro ti N objs ti' N' objs' h
    cases h with
    | alloc h1 h2 h3 h4 => exact .alloc h1 h2 h3 h4
    | modify h1 h2 h3 h4 h5 h6 => exact .modify h1 h2 h3 h4 (fun b j e hb => absurd (h5 b j e hb) id) h6
    | frames h1 h2 h3 => exact .frames h1 h2 h3
    | collect h1 h2 h3 h4 => exact .collect h1 h2 h3 h4
  induction s with
  | refl => exact .refl
  | step _ h ih => exact .step ih (key h)

/-- A non-trivial history: allocate a pair from a fresh heap and make it a root. -/
example (m : Mem) : ∃ ti' N' objs', History (fun _ => False) Barriered 0 (2 ^ 60) (makeTinfo m 1000) 1 (fun _ => []) ti' N' objs' ∧
    InHeap objs' 1001 ∧ MutatorOK (fun _ => False) ti' N' objs' := by
  obtain ⟨ti', h⟩ : ∃ ti', allocBlock (makeTinfo m 1000) 0 [1, 3] = .ok (ti', 1001) := ⟨_, rfl⟩
  have s : History (fun _ => False) Barriered 0 (2 ^ 60) (makeTinfo m 1000) 1 (fun _ => []) ti' 1 _ :=
    .step .refl (.alloc (by decide) (by decide) (fun _ v hv => Or.inl (by
      rcases List.mem_cons.1 hv with rfl | hv
      · rfl
      · rcases List.mem_cons.1 hv with rfl | hv
        · rfl
        · cases hv)) h)
  exact ⟨ti', 1, _, s, ⟨0, by simp⟩, C16_invariant_partial (by decide) (fun _ h => absurd h id) s⟩

/-- Write barrier, the part that holds: after storing through the barrier a nursery pointer (or a pointer to a block
that is not younger than the mutated one) into any reachable or unreachable block, a collection preserves the graph
including the mutated cell. What is missing: pointers to blocks of an intermediate generation (see `C15_refuted`). -/
theorem C15_write_barrier_partial {Static : Nat → Prop} {D fuel : Nat} {malloc : Nat → Option Nat} {ti ti1 ti2 : TI}
    {N : Nat} {objs : Nat → List Nat} {k a i v : Nat} (w : MutatorOK Static ti N objs) (ha : a ∈ objs k)
    (hs : Scanned ti.mem a) (hi : i < blockSize ti.mem a) (hv : ValidWord Static (InHeap objs) v)
    (hgen : ∀ b j, v = 8 * b → b ∈ objs j → j = 0 ∨ k ≤ j)
    (h1 : modify ti (a + i) v = .ok ti1)
    (hm : MallocOK Static ti.heap N (Roots ti.fp) (ti.heap 0).size malloc)
    (hf : 2 ^ 41 * (ti.heap 0).size < fuel)
    (h2 : garbageCollect D fuel malloc ti1 = .ok ti2) :
    ti1.mem (a + i) = v ∧ ∃ N' objs', MutatorOK Static ti2 N' objs' ∧
      SameGraph Static (InHeap objs) (InHeap objs') (Roots ti1.fp) ti1.mem ti2.mem := by
  obtain ⟨w1, e1, e2, e3, e4, e5, _⟩ := modify_ok w ha hs hi hv hgen h1
  refine ⟨e1, ?_⟩
  rcases garbageCollect_spec D fuel malloc ti1 N objs w1 (by rw [e2, e3]; exact hm) (by rw [e3]; exact hf) with
    h' | ⟨ti', N', objs', h', c⟩
  · rw [h'] at h2; cases h2
  · rw [h'] at h2
    cases h2
    exact ⟨N', objs', c.mutator, c.graph⟩

/-- The hypotheses are met by the example heap: the block of generation 2 is made to point to itself. -/
example : ∃ ti1, modify demo (41 + 0) (8 * 41) = .ok ti1 ∧ ∃ ti2, garbageCollect 0 (2 ^ 44) demoMalloc ti1 = .ok ti2 ∧
    ∃ N' objs', MutatorOK (fun _ => False) ti2 N' objs' := by
  obtain ⟨ti1, hti⟩ : ∃ ti1, ({ demo with mem := upd (upd demo.mem (41 + 0) (8 * 41)) (14 - 1) (8 * (41 + 0)), limit := 14 - 1 } : TI) = ti1 := ⟨_, rfl⟩
  have h1 : modify demo (41 + 0) (8 * 41) = .ok ti1 := by rw [← hti]; rfl
  have hr : (match garbageCollect 0 (2 ^ 44) demoMalloc ti1 with | .ok _ => true | _ => false) = true := by
    rw [← hti]; decide +kernel
  cases h : garbageCollect 0 (2 ^ 44) demoMalloc ti1 with
  | ok ti2 =>
    obtain ⟨_, N', o, h', _⟩ := C15_write_barrier_partial (k := 2) demo_ok (by decide) (by unfold Scanned; decide) (by decide)
      (Or.inr (Or.inl ⟨41, rfl, 2, by decide⟩)) (fun b j e hb => by
        rcases demoObjs_mem hb with ⟨_, e'⟩ | ⟨e', _⟩
        · omega
        · right; omega) h1 demoMalloc_ok (by decide) h
    exact ⟨ti1, h1, ti2, h, N', o, h'⟩
  | abort => rw [h] at hr; cases hr
  | oof => rw [h] at hr; cases hr

/-! ### The counterexample -/

/-- After storing a pointer to the generation-1 block in the generation-2 block. -/
def bad1 : Outcome TI := modify demo 41 (8 * 21)
/-- After the next collection. -/
def bad2 : Outcome TI := bad1.bind (garbageCollect 0 (2 ^ 44) demoMalloc)
/-- After allocating a block of three fields. -/
def bad3 : Outcome TI := bad2.bind fun ti => (allocBlock ti 0 [1, 1, 1]).bind fun (ti, _) => .ok ti
/-- After storing the new block in the second root. -/
def bad4 : Outcome TI := bad3.bind fun ti => .ok { ti with mem := upd ti.mem 101 (8 * 11) }
/-- After another collection. -/
def bad5 : Outcome TI := bad4.bind (garbageCollect 0 (2 ^ 44) demoMalloc)

/-- The write barrier is not sufficient. In the example heap, root 100 holds the generation-2 block 41. The program
stores a pointer to the generation-1 block 21 in it, collects, allocates and collects again. The collections succeed,
root 100 still holds block 41, and its field still holds the address 21 although generation 1 has been emptied: the block
was not kept. -/
theorem C15_refuted : ∃ ti, bad5 = .ok ti ∧ ti.mem 100 = 8 * 41 ∧ ti.mem 41 = 8 * 21 ∧
    (ti.heap 1).start = 20 ∧ (ti.heap 1).next = 20 ∧ (ti.heap 1).remLimit = 28 ∧
    (¬ ∃ N objs, MutatorOK (fun _ => False) ti N objs) := by
  have hall : (match bad5 with
      | .ok ti => decide (ti.mem 100 = 8 * 41 ∧ ti.mem 41 = 8 * 21 ∧ (ti.heap 1).start = 20 ∧ (ti.heap 1).next = 20 ∧
          (ti.heap 1).remLimit = 28 ∧ (ti.heap 2).start = 40 ∧ ti.mem 40 = 1024 ∧ (ti.heap 1).limit = 28 ∧
          (ti.heap 2).next = 46 ∧ (ti.heap 2).remLimit = 56 ∧ (ti.heap 3).start = 0)
      | _ => false) = true := by decide +kernel
  cases h : bad5 with
  | ok ti =>
    rw [h] at hall
    simp only [decide_eq_true_eq] at hall
    obtain ⟨h1, h2, h3, h4, h5, h6, h7, h8, h9, h10, h11⟩ := hall
    refine ⟨ti, rfl, h1, h2, h3, h4, h5, ?_⟩
    rintro ⟨N, objs, w⟩
    unfold MutatorOK at w
    have c1 : currentHeap ti 1 = ti.heap 1 := rfl
    have c2 : currentHeap ti 2 = ti.heap 2 := rfl
    have c3 : currentHeap ti 3 = ti.heap 3 := rfl
    have hN : 2 < N := by
      by_contra hN
      have := (w.unused 2 (by omega)).1
      rw [c2] at this; omega
    have hb := w.blocks 2 hN
    rw [c2, h6, h9] at hb
    have h41 : 41 ∈ objs 2 := by
      revert hb
      generalize objs 2 = l
      intro hb
      cases hb with
      | cons _ _ => exact List.mem_cons_self
    have hv := w.fieldVal 2 41 0 h41 (by unfold Scanned; simp only [Nat.reduceSub]; rw [h7]; decide)
      (by unfold blockSize; simp only [Nat.reduceSub]; rw [h7]; decide)
    rw [show 41 + 0 = 41 by rfl, h2] at hv
    rcases hv with o | ⟨b, e, j, hj⟩ | ⟨_, _, hf⟩
    · omega
    · have : b = 21 := by omega
      subst this
      have hg := w.gen (k := 1) (by omega) hj (by rw [c1]; omega) (by rw [c1]; omega)
      subst hg
      have := w.obj hj
      rw [c1] at this
      omega
    · exact hf
  | abort => rw [h] at hall; cases hall
  | oof => rw [h] at hall; cases hall

/-- The same history seen as a refutation of C16 for unrestricted mutation: every action is one the API allows, the
start is well-formed and the end is not. -/
theorem C16_refuted : ∃ ti N objs ti' N' objs', MutatorOK (fun _ => False) ti N objs ∧
    History (fun _ => False) (fun _ _ => True) 0 (2 ^ 44) ti N objs ti' N' objs' ∧
    ¬ ∃ N objs, MutatorOK (fun _ => False) ti' N objs := by
  -- a single mutation already breaks the invariant
  obtain ⟨ti1, h1⟩ : ∃ ti1, modify demo (41 + 0) (8 * 21) = .ok ti1 := ⟨_, rfl⟩
  refine ⟨demo, 3, demoObjs, ti1, 3, demoObjs, demo_ok, .step .refl (.modify (k := 2) (by decide) (by unfold Scanned; decide)
    (by decide) (Or.inr (Or.inl ⟨21, rfl, 1, by decide⟩)) (fun _ _ _ _ => trivial) h1), ?_⟩
  rintro ⟨N, objs, w⟩
  have e : ti1 = { demo with mem := upd (upd demo.mem (41 + 0) (8 * 21)) (14 - 1) (8 * (41 + 0)), limit := 14 - 1 } := by
    have : modify demo (41 + 0) (8 * 21) = .ok { demo with mem := upd (upd demo.mem (41 + 0) (8 * 21)) (14 - 1) (8 * (41 + 0)), limit := 14 - 1 } := rfl
    rw [this] at h1; cases h1; rfl
  subst e
  unfold MutatorOK at w
  have hN : 2 < N := by
    by_contra hN
    have := (w.unused 2 (by omega)).1
    revert this; decide
  have h41 : 41 ∈ objs 2 := by
    have hb := w.blocks 2 hN
    revert hb
    generalize objs 2 = l
    intro hb
    have hb' : Blocks _ 40 l 42 := hb
    cases hb' with
    | cons _ _ => exact List.mem_cons_self
  have h21 : 21 ∈ objs 1 := by
    have hb := w.blocks 1 (by omega)
    revert hb
    generalize objs 1 = l
    intro hb
    have hb' : Blocks _ 20 l 23 := hb
    cases hb' with
    | cons _ _ => exact List.mem_cons_self
  obtain ⟨q, q1, q2, _⟩ := w.barrier 2 41 0 1 21 h41 (by unfold Scanned; decide) (by decide) rfl h21 (by decide)
  have q1' : 28 ≤ q := q1
  have q2' : q < 28 := q2
  omega

/-! ## C17: `reset_heap` -/

/-- Resetting a heap without remembered-set entries yields an empty well-formed heap of the same shape. Partial: heaps
with remembered-set entries are excluded, see `C17_refuted`. -/
theorem C17_reset_partial {Static : Nat → Prop} {m : Mem} {h : Heap} {N : Nat} {objs : Nat → List Nat} {roots : Nat → Prop}
    (w : WF Static m h N objs roots 0) (hrem : ∀ i, i < N → (h i).limit = (h i).remLimit) (m' : Mem) :
    WF Static m' (resetHeap h) N (fun _ => []) (fun _ => False) 0 := by
  constructor
  · exact w.pos
  · exact w.inUse
  · intro i hi; exact ⟨(w.unused i hi).1, rfl⟩
  · intro i hi
    have := w.order i hi
    simp only [resetHeap]; omega
  · exact w.sizes
  · exact w.disj
  · intro i hi; exact .nil _
  · intro i _ hi
    have h1 := w.sizes i hi
    have h2 := hrem (i+1) hi
    simp only [resetHeap, Space.size] at h1 ⊢
    rw [h2]
    omega
  · intro i hi; omega
  · exact w.static
  · intro x i hx; exact absurd hx id
  · intro x hx; exact absurd hx id
  · intro k a i ha; cases ha
  · intro k a i j b ha; cases ha
  · intro j q hj q1 q2
    have := hrem j hj
    simp only [resetHeap] at q1 q2
    omega

example : WF (fun _ => False) demo.mem (resetHeap demoHeap) 3 (fun _ => []) (fun _ => False) 0 :=
  C17_reset_partial (show WF _ demo.mem demoHeap 3 demoObjs (Roots demo.fp) 0 from demo_current ▸ (demo_ok : WF _ _ _ _ _ _ _)) (by intro i hi; interval_cases i <;> decide) _

/-- Allocate a block, store a pointer to it in the generation-2 block and collect. -/
def staleRound (ti : TI) : Outcome TI :=
  (allocBlock ti 0 [1]).bind fun (ti, a) => (modify ti 41 (ptr a)).bind (garbageCollect 0 (2 ^ 44) demoMalloc)

/-- Two such rounds. -/
def stale : Outcome TI := (staleRound demo).bind staleRound

/-- `reset_heap` does not forget remembered sets: after a legal history, the reset heap still has an entry for a cell of
generation 2 in the remembered set of generation 1, so it is not well-formed as an empty heap. -/
theorem C17_refuted : ∃ ti, stale = .ok ti ∧ (resetHeap ti.heap 1).next = (resetHeap ti.heap 1).start ∧
    (resetHeap ti.heap 1).limit < (resetHeap ti.heap 1).remLimit ∧ ti.mem (resetHeap ti.heap 1).limit = 8 * 41 ∧
    ∀ Static, ¬ WF Static ti.mem (resetHeap ti.heap) 3 (fun _ => []) (fun _ => False) 0 := by
  have hall : (match stale with
      | .ok ti => decide ((resetHeap ti.heap 1).next = (resetHeap ti.heap 1).start ∧
          (resetHeap ti.heap 1).limit < (resetHeap ti.heap 1).remLimit ∧ ti.mem (resetHeap ti.heap 1).limit = 8 * 41)
      | _ => false) = true := by decide +kernel
  cases h : stale with
  | ok ti =>
    rw [h] at hall
    simp only [decide_eq_true_eq] at hall
    refine ⟨ti, rfl, hall.1, hall.2.1, hall.2.2, ?_⟩
    intro Static w
    obtain ⟨k, a, i, _, ha, _⟩ := w.remset 1 _ (by decide) (le_refl _) hall.2.1
    cases ha
  | abort => rw [h] at hall; cases hall
  | oof => rw [h] at hall; cases hall

end GC
