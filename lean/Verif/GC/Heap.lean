import Verif.GC.HeapStep

/-!
# The loop of `garbage_collect`
-/

namespace GC
open Setup

theorem reach_in {B : Nat → Prop} {m roots a} (h : Reach B m roots a) : B a := by
  cases h with
  | root _ _ h => exact h
  | field _ _ _ _ h => exact h

theorem SameGraph.refl' {Static m h N objs roots i} (w : WF Static m h N objs roots i) :
    SameGraph Static (InHeap objs) (InHeap objs) roots m m := by
  have hw : ∀ v, ValidWord Static (InHeap objs) v → WordIso Static (InHeap objs) (fun a => a) v v := by
    intro v hv
    rcases hv with h | ⟨a, e, h⟩ | ⟨a, e, h⟩
    · exact Or.inl ⟨h, rfl⟩
    · exact Or.inr (Or.inl ⟨a, e, h, e⟩)
    · exact Or.inr (Or.inr ⟨a, e, h, rfl⟩)
  refine ⟨fun a => a, fun x hx => hw _ (w.rootVal x hx), fun a ha => ⟨reach_in ha, rfl, fun i hi => ⟨fun hs => ?_, fun _ => rfl⟩⟩,
    fun a b _ _ h => h⟩
  obtain ⟨k, hk⟩ := reach_in ha
  exact hw _ (w.fieldVal k a i hk hs hi)

/-- Preservation of the graph composes; static data must not overlap the blocks of the intermediate heap. -/
theorem SameGraph.trans' {Static B1 B2 B3 : Nat → Prop} {roots m1 m2 m3}
    (hst1 : ∀ a, Static a → ¬ B1 a) (hst : ∀ a, Static a → ¬ B2 a)
    (h12 : SameGraph Static B1 B2 roots m1 m2) (h23 : SameGraph Static B2 B3 roots m2 m3) :
    SameGraph Static B1 B3 roots m1 m3 := by
  obtain ⟨φ, hr1, ho1, hi1⟩ := h12
  obtain ⟨ψ, hr2, ho2, hi2⟩ := h23
  have comp : ∀ {v v' v''}, WordIso Static B1 φ v v' → WordIso Static B2 ψ v' v'' →
      (∀ a, v = 8 * a → B1 a → B2 (φ a)) → WordIso Static B1 (fun a => ψ (φ a)) v v'' := by
    intro v v' v'' h1 h2 hB
    rcases h1 with ⟨o, e⟩ | ⟨a, e, hb, e'⟩ | ⟨a, e, hs, e'⟩
    · subst e
      rcases h2 with ⟨_, e⟩ | ⟨a, e, _⟩ | ⟨a, e, _⟩
      · exact Or.inl ⟨o, e⟩
      · omega
      · omega
    · rcases h2 with ⟨o, _⟩ | ⟨b, eb, _, eb'⟩ | ⟨b, eb, hs, _⟩
      · omega
      · have : b = φ a := by omega
        subst this
        exact Or.inr (Or.inl ⟨a, e, hb, eb'⟩)
      · have : b = φ a := by omega
        subst this
        exact absurd (hB a e hb) (hst _ hs)
    · subst e'
      rcases h2 with ⟨o, _⟩ | ⟨b, eb, hb, _⟩ | ⟨b, eb, _, eb'⟩
      · omega
      · have : b = a := by omega
        subst this
        exact absurd hb (hst _ hs)
      · exact Or.inr (Or.inr ⟨a, e, hs, eb'⟩)
  have hsz : ∀ a, Reach B1 m1 roots a → (Scanned m2 (φ a) ↔ Scanned m1 a) ∧ blockSize m2 (φ a) = blockSize m1 a := by
    intro a ha
    unfold Scanned blockSize
    rw [(ho1 a ha).2.1]
    exact ⟨Iff.rfl, rfl⟩
  have hreach : ∀ a, Reach B1 m1 roots a → Reach B2 m2 roots (φ a) := by
    intro a ha
    induction ha with
    | @root x a hx e hb =>
      have hB := (ho1 a (.root hx e hb)).1
      rcases hr1 x hx with ⟨o, _⟩ | ⟨b, eb, _, eb'⟩ | ⟨b, eb, hs, eb'⟩
      · omega
      · have : b = a := by omega
        subst this
        exact .root hx eb' hB
      · have : b = a := by omega
        subst this
        exact absurd hb (hst1 _ hs)
    | @field a i b hra hs hi e hb ih =>
      have hB := (ho1 b (.field hra hs hi e hb)).1
      rcases ((ho1 a hra).2.2 i hi).1 hs with ⟨o, _⟩ | ⟨c, ec, _, ec'⟩ | ⟨c, ec, hsc, ec'⟩
      · omega
      · have : c = b := by omega
        subst this
        exact .field ih ((hsz a hra).1.2 hs) (by rw [(hsz a hra).2]; exact hi) ec' hB
      · have : c = b := by omega
        subst this
        exact absurd hb (hst1 _ hsc)
  refine ⟨fun a => ψ (φ a), fun x hx => comp (hr1 x hx) (hr2 x hx) (fun a e hb => (ho1 a (.root hx e hb)).1), ?_, ?_⟩
  · intro a ha
    have h1 := ho1 a ha
    have h2 := ho2 (φ a) (hreach a ha)
    refine ⟨h2.1, h2.2.1.trans h1.2.1, fun i hi => ⟨fun hs => ?_, fun hs => ?_⟩⟩
    · exact comp ((h1.2.2 i hi).1 hs) ((h2.2.2 i (by rw [(hsz a ha).2]; exact hi)).1 ((hsz a ha).1.2 hs))
        (fun b e hb => (ho1 b (.field ha hs hi e hb)).1)
    · exact ((h2.2.2 i (by rw [(hsz a ha).2]; exact hi)).2 (fun h => hs ((hsz a ha).1.1 h))).trans ((h1.2.2 i hi).2 hs)
  · intro a b ha hb e
    exact hi1 a b ha hb (hi2 _ _ (hreach a ha) (hreach b hb) e)

section
variable {Static : Nat → Prop} {m : Mem} {h : Heap} {N : Nat} {objs : Nat → List Nat} {roots : Nat → Prop} {i : Nat}

theorem WF.static_not (w : WF Static m h N objs roots i) (a : Nat) (ha : Static a) : ¬ InHeap objs a := by
  rintro ⟨k, hk⟩
  have ho := w.obj hk
  have := w.order k ho.1
  have := w.static a k ha ho.1
  omega

theorem WF.sizePow (w : WF Static m h N objs roots i) : ∀ k, k < N → (h k).size = 2 ^ k * (h 0).size := by
  intro k
  induction k with
  | zero => intro _; omega
  | succ k ih =>
    intro hk
    rw [w.sizes k hk, ih (by omega), Nat.pow_succ]
    rw [← Nat.mul_assoc, Nat.mul_comm 2]

/-- Creating the next generation keeps the heap well-formed. -/
theorem WF.grow (w : WF Static m h N objs roots i) (hi : i + 1 = N) {a : Nat}
    (ha : 0 < a)
    (hd : ∀ j, j < N → a + 2 * (h i).size ≤ (h j).start ∨ (h j).remLimit ≤ a)
    (hx : ∀ x, Static x ∨ roots x → x < a ∨ a + 2 * (h i).size ≤ x) :
    WF Static m (setSpace h (i+1) (createSpace a (2 * (h i).size))) (N + 1) objs roots i := by
  have e1 : ∀ j, j ≠ N → setSpace h (i+1) (createSpace a (2 * (h i).size)) j = h j := by
    intro j hj; unfold setSpace; rw [if_neg (by omega)]
  have e2 : setSpace h (i+1) (createSpace a (2 * (h i).size)) N = createSpace a (2 * (h i).size) := by
    unfold setSpace; rw [if_pos hi.symm]
  have eO := (w.unused N (le_refl _)).2
  generalize setSpace h (i+1) (createSpace a (2 * (h i).size)) = h' at e1 e2
  have hcase : ∀ {P : Nat → Prop}, (∀ j, j < N → P j) → P N → ∀ j, j < N + 1 → P j := by
    intro P h1 h2 j hj
    by_cases c : j = N
    · rw [c]; exact h2
    · exact h1 j (by omega)
  constructor
  · omega
  · refine hcase (fun j hj => ?_) ?_
    · rw [e1 j (by omega)]; exact w.inUse j hj
    · rw [e2]; exact ha
  · intro j hj
    rw [e1 j (by omega)]; exact w.unused j (by omega)
  · refine hcase (fun j hj => ?_) ?_
    · rw [e1 j (by omega)]; exact w.order j hj
    · rw [e2]; simp only [createSpace]; omega
  · intro j hj
    rw [e1 j (by omega)]
    by_cases c : j + 1 = N
    · rw [c, e2]
      have : j = i := by omega
      subst this
      simp only [createSpace, Space.size]; omega
    · rw [e1 (j+1) c]; exact w.sizes j (by omega)
  · intro j k hj hk hjk
    by_cases c : j = N
    · subst c
      rw [e2, e1 k (by omega)]
      have := hd k (by omega)
      simp only [createSpace]; omega
    · rw [e1 j c]
      by_cases c' : k = N
      · subst c'
        rw [e2]
        have := hd j (by omega)
        simp only [createSpace]; omega
      · rw [e1 k c']; exact w.disj j k (by omega) (by omega) hjk
  · refine hcase (fun j hj => ?_) ?_
    · rw [e1 j (by omega)]; exact w.blocks j hj
    · rw [e2, eO]; exact .nil _
  · intro j hj1 hj2
    have hji : j = i := by omega
    subst hji
    rw [e1 j (by omega), hi, e2]
    simp only [createSpace]; omega
  · intro j hj
    rw [e1 j (by omega)]; exact w.below j hj
  · intro x
    intro j hs hj
    revert j
    have := hcase (P := fun j => x < (h' j).start ∨ (h' j).remLimit ≤ x) (fun j hj => by rw [e1 j (by omega)]; exact w.static x j hs hj)
      (by rw [e2]; have := hx x (Or.inl hs); simp only [createSpace]; omega)
    exact fun j hj => this j hj
  · intro x j hr hj
    revert j
    have := hcase (P := fun j => x < (h' j).start ∨ (h' j).remLimit ≤ x) (fun j hj => by rw [e1 j (by omega)]; exact w.rootsOut x j hr hj)
      (by rw [e2]; have := hx x (Or.inr hr); simp only [createSpace]; omega)
    exact fun j hj => this j hj
  · exact w.rootVal
  · exact w.fieldVal
  · intro k b j l c hb hs hj he hc hlk
    have := w.obj hc
    rw [e1 l (by omega)]
    exact w.barrier k b j l c hb hs hj he hc hlk
  · intro j q hj q1 q2
    by_cases c : j = N
    · subst c
      rw [e2] at q1 q2
      simp only [createSpace] at q1 q2
      omega
    · rw [e1 j c] at q1 q2
      exact w.remset j q (by omega) q1 q2

/-- The room checked at the end of an iteration, together with the emptiness of the younger generations, restores the
invariant of the mutator. -/
theorem WF.finish (w : WF Static m h N objs roots (i+1)) (hr : (h i).size ≤ (h (i+1)).limit - (h (i+1)).next) :
    WF Static m h N objs roots 0 := by
  refine { w with pos := by have := w.pos; omega, below := fun j hj => by omega, room := ?_ }
  intro j _ hj
  by_cases c1 : i + 1 ≤ j
  · exact w.room j c1 hj
  · by_cases c2 : j = i
    · subst c2; exact hr
    · have hb := w.below (j+1) (by omega)
      have hs := w.sizes j hj
      rw [hb.2.1, hb.2.2]
      unfold Space.size at hs ⊢
      omega

/-- One iteration of the loop on a heap in which generation `i+1` exists. -/
theorem WF.iterate (w : WF Static m h N objs (Roots fr) i) (hN : i + 1 < N) (D fuel : Nat)
    (hfuel : (h i).size < fuel) :
    ∃ m' h' objs', doGeneration D fuel m (h i) (h (i+1)) fr = .ok (m', h' i, h' (i+1)) ∧
      h' = setSpace (setSpace h i (h' i)) (i+1) (h' (i+1)) ∧
      (∀ k, (h' k).start = (h k).start ∧ (h' k).remLimit = (h k).remLimit) ∧
      WF Static m' h' N objs' (Roots fr) (i+1) ∧
      SameGraph Static (InHeap objs) (InHeap objs') (Roots fr) m m' ∧
      (h' (i+1)).used ≤ (h i).used + (h (i+1)).used ∧ (∀ k, i + 1 < k → h' k = h k) ∧
      ∀ x, ¬ Roots fr x → (∀ k, k < N → x < (h k).start ∨ (h k).remLimit ≤ x) → m' x = m x := by
  have o0 := w.order i w.pos
  have o1 := w.order (i+1) hN
  obtain ⟨m', n, T', L, hg, hc⟩ := doGeneration_spec (w.setup_ok hN) D fuel (h i) (h (i+1)) fr rfl rfl rfl o1.1 (w.rem_ok hN)
    (fun x hx => Or.inl hx)
    (fun x hx => by
      rcases hx with hx | ⟨_, j, hj, e⟩
      · exact Or.inl hx
      · exact Or.inr ⟨j, hj, e⟩)
    (by
      change (h i).limit - (h i).start + 1 ≤ fuel
      unfold Space.size at hfuel
      omega)
  have f : StepFacts Static m h N objs (Roots fr) i m' n T' L := ⟨w, hN, hc⟩
  obtain ⟨e2, e0, e1, wf⟩ := f.wf_after
  refine ⟨m', newHeap h i n T', _, ?_, ?_, ?_, wf, f.sameGraph, ?_, ?_, ?_⟩
  · rw [e0, e1]; exact hg
  · rw [e0, e1]; rfl
  · intro k
    by_cases c0 : k = i
    · subst c0; rw [e0]; exact ⟨rfl, rfl⟩
    · by_cases c1 : k = i + 1
      · subst c1; rw [e1]; exact ⟨rfl, rfl⟩
      · have : newHeap h i n T' k = h k := by simp [newHeap, setSpace, c0, c1]
        rw [this]; exact ⟨rfl, rfl⟩
  · have h1 := f.copied_le
    have h2 := f.n_bounds
    have h3 := hc.lo
    rw [e1]
    unfold Space.used
    simp only
    omega
  · intro k hk; simp [newHeap, setSpace, show k ≠ i by omega, show k ≠ i + 1 by omega]
  · intro x hx ho
    refine f.same (by have := ho i w.pos; omega) (by have := ho (i+1) hN; omega) ?_
    intro hcell
    obtain ⟨k, a, j, _, ha, _, hj, e⟩ := w.cell_old hcell hx
    have hoa := w.obj ha
    have := w.order k hoa.1
    have := ho k hoa.1
    omega

end

/-- What a successful collection guarantees. `sz0` is the size of the nursery. -/
structure Collected (Static : Nat → Prop) (ti ti' : TI) (h0 : Heap) (objs : Nat → List Nat) (N' : Nat)
    (objs' : Nat → List Nat) : Prop where
  fp : ti'.fp = ti.fp
  nalloc : ti'.nalloc = ti.nalloc
  wf : WF Static ti'.mem ti'.heap N' objs' (Roots ti.fp) 0
  extents : ∀ k, (h0 k).start ≠ 0 → (ti'.heap k).start = (h0 k).start ∧ (ti'.heap k).remLimit = (h0 k).remLimit
  alloc : ti'.alloc = (ti'.heap 0).start ∧ (ti'.heap 0).next = (ti'.heap 0).start
  limit : ti'.limit = (ti'.heap 0).remLimit ∧ (ti'.heap 0).limit = (ti'.heap 0).remLimit
  empty : objs' 0 = []
  enough : ti.nalloc ≤ ti'.limit - ti'.alloc
  graph : SameGraph Static (InHeap objs) (InHeap objs') (Roots ti.fp) ti.mem ti'.mem
  outside : ∀ x, ¬ Roots ti.fp x → (∀ k, k < N' → x < (ti'.heap k).start ∨ (ti'.heap k).remLimit ≤ x) →
    ti'.mem x = ti.mem x

/-- Creating the next generation when it is missing. -/
theorem ensure_spec {Static : Nat → Prop} {malloc : Nat → Option Nat} {ti : TI} {N i : Nat} {objs : Nat → List Nat}
    (w : WF Static ti.mem ti.heap N objs (Roots ti.fp) i)
    (hm : MallocOK Static ti.heap N (Roots ti.fp) (ti.heap 0).size malloc) :
    (ensureSpace malloc ti.heap i = .abort ∧ malloc i = none) ∨ ∃ h N1, ensureSpace malloc ti.heap i = .ok h ∧ i + 1 < N1 ∧
        N ≤ N1 ∧
        WF Static ti.mem h N1 objs (Roots ti.fp) i ∧ MallocOK Static h N1 (Roots ti.fp) (ti.heap 0).size malloc ∧
        (∀ k, (ti.heap k).start ≠ 0 → h k = ti.heap k) ∧
        (∀ k, N ≤ k → k < N1 → (h k).used = 0) := by
  unfold ensureSpace
  by_cases hz : (ti.heap (i+1)).start = 0
  · rw [if_pos hz]
    have hNi : i + 1 = N := by
      by_contra hne
      have := w.pos
      have := w.inUse (i+1) (by omega)
      omega
    cases hmal : malloc i with
    | none => exact Or.inl ⟨rfl, rfl⟩
    | some a =>
      right
      obtain ⟨g1, g2, g3⟩ := hm.fresh i a (by omega) hmal
      have hsz : 2 ^ (i+1) * (ti.heap 0).size = 2 * (ti.heap i).size := by
        rw [w.sizePow i w.pos, Nat.pow_succ, Nat.mul_comm (2^i) 2, Nat.mul_assoc]
      refine ⟨_, N + 1, rfl, by omega, by omega, w.grow hNi g1 ?_ ?_, ?_, ?_, ?_⟩
      · intro j hj; have := g2 j hj; rw [hsz] at this; exact this
      · intro x hx; have := g3 x hx; rw [hsz] at this; exact this
      · constructor
        · intro i' b hi' hb
          obtain ⟨k1, k2, k3⟩ := hm.fresh i' b (by omega) hb
          refine ⟨k1, ?_, k3⟩
          intro j hj
          unfold setSpace
          by_cases c : j = i + 1
          · rw [if_pos c]
            have hap := hm.apart i' i b a (by omega) (by omega) (by omega) hb hmal
            rw [hsz] at hap
            simp only [createSpace, ratio]
            have hsi : (ti.heap i).size = (ti.heap i).remLimit - (ti.heap i).start := rfl
            omega
          · rw [if_neg c]; exact k2 j (by omega)
        · intro i' j b c hi' hj
          exact hm.apart i' j b c (by omega) (by omega)
      · intro k hk
        unfold setSpace
        rw [if_neg]
        intro e
        rw [e] at hk
        exact hk hz
      · intro k hk1 hk2
        have : k = i + 1 := by omega
        subst this
        simp [setSpace, createSpace, Space.used]
  · rw [if_neg hz]
    right
    refine ⟨_, N, rfl, ?_, le_refl _, w, hm, fun _ _ => rfl, fun k h1 h2 => by omega⟩
    by_contra hne
    have := w.unused (i+1) (by omega)
    exact hz this.1

theorem gcLoop_spec {Static : Nat → Prop} (D fuel : Nat) (malloc : Nat → Option Nat) : ∀ (n i : Nat) (ti : TI) (N : Nat)
    (objs : Nat → List Nat), WF Static ti.mem ti.heap N objs (Roots ti.fp) i →
    MallocOK Static ti.heap N (Roots ti.fp) (ti.heap 0).size malloc →
    (∀ j, j < i + n → 2 ^ j * (ti.heap 0).size < fuel) →
    (gcLoop D fuel malloc n i ti = .abort) ∨
    ∃ ti' N' objs', gcLoop D fuel malloc n i ti = .ok ti' ∧ Collected Static ti ti' ti.heap objs N' objs' := by
  intro n
  induction n with
  | zero => intro i ti N objs _ _ _; exact Or.inl rfl
  | succ n ih =>
    intro i ti N objs w hm hf
    simp only [gcLoop]
    have hens := ensure_spec w hm
    rcases hens with ⟨hab, _⟩ | ⟨h, N1, he, hN1, hNN, w1, hm1, hkeep, _⟩
    · left; rw [hab]; rfl
    · rw [he]
      simp only [Outcome.bind]
      have hs0 : h 0 = ti.heap 0 := hkeep 0 (by have := w.inUse 0 (by have := w.pos; omega); omega)
      have hfi : (h i).size < fuel := by
        rw [w1.sizePow i w1.pos, hs0]; exact hf i (by omega)
      obtain ⟨m', h', objs', hg, hh', hext, w2, hgr, _, _, hout⟩ := w1.iterate hN1 D fuel hfi
      rw [hg]
      simp only
      rw [← hh']
      have hextents : ∀ k, (ti.heap k).start ≠ 0 → (h' k).start = (ti.heap k).start ∧ (h' k).remLimit = (ti.heap k).remLimit := by
        intro k hk
        rw [(hext k).1, (hext k).2, hkeep k hk]
        exact ⟨rfl, rfl⟩
      by_cases hroom : (h' i).remLimit - (h' i).start ≤ (h' (i+1)).limit - (h' (i+1)).next
      · rw [if_pos hroom]
        have w3 := w2.finish hroom
        have hb := w2.below 0 (by omega)
        unfold resume
        simp only
        by_cases hna : (h' 0).limit - (h' 0).start < ti.nalloc
        · rw [if_pos hna]; exact Or.inl rfl
        · rw [if_neg hna]
          right
          refine ⟨_, N1, objs', rfl, ?_⟩
          exact { fp := rfl, nalloc := rfl, wf := w3, extents := hextents, alloc := ⟨rfl, hb.2.1⟩, limit := ⟨hb.2.2, hb.2.2⟩,
                  empty := hb.1, enough := by simp only; omega, graph := hgr,
                  outside := fun x hx ho => hout x hx (fun k hk => by
                    have := ho k hk
                    simp only at this
                    rwa [(hext k).1, (hext k).2] at this) }
      · rw [if_neg hroom]
        have hs0' : (h' 0).size = (ti.heap 0).size := by
          unfold Space.size; rw [(hext 0).1, (hext 0).2, hs0]
        have hm2 : MallocOK Static h' N1 (Roots ti.fp) (ti.heap 0).size malloc := by
          refine ⟨?_, hm1.apart⟩
          intro i' b hi' hb
          obtain ⟨k1, k2, k3⟩ := hm1.fresh i' b hi' hb
          exact ⟨k1, fun j hj => by rw [(hext j).1, (hext j).2]; exact k2 j hj, k3⟩
        have := ih (i+1) { ti with mem := m', heap := h' } N1 objs' w2 (by simp only; rw [hs0']; exact hm2)
          (by simp only; rw [hs0']; intro j hj; exact hf j (by omega))
        rcases this with hab | ⟨ti', N', objs'', hok, c⟩
        · exact Or.inl hab
        · right
          refine ⟨ti', N', objs'', hok, ?_⟩
          have hNin : ∀ k, k < N1 → (h' k).start ≠ 0 := fun k hk => by have := w2.inUse k hk; omega
          exact { fp := c.fp, nalloc := c.nalloc, wf := c.wf,
                  extents := fun k hk => by
                    have h1 := hextents k hk
                    have h2 := c.extents k (by simp only; rw [h1.1]; exact hk)
                    simp only at h2
                    rw [h2.1, h2.2]; exact h1,
                  alloc := c.alloc, limit := c.limit, empty := c.empty, enough := c.enough,
                  graph := SameGraph.trans' w1.static_not w2.static_not hgr c.graph,
                  outside := fun x hx ho => by
                    have e1 := c.outside x hx ho
                    have e2 := hout x hx (fun k hk => by
                      have h2 := c.extents k (hNin k hk)
                      have hkN' : k < N' := by
                        by_contra hge
                        have h3 := (c.wf.unused k (by omega)).1
                        rw [h2.1] at h3
                        exact hNin k hk h3
                      have h4 := ho k hkN'
                      rw [h2.1, h2.2] at h4
                      simp only at h4
                      rwa [(hext k).1, (hext k).2] at h4)
                    rw [e1]; exact e2 }

theorem garbageCollect_spec {Static : Nat → Prop} (D fuel : Nat) (malloc : Nat → Option Nat) (ti : TI) (N : Nat)
    (objs : Nat → List Nat) (w : MutatorOK Static ti N objs)
    (hm : MallocOK Static ti.heap N (Roots ti.fp) (ti.heap 0).size malloc)
    (hf : 2 ^ 41 * (ti.heap 0).size < fuel) :
    (garbageCollect D fuel malloc ti = .abort) ∨
    ∃ ti' N' objs', garbageCollect D fuel malloc ti = .ok ti' ∧ Collected Static ti ti' ti.heap objs N' objs' := by
  unfold garbageCollect
  simp only
  have hcur : setSpace ti.heap 0 { ti.heap 0 with limit := ti.limit, next := ti.alloc } = currentHeap ti := by
    funext k; unfold setSpace currentHeap
    by_cases c : k = 0
    · subst c; rfl
    · rw [if_neg c]
  rw [hcur]
  have hext : ∀ k, (currentHeap ti k).start = (ti.heap k).start ∧ (currentHeap ti k).remLimit = (ti.heap k).remLimit := by
    intro k; unfold currentHeap
    by_cases c : k = 0
    · subst c; exact ⟨rfl, rfl⟩
    · rw [if_neg c]; exact ⟨rfl, rfl⟩
  have hsz : (currentHeap ti 0).size = (ti.heap 0).size := by unfold Space.size; rw [(hext 0).1, (hext 0).2]
  have := gcLoop_spec (Static := Static) D fuel malloc (maxSpaces - 1) 0 { ti with heap := currentHeap ti } N objs w (by
    simp only
    rw [hsz]
    refine ⟨?_, hm.apart⟩
    intro i' b hi' hb
    obtain ⟨k1, k2, k3⟩ := hm.fresh i' b hi' hb
    exact ⟨k1, fun j hj => by rw [(hext j).1, (hext j).2]; exact k2 j hj, k3⟩) (by
    simp only
    rw [hsz]
    intro j hj
    have : j ≤ 41 := by unfold maxSpaces at hj; omega
    have := Nat.pow_le_pow_right (n := 2) (by omega) this
    have := Nat.mul_le_mul_right (ti.heap 0).size this
    exact Nat.lt_of_le_of_lt this hf)
  rcases this with h | ⟨ti', N', objs', hok, c⟩
  · exact Or.inl h
  · refine Or.inr ⟨ti', N', objs', hok, { c with extents := ?_ }⟩
    intro k hk
    have := c.extents k (by simp only; rw [(hext k).1]; exact hk)
    simp only at this
    rwa [(hext k).1, (hext k).2] at this

/-- After a collection the mutator's view of the heap and the descriptors agree. -/
theorem Collected.mutator {Static ti ti' h0 objs N' objs'} (c : Collected Static ti ti' h0 objs N' objs') :
    MutatorOK Static ti' N' objs' := by
  have : currentHeap ti' = ti'.heap := by
    funext k; unfold currentHeap
    by_cases e : k = 0
    · subst e
      rw [if_pos rfl, c.limit.1, c.alloc.1]
      have h1 := c.limit.2
      have h2 := c.alloc.2
      rcases hh : ti'.heap 0 with ⟨s, n, l, r⟩
      rw [hh] at h1 h2
      simp only at h1 h2 ⊢
      rw [h1, h2]
    · rw [if_neg e]
  unfold MutatorOK
  rw [this, c.fp]
  exact c.wf

end GC
