import Verif.CGen.RtModel
import Verif.CGen.Lemmas

/-!
# The collector of `GC/` meets the interface of the C backend

`heapI_laws`: the invariant of the collector is kept by the allocations of generated code.
`collect_ok`: `garbage_collect`, run on the state of the generated code, does what `GcOk` asks of a collector.
-/

namespace CGen

open ANF

namespace Rt

variable {R : Rt} {B : Defs} {cenv : Ctor.PMap Ctor.Info}

/-! ## Block lists and the kinds of words -/

theorem layout {ti N objs} (w : GC.MutatorOK R.Static ti N objs) : GC.Layout ti N objs :=
  ⟨fun i hi => ⟨by have := w.inUse i hi; omega, w.blocks i hi⟩, fun i hi => w.unused i hi⟩

theorem unique {ti N objs N' objs'} (w : GC.MutatorOK R.Static ti N objs) (w' : GC.MutatorOK R.Static ti N' objs') :
    N' = N ∧ objs' = objs := GC.layout_unique w (layout w')

theorem block_iff {ti N objs} (w : GC.MutatorOK R.Static ti N objs) (a : Nat) : Block ti a ↔ GC.InHeap objs a := by
  constructor
  · rintro ⟨N', objs', l, h⟩
    obtain ⟨_, rfl⟩ := GC.layout_unique w l
    exact h
  · exact fun h => ⟨N, objs, layout w, h⟩

theorem currentHeap_ext (ti : GC.TI) (k : Nat) :
    (GC.currentHeap ti k).start = (ti.heap k).start ∧ (GC.currentHeap ti k).remLimit = (ti.heap k).remLimit := by
  unfold GC.currentHeap
  by_cases c : k = 0
  · subst c; exact ⟨rfl, rfl⟩
  · rw [if_neg c]; exact ⟨rfl, rfl⟩

/-- Blocks do not overlap, headers included. -/
theorem apart {ti N objs} (w : GC.MutatorOK R.Static ti N objs) {a b : Nat} (ha : GC.InHeap objs a) (hb : GC.InHeap objs b)
    {x : Nat} (h1 : a - 1 ≤ x) (h2 : x < a + GC.blockSize ti.mem a) (h3 : b - 1 ≤ x) (h4 : x < b + GC.blockSize ti.mem b) :
    a = b := by
  obtain ⟨j, ha⟩ := ha
  obtain ⟨k, hb⟩ := hb
  have oa := w.obj ha
  have ob := w.obj hb
  have e : j = k := by
    by_contra hne
    have := w.disj j k oa.1 ob.1 hne
    have := w.order j oa.1
    have := w.order k ob.1
    omega
  subst e
  by_contra hne
  rcases GC.blocks_disj (w.blocks j oa.1) a ha b hb hne with h | h <;> omega

/-- Where a block is. -/
theorem place {ti N objs} (w : GC.MutatorOK R.Static ti N objs) {a : Nat} (ha : GC.InHeap objs a) :
    ∃ k, k < N ∧ (ti.heap k).start + 1 ≤ a ∧ a + GC.blockSize ti.mem a ≤ (ti.heap k).remLimit ∧ 1 ≤ GC.blockSize ti.mem a := by
  obtain ⟨k, ha⟩ := ha
  have o := w.obj ha
  have := w.order k o.1
  have := currentHeap_ext ti k
  exact ⟨k, o.1, by omega, by omega, o.2.2.2⟩

theorem decAt_head {ti N objs} (w : GC.MutatorOK R.Static ti N objs) {a : Nat} (ha : GC.InHeap objs a) :
    R.decAt B ti (a - 1) = .int (ti.mem (a - 1)) := by
  unfold decAt
  rw [if_pos ⟨a, (block_iff w a).2 ha, rfl⟩]

open Classical in
theorem decAt_field {ti N objs} (w : GC.MutatorOK R.Static ti N objs) {a i : Nat} (ha : GC.InHeap objs a)
    (hi : i < GC.blockSize ti.mem a) :
    R.decAt B ti (a + i) = if GC.Scanned ti.mem a then R.decWord B ti (ti.mem (a + i)) else .raw (ti.mem (a + i)) := by
  obtain ⟨_, _, p1, _, p3⟩ := place w ha
  unfold decAt
  rw [if_neg]
  · by_cases hs : GC.Scanned ti.mem a
    · rw [if_pos ⟨a, i, (block_iff w a).2 ha, hs, hi, rfl⟩, if_pos hs]
    · rw [if_neg, if_neg hs]
      rintro ⟨b, j, hb, hsb, hj, e⟩
      have := apart w ha ((block_iff w b).1 hb) (x := a + i) (by omega) (by omega) (by omega) (by omega)
      subst this
      exact hs hsb
  · rintro ⟨b, hb, e⟩
    obtain ⟨_, _, q1, _, q3⟩ := place w ((block_iff w b).1 hb)
    have := apart w ha ((block_iff w b).1 hb) (x := a + i) (by omega) (by omega) (by omega) (by omega)
    omega

theorem word_decWord (B : Defs) (ti : GC.TI) (w : Nat) : R.word (R.decWord B ti w) = w := by
  unfold decWord
  split
  · simp [word]
  · split
    · rename_i h
      obtain ⟨a, rfl, _⟩ := h
      simp only [word]; omega
    · split
      · rename_i h
        simp only [word]
        exact h.choose_spec.2.symm
      · rfl

theorem word_decAt (B : Defs) (ti : GC.TI) (x : Nat) : R.word (R.decAt B ti x) = ti.mem x := by
  unfold decAt
  split
  · simp [word]
  · split
    · exact word_decWord _ _ _
    · rfl

/-- Reading back gives the same descriptors, provided there are none from 43 on. -/
theorem heapOf_dec {mem : Nat → Option CVal} {H : GC.Heap}
    (hm : ∀ x, R.desc ≤ x → x < R.desc + 4 * GC.maxSpaces → mem x = some (.raw (descWord H (x - R.desc))))
    (hH : ∀ k, GC.maxSpaces ≤ k → H k = GC.nullSpace) : R.heapOf mem = H := by
  funext i
  unfold heapOf
  by_cases hi : i < GC.maxSpaces
  · rw [if_pos hi]
    have hb : ∀ j, j < 4 → R.bits mem (R.desc + (4 * i + j)) = descWord H (4 * i + j) := by
      intro j hj
      unfold bits
      rw [hm _ (by omega) (by omega)]
      simp only [word]
      congr 1
      omega
    have h0 := hb 0 (by omega)
    have h1 := hb 1 (by omega)
    have h2 := hb 2 (by omega)
    have h3 := hb 3 (by omega)
    rw [Nat.add_zero] at h0
    rw [h0, h1, h2, h3]
    unfold descWord
    rw [if_pos (by omega), if_neg (by omega), if_pos (by omega), if_neg (by omega), if_neg (by omega), if_pos (by omega),
      if_neg (by omega), if_neg (by omega), if_neg (by omega), show 4 * i / 4 = i by omega, show (4 * i + 1) / 4 = i by omega,
      show (4 * i + 2) / 4 = i by omega, show (4 * i + 3) / 4 = i by omega]
  · rw [if_neg hi, hH i (by omega)]

/-! ## Frames -/

theorem chainFrom_on {h : Th} : ∀ n k, OnChain h k → ∀ j ∈ chainFrom h n (some k), OnChain h j := by
  intro n
  induction n with
  | zero => intro k _ j hj; cases hj
  | succ n ih =>
    intro k hk j hj
    rw [chainFrom] at hj
    cases hj with
    | head => exact hk
    | tail _ hj =>
      cases hp : (h.frames k).prev with
      | none => rw [hp] at hj; cases n <;> cases hj
      | some k' => rw [hp] at hj; exact ih k' (.step hk hp) j hj

theorem chainFrom_step {h : Th} (hd : ∀ k, OnChain h k → ∀ j, (h.frames k).prev = some j → j < k) :
    ∀ n k, OnChain h k → k < n → ∀ j ∈ chainFrom h n (some k), ∀ i, (h.frames j).prev = some i →
      i ∈ chainFrom h n (some k) := by
  intro n
  induction n with
  | zero => intro k _ h; omega
  | succ n ih =>
    intro k hk hkn j hj i hi
    rw [chainFrom] at hj ⊢
    cases hj with
    | head =>
      have := hd k hk i hi
      rw [hi]
      obtain ⟨n', rfl⟩ : ∃ n', n = n' + 1 := ⟨n - 1, by omega⟩
      rw [chainFrom]
      exact List.mem_cons_of_mem _ List.mem_cons_self
    | tail _ hj =>
      cases hp : (h.frames k).prev with
      | none => rw [hp] at hj; cases n <;> cases hj
      | some k' =>
        rw [hp] at hj
        have := hd k hk k' hp
        exact List.mem_cons_of_mem _ (ih k' (.step hk hp) (by omega) j hj i hi)

theorem mem_chain {h : Th} (hd : ∀ k, OnChain h k → ∀ j, (h.frames k).prev = some j → j < k) (k : Nat) :
    k ∈ chain h ↔ OnChain h k := by
  constructor
  · intro hk
    unfold chain at hk
    cases hf : h.fp with
    | none => rw [hf] at hk; cases hk
    | some f => rw [hf] at hk; exact chainFrom_on _ f (.top hf) k hk
  · intro hk
    induction hk with
    | top hf => unfold chain; rw [hf]; simp only [chainFrom]; exact List.mem_cons_self
    | @step k j hk hp ih =>
      unfold chain at ih ⊢
      cases hf : h.fp with
      | none => rw [hf] at ih; cases ih
      | some f =>
        rw [hf] at ih
        exact chainFrom_step hd _ f (.top hf) (by omega) k ih j hp

theorem base_succ (h : Th) (k : Nat) : R.base h (k + 1) = R.base h k + (h.frames k).size := by
  unfold base
  rw [List.range_succ, List.map_append, List.sum_append]
  simp; omega

theorem base_le (h : Th) {j k : Nat} (hjk : j ≤ k) : R.base h j ≤ R.base h k := by
  induction hjk with
  | refl => exact Nat.le_refl _
  | step _ ih => rw [Nat.succ_eq_add_one, base_succ]; omega

theorem stack_le (h : Th) (k : Nat) : R.stack ≤ R.base h k := by unfold base; omega

theorem slot_unique {h : Th} (hs : ∀ k ∈ chain h, (h.frames k).next ≤ (h.frames k).size) {x : Nat} {q q' : Nat × Nat}
    (h1 : R.Slot h x q) (h2 : R.Slot h x q') : q = q' := by
  obtain ⟨k, i⟩ := q
  obtain ⟨k', i'⟩ := q'
  obtain ⟨a1, a2, a3⟩ := h1
  obtain ⟨b1, b2, b3⟩ := h2
  simp only at a1 a2 a3 b1 b2 b3
  have := hs k a1
  have := hs k' b1
  have : k = k' := by
    rcases Nat.lt_trichotomy k k' with h | h | h
    · have := base_le (R := R) ‹Th› (show k + 1 ≤ k' by omega)
      rw [base_succ] at this; omega
    · exact h
    · have := base_le (R := R) ‹Th› (show k' + 1 ≤ k by omega)
      rw [base_succ] at this; omega
  subst this
  have : i = i' := by omega
  rw [this]

theorem memOf_slot {h : Th} (hs : ∀ k ∈ chain h, (h.frames k).next ≤ (h.frames k).size) {k i : Nat} (hk : k ∈ chain h)
    (hi : i < (h.frames k).next) {c : CVal} (hc : (h.frames k).roots i = some c) :
    R.memOf h (R.base h k + i) = R.word c := by
  have hq : R.Slot h (R.base h k + i) (k, i) := ⟨hk, hi, rfl⟩
  unfold memOf
  rw [dif_pos ⟨_, hq⟩]
  have : Exists.choose (⟨_, hq⟩ : ∃ q, R.Slot h (R.base h k + i) q) = (k, i) :=
    slot_unique hs (Exists.choose_spec _) hq
  rw [this]
  simp only [hc]

theorem memOf_other {h : Th} {x : Nat} (hx : x < R.stack) : R.memOf h x = R.bits h.mem x := by
  unfold memOf
  rw [dif_neg]
  rintro ⟨q, _, _, e⟩
  have := stack_le (R := R) h q.1
  omega

theorem enc_roots {h : Th} {x : Nat} : GC.Roots (R.enc h).fp x ↔ ∃ q, R.Slot h x q := by
  unfold GC.Roots enc Slot
  simp only [List.mem_map]
  constructor
  · rintro ⟨_, ⟨k, hk, rfl⟩, h1, h2⟩
    exact ⟨(k, x - R.base h k), hk, by simp only at h1 h2 ⊢; omega, by simp only at h1 h2 ⊢; omega⟩
  · rintro ⟨⟨k, i⟩, h1, h2, h3⟩
    exact ⟨_, ⟨k, h1, rfl⟩, by simp only at h2 h3 ⊢; omega, by simp only at h2 h3 ⊢; omega⟩

/-! ## Representations are valid words -/

theorem rep_valid {mem : Nat → Option CVal} {lo hi N : Nat} {objs : Nat → List Nat} (hR : R.Fits B)
    (w : GC.MutatorOK R.Static (R.tiOf mem lo hi) N objs) {v : Val} {c : CVal} (h : VRep R.heapI cenv B mem lo hi v c) :
    GC.ValidWord R.Static (GC.InHeap objs) (R.word c) := by
  have hobj : ∀ p, R.heapI.obj mem lo hi p → GC.InHeap objs p := by
    rintro p ⟨N', objs', w', hp⟩
    obtain ⟨_, rfl⟩ := unique w w'
    exact hp
  cases h with
  | enum => left; simp only [word]; omega
  | boxed _ _ _ _ _ _ _ _ g => exact .inr (.inl ⟨_, rfl, hobj _ g⟩)
  | int => left; simp only [word]; omega
  | float _ _ _ g => exact .inr (.inl ⟨_, rfl, hobj _ g⟩)
  | str _ _ _ g => exact .inr (.inl ⟨_, rfl, hobj _ g⟩)
  | fn hf => exact .inr (.inr ⟨_, rfl, hR.code _ hf⟩)

/-! ## Allocation -/

theorem heapI_laws (hR : R.Fits B) : R.heapI.Laws cenv B := by
  intro mem mem' lo hi cs ord hgood hne hord hroom hval hhd hfl hold
  obtain ⟨N, objs, hN, w⟩ := hgood
  have hpos : 0 < cs.length := List.length_pos_iff.2 hne
  have h0 : 0 < N := w.pos
  have hcur : GC.currentHeap (R.tiOf mem lo hi) 0 = { R.heapOf mem 0 with limit := hi, next := lo } := rfl
  have ho := w.order 0 h0
  rw [hcur] at ho
  simp only at ho
  obtain ⟨ti1, a, he, he1⟩ : ∃ ti1 a, GC.allocBlock (R.tiOf mem lo hi) ord (cs.map R.word) = .ok (ti1, a) ∧
      ∀ x, ti1.mem x = R.bits mem' x := by
    unfold GC.allocBlock
    rw [if_pos (by simp only [tiOf, List.length_map]; omega)]
    refine ⟨_, _, rfl, fun x => ?_⟩
    simp only
    rw [GC.writeFields]
    simp only [tiOf, List.length_map]
    by_cases hx : lo + 1 ≤ x ∧ x < lo + 1 + cs.length
    · rw [if_pos hx]
      have hg : cs[x - (lo + 1)]? = some cs[x - (lo + 1)] := List.getElem?_eq_getElem (by omega)
      have := hfl _ _ hg
      rw [show lo + 1 + (x - (lo + 1)) = x by omega] at this
      unfold bits
      rw [this]
      rw [List.getD_eq_getElem?_getD, List.getElem?_map, hg]
      rfl
    · rw [if_neg hx]
      by_cases hx0 : x = lo
      · subst hx0
        rw [GC.upd_same]
        unfold bits
        rw [hhd]
        simp only [word]
        omega
      · rw [GC.upd_other hx0]
        unfold bits
        rw [hold x (by omega)]
  have hmap : cs.map R.word ≠ [] := by simpa using hne
  obtain ⟨w1, _, _, _, ea, efp, eh, el, eal, _⟩ := GC.alloc_ok w (by omega) hmap (fun _ v hv => by
    obtain ⟨c, hc, rfl⟩ := List.mem_map.1 hv
    obtain ⟨v, hv⟩ := hval c hc
    exact rep_valid hR w hv) he
  have hdesc : R.heapOf mem' = R.heapOf mem := by
    funext i
    unfold heapOf
    by_cases hi' : i < GC.maxSpaces
    · rw [if_pos hi', if_pos hi']
      have hb : ∀ j, j < 4 → R.bits mem' (R.desc + (4 * i + j)) = R.bits mem (R.desc + (4 * i + j)) := by
        intro j hj
        unfold bits
        have hs := w.static _ 0 (hR.desc (4 * i + j) (by omega)) h0
        rw [hcur] at hs
        simp only at hs
        rw [hold _ (by omega)]
      have := hb 0 (by omega)
      rw [Nat.add_zero] at this
      rw [this, hb 1 (by omega), hb 2 (by omega), hb 3 (by omega)]
    · rw [if_neg hi', if_neg hi']
  have w2 : GC.MutatorOK R.Static (R.tiOf mem' (lo + (cs.length + 1)) hi) N (GC.addBlock objs a) := by
    have := GC.roots_ok (m' := R.bits mem') (fp' := []) (nalloc' := 0) w1 (fun x k _ _ _ => (he1 x).symm)
      (by rintro x k ⟨f, hf, _⟩; cases hf) (by rintro x ⟨f, hf, _⟩; cases hf)
    have e : R.tiOf mem' (lo + (cs.length + 1)) hi = { ti1 with mem := R.bits mem', fp := [], nalloc := 0 } := by
      unfold tiOf
      rw [hdesc, eh, eal, el]
      simp only [tiOf, List.length_map, GC.TI.mk.injEq, and_true, true_and]
      omega
    rw [e]; exact this
  have ha : a = lo + 1 := ea
  subst ha
  refine ⟨⟨N, _, by rw [hdesc]; exact hN, w2⟩, ⟨N, _, w2, 0, ?_⟩, ?_⟩
  · unfold GC.addBlock; rw [if_pos rfl]; simp
  · rintro p ⟨N', objs', w', k, hp⟩
    obtain ⟨_, rfl⟩ := unique w w'
    refine ⟨N, _, w2, k, ?_⟩
    unfold GC.addBlock
    by_cases hk : k = 0
    · subst hk; rw [if_pos rfl]; exact List.mem_append_left _ hp
    · rw [if_neg hk]; exact hp

/-! ## Collection -/

/-- The loop touches the descriptors up to the last generation only. -/
theorem gcLoop_far (D fuel : Nat) (malloc : Nat → Option Nat) : ∀ (n i : Nat) (ti ti' : GC.TI),
    GC.gcLoop D fuel malloc n i ti = .ok ti' → ∀ k, i + n < k → ti'.heap k = ti.heap k := by
  intro n
  induction n with
  | zero => intro i ti ti' h; cases h
  | succ n ih =>
    intro i ti ti' h k hk
    rw [GC.gcLoop] at h
    cases he : GC.ensureSpace malloc ti.heap i with
    | abort => rw [he] at h; cases h
    | oof => rw [he] at h; cases h
    | ok H =>
      rw [he] at h
      simp only [GC.Outcome.bind] at h
      have hH : H k = ti.heap k := by
        unfold GC.ensureSpace at he
        split at he
        · split at he
          · cases he; unfold GC.setSpace; rw [if_neg (by omega)]
          · cases he
        · cases he; rfl
      cases hg : GC.doGeneration D fuel ti.mem (H i) (H (i + 1)) ti.fp with
      | abort => rw [hg] at h; cases h
      | oof => rw [hg] at h; cases h
      | ok r =>
        obtain ⟨m, s, t⟩ := r
        rw [hg] at h
        simp only at h
        have hset : GC.setSpace (GC.setSpace H i s) (i + 1) t k = ti.heap k := by
          unfold GC.setSpace; rw [if_neg (by omega), if_neg (by omega), hH]
        split at h
        · unfold GC.resume at h
          simp only at h
          split at h
          · cases h
          · cases h; exact hset
        · rw [ih _ _ _ h k (by omega)]; exact hset

theorem garbageCollect_far {D fuel : Nat} {malloc : Nat → Option Nat} {ti ti' : GC.TI}
    (h : GC.garbageCollect D fuel malloc ti = .ok ti') : ∀ k, GC.maxSpaces ≤ k → ti'.heap k = ti.heap k := by
  intro k hk
  unfold GC.garbageCollect at h
  have := gcLoop_far _ _ _ _ _ _ _ h k (by unfold GC.maxSpaces at hk ⊢; omega)
  rw [this]
  simp only [GC.setSpace]
  rw [if_neg (by unfold GC.maxSpaces at hk; omega)]

theorem enc_ok {h : Th} (hR : R.Fits B) (hok : h.Ok R.heapI cenv B) :
    ∃ N objs, GC.MutatorOK R.Static (R.tiOf h.mem h.alloc h.limit) N objs ∧ GC.MutatorOK R.Static (R.enc h) N objs ∧
      GC.MallocOK R.Static (R.enc h).heap N (GC.Roots (R.enc h).fp) ((R.enc h).heap 0).size (R.malloc (R.heapOf h.mem)) ∧
      (∀ x k, k < N → ((R.enc h).heap k).start ≤ x → x < ((R.enc h).heap k).remLimit → (R.enc h).mem x = R.bits h.mem x) := by
  obtain ⟨N, objs, hN, w⟩ := hok.heap
  have hch := mem_chain hok.down
  have hst : ∀ x, GC.Roots (R.enc h).fp x → R.Static x := by
    intro x hx
    obtain ⟨q, _, _, e⟩ := enc_roots.1 hx
    have := stack_le (R := R) h q.1
    exact hR.stack x (by omega)
  have hext := currentHeap_ext (R.tiOf h.mem h.alloc h.limit)
  have hstat : ∀ x k, R.Static x → k < N → x < (R.heapOf h.mem k).start ∨ (R.heapOf h.mem k).remLimit ≤ x := by
    intro x k hx hk
    have := w.static x k hx hk
    rw [(hext k).1, (hext k).2] at this
    exact this
  have hsame : ∀ x k, k < N → (R.heapOf h.mem k).start ≤ x → x < (R.heapOf h.mem k).remLimit →
      R.memOf h x = R.bits h.mem x := by
    intro x k hk h1 h2
    apply memOf_other
    by_contra hx
    have := hstat x k (hR.stack x (by omega)) hk
    omega
  refine ⟨N, objs, w, ?_, ?_, hsame⟩
  · refine GC.roots_ok (m' := R.memOf h) (fp' := (R.enc h).fp) (nalloc' := h.nalloc) w hsame
      (fun x k hx hk => hstat x k (hst x hx) hk) ?_
    intro x hx
    obtain ⟨⟨k, i⟩, h1, h2, rfl⟩ := enc_roots.1 hx
    simp only at h1 h2 ⊢
    obtain ⟨c, v, hc, hv⟩ := hok.roots k ((hch k).1 h1) i h2
    rw [memOf_slot (fun k hk => hok.size k ((hch k).1 hk)) h1 h2 hc]
    exact rep_valid hR w hv
  · have hm := hR.malloc (R.heapOf h.mem) N w.pos (fun i => by
      constructor
      · intro hi
        have := w.inUse i hi
        rw [(hext i).1] at this
        exact Nat.pos_iff_ne_zero.1 this
      · intro hi
        by_contra hc
        have := (w.unused i (by omega)).1
        rw [(hext i).1] at this
        exact hi this)
    refine ⟨fun i a hi ha => ?_, hm.apart⟩
    obtain ⟨f1, f2, f3⟩ := hm.fresh i a hi ha
    exact ⟨f1, f2, fun x hx => f3 x (.inl (hx.elim id (hst x)))⟩

theorem collect_ok (hR : R.Fits B) (hc : CtorsOk cenv) {W : World} (hW : W.gc = R.collect cenv B) : GcOk R.heapI cenv B W := by
  intro h hok
  rw [hW]
  unfold collect
  rw [if_pos hok]
  obtain ⟨N, objs, w0, w, hm, hsame⟩ := enc_ok hR hok
  have hch := mem_chain hok.down
  rcases GC.garbageCollect_spec R.depth (2 ^ 41 * (R.heapOf h.mem 0).size + 1) (R.malloc (R.heapOf h.mem)) (R.enc h) N objs w hm
    (Nat.lt_succ_self _) with he | ⟨ti, N', objs', he, hcol⟩
  · left; rw [he]
  right
  rw [he]
  have w' := hcol.mutator
  have hfar : ∀ k, GC.maxSpaces ≤ k → ti.heap k = GC.nullSpace := by
    intro k hk
    rw [garbageCollect_far he k hk]
    simp only [enc, heapOf]
    rw [if_neg (by omega)]
  have hext := currentHeap_ext ti
  have hstat : ∀ x k, R.Static x → k < N' → x < (ti.heap k).start ∨ (ti.heap k).remLimit ≤ x := by
    intro x k hx hk
    have := w'.static x k hx hk
    rw [(hext k).1, (hext k).2] at this
    exact this
  -- memory read back
  have hread : ∀ x k, k < N' → (ti.heap k).start ≤ x → x < (ti.heap k).remLimit →
      R.decMem B h.mem ti x = some (R.decAt B ti x) := by
    intro x k hk h1 h2
    unfold decMem
    rw [if_neg, if_pos ⟨k, h1, h2⟩]
    rintro ⟨h3, h4⟩
    have := hstat (R.desc + (x - R.desc)) k (hR.desc _ (by omega)) hk
    omega
  have hheap : R.heapOf (R.decMem B h.mem ti) = ti.heap :=
    heapOf_dec (fun x h1 h2 => by unfold decMem; rw [if_pos ⟨h1, h2⟩]) hfar
  have w2 : GC.MutatorOK R.Static (R.tiOf (R.decMem B h.mem ti) ti.alloc ti.limit) N' objs' := by
    have := GC.roots_ok (m' := R.bits (R.decMem B h.mem ti)) (fp' := []) (nalloc' := 0) w' (fun x k hk h1 h2 => by
      unfold bits
      rw [hread x k hk h1 h2]
      exact word_decAt _ _ _) (by rintro x k ⟨f, hf, _⟩; cases hf) (by rintro x ⟨f, hf, _⟩; cases hf)
    have e : R.tiOf (R.decMem B h.mem ti) ti.alloc ti.limit =
        { ti with mem := R.bits (R.decMem B h.mem ti), fp := [], nalloc := 0 } := by
      unfold tiOf; rw [hheap]
    rw [e]; exact this
  have hN' : (R.heapOf (R.decMem B h.mem ti) 0).size = GC.nurserySize := by
    obtain ⟨_, _, hsz, _⟩ := hok.heap
    have h0 : 0 < (R.heapOf h.mem 0).start := w0.inUse 0 w0.pos
    have he := hcol.extents 0 (by simp only [enc]; omega)
    simp only [enc] at he
    rw [hheap, ← hsz]
    unfold GC.Space.size
    rw [he.1, he.2]
  obtain ⟨ψ, groot, greach, _⟩ := hcol.graph
  have hroom : ti.alloc ≤ ti.limit := by
    have := w'.order 0 w'.pos
    have e1 : (GC.currentHeap ti 0).next = ti.alloc := rfl
    have e2 : (GC.currentHeap ti 0).limit = ti.limit := rfl
    omega
  have henough : h.nalloc ≤ ti.limit - ti.alloc := hcol.enough
  refine ⟨_, rfl, by simp only [dec]; omega, rfl, fun k => ⟨rfl, rfl, rfl⟩, ⟨N', objs', hN', w2⟩, ?_⟩
  have hobj : ∀ p, R.heapI.obj h.mem h.alloc h.limit p → GC.InHeap objs p := by
    rintro p ⟨N1, objs1, w1, hp⟩
    obtain ⟨_, rfl⟩ := unique w0 w1
    exact hp
  refine ⟨fun c c' => ∃ v x, h.Rep R.heapI cenv B v c ∧ GC.WordIso R.Static (GC.InHeap objs) ψ (R.word c) x ∧
    c' = R.decWord B ti x ∧ ∀ p, c = .ptr p → GC.Reach (GC.InHeap objs) (R.enc h).mem (GC.Roots (R.enc h).fp) p, ?_, ?_⟩
  · constructor
    · rintro z c' ⟨v, x, hv, hx, rfl, _⟩
      have hz : 0 ≤ z ∧ z.toNat % 2 = 1 := by
        cases hv with
        | enum => omega
        | int => omega
      have hxw : x = z.toNat := by
        rcases hx with ⟨_, e⟩ | ⟨a, e, _⟩ | ⟨a, e, _⟩
        · exact e
        · simp only [word] at e; omega
        · simp only [word] at e; omega
      subst hxw
      unfold decWord
      rw [if_pos hz.2]
      congr 1
      omega
    · rintro f c' ⟨v, x, hv, hx, rfl, _⟩
      have hf : f ∈ B.names := by cases hv with | fn h => exact h
      have hst := hR.code f hf
      have hxw : x = 8 * R.code f := by
        rcases hx with ⟨e, _⟩ | ⟨a, e, ha, _⟩ | ⟨a, e, _, e2⟩
        · simp only [word] at e; omega
        · simp only [word] at e
          have : a = R.code f := by omega
          subst this
          exact absurd ha (w.static_not _ hst)
        · exact e2
      subst hxw
      unfold decWord
      rw [if_neg (by omega), if_neg]
      · have hex : ∃ g ∈ B.names, 8 * R.code f = 8 * R.code g := ⟨f, hf, rfl⟩
        rw [dif_pos hex]
        have hs := hex.choose_spec
        congr 1
        exact (hR.codeNe f hf _ hs.1 (by omega)).symm
      · rintro ⟨a, e, ha⟩
        have : a = R.code f := by omega
        subst this
        exact w'.static_not _ hst ((block_iff w' _).1 ha)
    · rintro p c' hd ⟨v, x, hv, hx, rfl, hr⟩ hhd hpos
      have hreach := hr p rfl
      have hpobj : GC.InHeap objs p := by
        cases hv with
        | boxed _ _ _ _ _ _ _ _ g => exact hobj _ g
        | float _ _ _ g => exact hobj _ g
        | str _ _ _ g => exact hobj _ g
      obtain ⟨hp', hph, hpf⟩ := greach p hreach
      have hxw : x = 8 * ψ p := by
        rcases hx with ⟨e, _⟩ | ⟨a, e, ha, e2⟩ | ⟨a, e, ha, _⟩
        · simp only [word] at e; omega
        · simp only [word] at e
          have : a = p := by omega
          rw [← this]; exact e2
        · simp only [word] at e
          have : a = p := by omega
          subst this
          exact absurd hpobj (w.static_not _ ha)
      subst hxw
      obtain ⟨k0, hk0, p1, p2, p3⟩ := place w hpobj
      have hhd1 : (R.enc h).mem (p - 1) = hd.toNat := by
        rw [hsame (p - 1) k0 hk0 (by omega) (by omega)]
        unfold bits; rw [hhd]; rfl
      have hsz : GC.blockSize (R.enc h).mem p = (hd / 1024).toNat := by
        unfold GC.blockSize; rw [hhd1]; omega
      have hhd2 : ti.mem (ψ p - 1) = hd.toNat := by rw [hph, hhd1]
      have hsz' : GC.blockSize ti.mem (ψ p) = (hd / 1024).toNat := by
        unfold GC.blockSize; rw [hhd2]; omega
      obtain ⟨k1, hk1, q1, q2, q3⟩ := place w' hp'
      refine ⟨ψ p, ?_, ?_, ?_, ⟨N', objs', w2, hp'⟩, ?_⟩
      · unfold decWord
        rw [if_neg (by omega), if_pos ⟨ψ p, rfl, (block_iff w' _).2 hp'⟩]
        congr 1
        omega
      · simp only [dec]
        rw [hread (ψ p - 1) k1 hk1 (by omega) (by omega), decAt_head w' hp', hhd2]
        congr 2
        omega
      · refine ⟨by omega, ?_⟩
        rw [← hsz']
        obtain ⟨j, hj⟩ := hp'
        have oj := w'.obj hj
        have hj0 : j ≠ 0 := by
          rintro rfl
          rw [hcol.empty] at hj
          cases hj
        have hd0 := w'.disj j 0 oj.1 w'.pos hj0
        have := w'.order j oj.1
        have := w'.order 0 w'.pos
        have e1 : (GC.currentHeap ti 0).next = ti.alloc := rfl
        have e2 : (GC.currentHeap ti 0).limit = ti.limit := rfl
        have e3 : (GC.currentHeap ti 0).start = (ti.heap 0).start := rfl
        have := hcol.alloc.1
        simp only [dec]
        omega
      · intro k c hk hc'
        have hmk : (R.enc h).mem (p + k) = R.word c := by
          rw [hsame (p + k) k0 hk0 (by omega) (by omega)]
          unfold bits; rw [hc']
        have hf := hpf k (by omega)
        have hrd : R.decMem B h.mem ti (ψ p + k) = some (R.decAt B ti (ψ p + k)) := hread _ k1 hk1 (by omega) (by omega)
        refine ⟨_, hrd, ?_⟩
        have hscn : GC.Scanned (R.enc h).mem p ↔ hd % 256 < 251 := by
          unfold GC.Scanned; rw [hhd1]; omega
        have hscn' : GC.Scanned ti.mem (ψ p) ↔ hd % 256 < 251 := by
          unfold GC.Scanned; rw [hhd2]; omega
        rw [decAt_field w' hp' (by omega)]
        by_cases hs : hd % 256 < 251
        · rw [if_pos hs, if_pos (hscn'.2 hs)]
          have hw := hf.1 (hscn.2 hs)
          rw [hmk] at hw
          cases hv with
          | boxed g1 g2 g3 g4 g5 g6 g7 g8 g9 =>
            rename_i t i vs cs
            rw [g5] at hhd
            cases hhd
            have hord := hc.small _ _ g1 (by omega)
            have hkl : k < vs.length := by omega
            have hck : cs[k]? = some c := by
              have := List.getElem?_eq_getElem (l := cs) (i := k) (by omega)
              have h7 := g7 k _ this
              rw [hc'] at h7
              rw [this, Option.some.inj h7]
            refine ⟨_, _, g8 k _ _ (List.getElem?_eq_getElem hkl) hck, hw, rfl, ?_⟩
            rintro p' rfl
            refine .field hreach (hscn.2 hs) (by omega) hmk ?_
            have hval := rep_valid hR w0 (g8 k _ _ (List.getElem?_eq_getElem hkl) hck)
            rcases hval with e | ⟨a, e, ha⟩ | ⟨a, e, ha⟩
            · simp only [word] at e; omega
            · simp only [word] at e
              have : a = p' := by omega
              rw [← this]; exact ha
            · have hv' := g8 k _ _ (List.getElem?_eq_getElem hkl) hck
              generalize vs[k] = v' at hv'
              cases hv' with
              | boxed _ _ _ _ _ _ _ _ g => exact hobj _ g
              | float _ _ _ g => exact hobj _ g
              | str _ _ _ g => exact hobj _ g
          | float g1 g2 g3 g4 => rw [g2] at hhd; cases hhd; omega
          | str g1 g2 g3 g4 => rw [g2] at hhd; cases hhd; omega
        · rw [if_neg hs, if_neg (fun h => hs (hscn'.1 h))]
          have hw := hf.2 (fun h => hs (hscn.1 h))
          rw [hmk] at hw
          rw [hw]
          cases hv with
          | boxed g1 g2 g3 g4 g5 g6 g7 g8 g9 =>
            rw [g5] at hhd
            cases hhd
            have := hc.small _ _ g1 (by omega)
            omega
          | float g1 g2 g3 g4 =>
            rw [g2] at hhd; cases hhd
            have : k = 0 := by omega
            subst this
            rw [Nat.add_zero, g3] at hc'
            cases hc'; rfl
          | str g1 g2 g3 g4 =>
            rename_i s
            rw [g2] at hhd; cases hhd
            have hl : k < (encodeList s).length := by rw [encodeList_length]; omega
            rw [g3 k _ (List.getElem?_eq_getElem hl)] at hc'
            cases hc'; rfl
  · intro k hk i hi c hcr
    have hkc := (hch k).2 hk
    have hsize : ∀ k ∈ chain h, (h.frames k).next ≤ (h.frames k).size := fun k hk => hok.size k ((hch k).1 hk)
    have hms : (R.enc h).mem (R.base h k + i) = R.word c := memOf_slot hsize hkc hi hcr
    have hroot : GC.Roots (R.enc h).fp (R.base h k + i) := enc_roots.2 ⟨(k, i), hkc, hi, rfl⟩
    have hg := groot _ hroot
    rw [hms] at hg
    obtain ⟨c1, v, hc1, hv⟩ := hok.roots k hk i hi
    rw [hcr] at hc1
    cases hc1
    refine ⟨_, ?_, v, _, hv, hg, rfl, ?_⟩
    · simp only [dec]
      rw [if_pos ⟨hkc, hi⟩]
    · rintro p rfl
      refine .root hroot hms ?_
      unfold Th.Rep at hv
      cases hv with
      | boxed _ _ _ _ _ _ _ _ g => exact hobj _ g
      | float _ _ _ g => exact hobj _ g
      | str _ _ _ g => exact hobj _ g

theorem start_heap (a : Nat) : R.heapOf (R.start a).mem = GC.createHeap a := by
  refine heapOf_dec (fun x h1 h2 => ?_) (fun k hk => ?_)
  · simp only [start]; rw [if_pos ⟨h1, h2⟩]
  · unfold GC.createHeap GC.setSpace; rw [if_neg (by unfold GC.maxSpaces at hk; omega)]

/-- The state after `make_tinfo` is as the collector expects it. -/
theorem start_ok {a : Nat} (ha : 0 < a) (hs : ∀ x, R.Static x → x < a ∨ a + GC.nurserySize ≤ x) :
    (R.start a).Ok R.heapI cenv B := by
  have hno : ∀ k, ¬ OnChain (R.start a) k := by
    intro k hk
    induction hk with
    | top h => cases h
    | step _ _ ih => exact ih
  refine ⟨⟨1, fun _ => [], ?_, ?_⟩, fun k hk => absurd hk (hno k), fun k hk => absurd hk (hno k),
    fun k hk => absurd hk (hno k)⟩
  · rw [start_heap]
    simp [GC.createHeap, GC.setSpace, GC.createSpace, GC.Space.size]
  · have := GC.makeTinfo_ok R.Static (R.bits (R.start a).mem) a ha hs
    unfold tiOf
    rw [start_heap]
    exact this

end Rt

end CGen
