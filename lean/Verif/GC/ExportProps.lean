import Verif.GC.Export
import Verif.GC.Props

/-!
# C55: exporting a value from the heap
-/

namespace GC

/-- An unboxed value is returned as it is and the heap is not touched. -/
theorem C55_unboxed (D fuel : Nat) (mallocF mallocV : Nat → Option Nat) (r : Nat) (ti : TI) (root : Nat)
    (h : root % 2 = 1) : ∃ ti', exportHeap D fuel mallocF mallocV r ti root = .ok (ti', root) ∧ ti'.heap = ti.heap ∧
      ti'.alloc = ti.alloc ∧ ti'.limit = ti.limit ∧ ∀ x, x ≠ r → ti'.mem x = ti.mem x := by
  have hp : isPtr root = false := by
    unfold isPtr; rw [beq_eq_false_iff_ne]; omega
  unfold exportHeap
  simp only [hp]
  exact ⟨_, rfl, rfl, rfl, rfl, fun x hx => upd_other hx⟩

example : ∃ ti', exportHeap 0 100 (fun _ => none) (fun _ => none) 200 demo 7 = .ok (ti', 7) :=
  (C55_unboxed 0 100 _ _ 200 demo 7 rfl).imp fun _ h => h.1

section
variable {Static : Nat → Prop} {D fuel : Nat} {mallocF mallocV : Nat → Option Nat} {r a : Nat} {ti ti' : TI}
  {N w' : Nat} {objs : Nat → List Nat}

/-- Exporting a heap block: the word returned points to the first block of a freshly allocated region of `n` words,
which the blocks of the copy fill exactly; it is a deep copy of the value; all blocks of the region are reachable from
the returned word, and their fields point to blocks of the region or to static data, never into the heap. -/
theorem C55_copy (w : MutatorOK Static ti N objs) (hN : N ≤ maxSpaces)
    (hr : ∀ k, k < N → r < (ti.heap k).start ∨ (ti.heap k).remLimit ≤ r)
    (hm : ExportMallocOK Static ti.heap N r mallocF mallocV) (hf : ∀ k, k < N → (ti.heap k).size < fuel)
    (ha : InHeap objs a) (h : exportHeap D fuel mallocF mallocV r ti (8 * a) = .ok (ti', w')) :
    ∃ v n l, w' = 8 * (v + 1) ∧ mallocV n = some v ∧ Blocks ti'.mem v ((v + 1) :: l) (v + n) ∧
      DeepCopy Static (InHeap objs) (· ∈ (v + 1) :: l) ti.mem (8 * a) ti'.mem w' ∧
      (∀ b ∈ (v + 1) :: l, ReachFrom (· ∈ (v + 1) :: l) ti'.mem w' b) ∧
      (∀ b i, b ∈ (v + 1) :: l → Scanned ti'.mem b → i < blockSize ti'.mem b →
        ValidWord Static (· ∈ (v + 1) :: l) (ti'.mem (b + i))) := by
  rcases exportHeap_spec (D := D) w hN hr hm hf ha with ⟨h', _⟩ | ⟨t, v, n, l, h', c⟩
  · rw [h'] at h; cases h
  · rw [h'] at h
    cases h
    exact ⟨v, n, l, rfl, c.malloc, c.blocks, c.copy, c.live, c.closed⟩

/-- No word changes except in the generations, the local root word and the two regions allocated. The mutator's
allocation pointer and limit are left as they were, although all generations are empty afterwards. -/
theorem C55_frame (w : MutatorOK Static ti N objs) (hN : N ≤ maxSpaces)
    (hr : ∀ k, k < N → r < (ti.heap k).start ∨ (ti.heap k).remLimit ≤ r)
    (hm : ExportMallocOK Static ti.heap N r mallocF mallocV) (hf : ∀ k, k < N → (ti.heap k).size < fuel)
    (ha : InHeap objs a) (h : exportHeap D fuel mallocF mallocV r ti (8 * a) = .ok (ti', w')) :
    (∃ f nf v n, mallocF nf = some f ∧ mallocV n = some v ∧ ∀ x, x ≠ r →
      (∀ k, k < N → x < (ti.heap k).start ∨ (ti.heap k).remLimit ≤ x) → (x < f ∨ f + nf ≤ x) → (x < v ∨ v + n ≤ x) →
      ti'.mem x = ti.mem x) ∧
    (∀ k, k < N → (ti'.heap k).next = (ti'.heap k).start ∧ (ti'.heap k).limit = (ti'.heap k).remLimit) ∧
    ti'.alloc = ti.alloc ∧ ti'.limit = ti.limit ∧ ti'.fp = [⟨r, r + 1⟩] := by
  rcases exportHeap_spec (D := D) w hN hr hm hf ha with ⟨h', _⟩ | ⟨t, v, n, l, h', c⟩
  · rw [h'] at h; cases h
  · rw [h'] at h
    cases h
    obtain ⟨f, nf, hF, hout⟩ := c.outside
    exact ⟨⟨f, nf, v, n, hF, c.malloc, hout⟩, fun k hk => (c.empty k hk).2.2, c.mutator.1, c.mutator.2.1, c.fp⟩

/-- When the export aborts, `malloc` failed or there are more entries in the remembered sets than words in use in the
oldest generation. -/
theorem C55_abort (w : MutatorOK Static ti N objs) (hN : N ≤ maxSpaces)
    (hr : ∀ k, k < N → r < (ti.heap k).start ∨ (ti.heap k).remLimit ≤ r)
    (hm : ExportMallocOK Static ti.heap N r mallocF mallocV) (hf : ∀ k, k < N → (ti.heap k).size < fuel)
    (ha : InHeap objs a) (h : exportHeap D fuel mallocF mallocV r ti (8 * a) = .abort) :
    (∃ n, n ≤ (ti.heap (N - 1)).size ∧ mallocF n = none) ∨ (∃ n, n ≤ (ti.heap (N - 1)).size ∧ mallocV n = none) ∨
      (currentHeap ti (N - 1)).next - (currentHeap ti (N - 1)).start <
        ∑ k ∈ Finset.range N, ((currentHeap ti k).remLimit - (currentHeap ti k).limit) := by
  rcases exportHeap_spec (D := D) w hN hr hm hf ha with ⟨_, h'⟩ | ⟨t, v, n, l, h', c⟩
  · exact h'
  · rw [h'] at h; cases h

/-- Otherwise the export returns. Partial: heaps with large remembered sets are excluded, see `C55_assert_refuted`. -/
theorem C55_total_partial (w : MutatorOK Static ti N objs) (hN : N ≤ maxSpaces)
    (hr : ∀ k, k < N → r < (ti.heap k).start ∨ (ti.heap k).remLimit ≤ r)
    (hm : ExportMallocOK Static ti.heap N r mallocF mallocV) (hf : ∀ k, k < N → (ti.heap k).size < fuel)
    (ha : InHeap objs a) (hF : ∀ n, n ≤ (ti.heap (N - 1)).size → mallocF n ≠ none)
    (hV : ∀ n, n ≤ (ti.heap (N - 1)).size → mallocV n ≠ none)
    (hrem : ∑ k ∈ Finset.range N, ((currentHeap ti k).remLimit - (currentHeap ti k).limit) ≤
      (currentHeap ti (N - 1)).next - (currentHeap ti (N - 1)).start) :
    ∃ ti' w', exportHeap D fuel mallocF mallocV r ti (8 * a) = .ok (ti', w') := by
  rcases exportHeap_spec (D := D) w hN hr hm hf ha with ⟨_, ⟨n, h1, h2⟩ | ⟨n, h1, h2⟩ | h'⟩ | ⟨t, v, n, l, h', _⟩
  · exact absurd h2 (hF n h1)
  · exact absurd h2 (hV n h1)
  · omega
  · exact ⟨_, _, h'⟩

end

/-! ### A concrete export -/

/-- The example heap after allocating a pair of the generation-2 block and an unboxed value. -/
def exTI : TI :=
  { demo with mem := upd (upd (upd demo.mem 10 (2 * 1024)) 11 (8 * 41)) 12 9, alloc := 13 }

def exObjs : Nat → List Nat := addBlock demoObjs 11

theorem exTI_ok (Static : Nat → Prop) (hs : ∀ x, Static x → 100 ≤ x) : MutatorOK Static exTI 3 exObjs := by
  have h : allocBlock demo 0 [8 * 41, 9] = .ok (exTI, 11) := rfl
  have w := (alloc_ok demo_ok (by decide) (by decide) (fun _ v hv => by
    rcases List.mem_cons.1 hv with rfl | hv
    · exact Or.inr (Or.inl ⟨41, rfl, 2, by decide⟩)
    · rcases List.mem_cons.1 hv with rfl | hv
      · exact Or.inl rfl
      · cases hv) h).1
  have mono : ∀ {v}, ValidWord (fun _ => False) (InHeap exObjs) v → ValidWord Static (InHeap exObjs) v := by
    rintro v (h | h | ⟨_, _, h⟩)
    · exact Or.inl h
    · exact Or.inr (Or.inl h)
    · exact h.elim
  unfold MutatorOK at w ⊢
  exact { w with
    static := fun x i hx hi => by
      right
      have := hs x hx
      have : (currentHeap exTI i).remLimit ≤ 56 := by interval_cases i <;> decide
      omega
    rootVal := fun x hx => mono (w.rootVal x hx)
    fieldVal := fun k a i h1 h2 h3 => mono (w.fieldVal k a i h1 h2 h3) }

/-- Allocators for the example: the regions are at 300 and at 400. -/
def exF (n : Nat) : Option Nat := if n ≤ 90 then some 300 else none
def exV (n : Nat) : Option Nat := if n ≤ 90 then some 400 else none

theorem ex_malloc (Static : Nat → Prop) (hs : ∀ x, Static x → 500 ≤ x) :
    ExportMallocOK Static exTI.heap 3 200 exF exV := by
  have hlim : ∀ j, j < 3 → (exTI.heap j).remLimit ≤ 56 := by intro j hj; interval_cases j <;> decide
  constructor
  · intro n f h
    unfold exF at h
    split at h
    · cases h
      refine ⟨fun j hj => Or.inr (by have := hlim j hj; omega), ?_⟩
      rintro x (hx | rfl)
      · have := hs x hx; omega
      · omega
    · cases h
  · intro n f h
    unfold exV at h
    split at h
    · cases h
      refine ⟨fun j hj => Or.inr (by have := hlim j hj; omega), ?_⟩
      rintro x (hx | rfl)
      · have := hs x hx; omega
      · omega
    · cases h
  · intro n f n' v h h'
    unfold exF at h
    unfold exV at h'
    split at h
    · split at h'
      · cases h; cases h'; omega
      · cases h'
    · cases h

theorem ex_out (k : Nat) (hk : k < 3) : 200 < (exTI.heap k).start ∨ (exTI.heap k).remLimit ≤ 200 := by
  interval_cases k <;> decide

theorem ex_size (k : Nat) (hk : k < 3) : (exTI.heap k).size < 100 := by interval_cases k <;> decide

/-- The pair in the nursery is exported together with the generation-2 block it points to. -/
example : ∃ ti' w' v n l, exportHeap 0 100 exF exV 200 exTI (8 * 11) = .ok (ti', w') ∧ w' = 8 * (v + 1) ∧
    exV n = some v ∧ Blocks ti'.mem v ((v + 1) :: l) (v + n) ∧
    DeepCopy (fun _ => False) (InHeap exObjs) (· ∈ (v + 1) :: l) exTI.mem (8 * 11) ti'.mem w' := by
  have ha : InHeap exObjs 11 := ⟨0, by decide⟩
  obtain ⟨ti', w', h⟩ := C55_total_partial (D := 0) (exTI_ok (fun _ => False) (fun _ h => h.elim)) (by decide) ex_out
    (ex_malloc _ (fun _ h => h.elim)) ex_size ha
    (fun n hn => by have : n ≤ 16 := hn; unfold exF; rw [if_pos (by omega)]; exact Option.some_ne_none _)
    (fun n hn => by have : n ≤ 16 := hn; unfold exV; rw [if_pos (by omega)]; exact Option.some_ne_none _)
    (by decide)
  obtain ⟨v, n, l, h1, h2, h3, h4, _⟩ := C55_copy (exTI_ok (fun _ => False) (fun _ h => h.elim)) (by decide) ex_out
    (ex_malloc _ (fun _ h => h.elim)) ex_size ha h
  exact ⟨ti', w', v, n, l, h, h1, h2, h3, h4⟩

/-! ### What does not hold -/

/-- A boxed value that is not in the heap, such as a static constructor, is not returned: the result is the address
behind the header of an empty region. -/
theorem C55_static_root_refuted : ∃ ti', exportHeap 0 100 exF exV 200 exTI (8 * 600) = .ok (ti', 8 * 401) ∧
    MutatorOK (· = 600) exTI 3 exObjs ∧ ExportMallocOK (· = 600) exTI.heap 3 200 exF exV ∧
    ValidWord (· = 600) (InHeap exObjs) (8 * 600) ∧
    ∀ B', ¬ DeepCopy (· = 600) (InHeap exObjs) B' exTI.mem (8 * 600) ti'.mem (8 * 401) := by
  have hall : (match exportHeap 0 100 exF exV 200 exTI (8 * 600) with
      | .ok (_, w) => decide (w = 8 * 401)
      | _ => false) = true := by decide +kernel
  cases h : exportHeap 0 100 exF exV 200 exTI (8 * 600) with
  | ok p =>
    rw [h] at hall
    obtain ⟨ti', w⟩ := p
    simp only [decide_eq_true_eq] at hall
    subst hall
    have wok := exTI_ok (· = 600) (fun x h => by omega)
    refine ⟨ti', rfl, wok, ex_malloc _ (fun x h => by omega), Or.inr (Or.inr ⟨600, rfl, rfl⟩), ?_⟩
    rintro B' ⟨ψ, hw, _⟩
    rcases hw with ⟨o, _⟩ | ⟨b, e, hb, _⟩ | ⟨b, e, _, e'⟩
    · omega
    · have : b = 600 := by omega
      subst this
      exact wok.static_not 600 rfl hb
    · omega
  | abort => rw [h] at hall; cases hall
  | oof => rw [h] at hall; cases hall

/-- The other values of the program are lost: after the export the frames of the program (`exTI.fp`) no longer root a
well-formed heap, whatever the blocks are taken to be. Root 100 held a block of generation 2, which is now empty. -/
theorem C55_other_roots_refuted : ∃ ti' w', exportHeap 0 100 exF exV 200 exTI (8 * 11) = .ok (ti', w') ∧
    (∀ x, Roots exTI.fp x → ti'.mem x = exTI.mem x) ∧
    ¬ ∃ N objs, WF (fun _ => False) ti'.mem ti'.heap N objs (Roots exTI.fp) 0 := by
  have hall : (match exportHeap 0 100 exF exV 200 exTI (8 * 11) with
      | .ok (ti, _) => decide (ti.mem 100 = 8 * 41 ∧ ti.mem 101 = 1 ∧ (ti.heap 2).start = 40 ∧ (ti.heap 2).next = 40 ∧
          (ti.heap 2).remLimit = 56)
      | _ => false) = true := by decide +kernel
  cases h : exportHeap 0 100 exF exV 200 exTI (8 * 11) with
  | ok p =>
    rw [h] at hall
    obtain ⟨ti', w'⟩ := p
    simp only [decide_eq_true_eq] at hall
    obtain ⟨h1, h2, h3, h4, h5⟩ := hall
    refine ⟨ti', w', rfl, ?_, ?_⟩
    · intro x hx
      have : x = 100 ∨ x = 101 := (demo_roots x).1 hx
      rcases this with rfl | rfl
      · exact h1
      · exact h2
    · rintro ⟨N, objs, w⟩
      have hv := w.rootVal 100 ((demo_roots 100).2 (Or.inl rfl))
      rw [h1] at hv
      rcases hv with o | ⟨b, e, j, hj⟩ | ⟨_, _, hf⟩
      · omega
      · have : b = 41 := by omega
        subst this
        have hN : 2 < N := by
          by_contra hN
          have := (w.unused 2 (by omega)).1
          omega
        have hg := w.gen (k := 2) hN hj (by omega) (by omega)
        subst hg
        have := w.obj hj
        omega
      · exact hf
  | abort => rw [h] at hall; cases hall
  | oof => rw [h] at hall; cases hall

/-- The program cannot go on allocating either: `alloc` still points behind the blocks that were moved out of the
nursery, so that the thread info is not well-formed even if the program gives up all its roots. -/
theorem C55_resume_refuted : ∃ ti' w', exportHeap 0 100 exF exV 200 exTI (8 * 11) = .ok (ti', w') ∧
    ¬ ∃ N objs, MutatorOK (fun _ => False) { ti' with fp := [] } N objs := by
  have hall : (match exportHeap 0 100 exF exV 200 exTI (8 * 11) with
      | .ok (ti, _) => decide (ti.mem 10 = 0 ∧ (ti.heap 0).start = 10 ∧ ti.alloc = 13)
      | _ => false) = true := by decide +kernel
  cases h : exportHeap 0 100 exF exV 200 exTI (8 * 11) with
  | ok p =>
    rw [h] at hall
    obtain ⟨ti', w'⟩ := p
    simp only [decide_eq_true_eq] at hall
    obtain ⟨h1, h2, h3⟩ := hall
    refine ⟨ti', w', rfl, ?_⟩
    rintro ⟨N, objs, w⟩
    have hb := w.blocks 0 w.pos
    change Blocks ti'.mem (ti'.heap 0).start (objs 0) ti'.alloc at hb
    rw [h2, h3] at hb
    revert hb
    generalize objs 0 = l
    intro hb
    cases hb with
    | cons hs _ => rw [h1] at hs; revert hs; decide
  | abort => rw [h] at hall; cases hall
  | oof => rw [h] at hall; cases hall

/-- The assertion of `forward_remset` can fail although `malloc` never does: a program that stores three times to the
field of its only block has more remembered words than words in use, and exporting the block aborts. -/
theorem C55_assert_refuted (m : Mem) (mallocF mallocV : Nat → Option Nat) (hF : ∀ n, mallocF n ≠ none) (r fuel : Nat) :
    ∃ ti objs, History (fun _ => False) Barriered 0 (2 ^ 60) (makeTinfo m 1000) 1 (fun _ => []) ti 1 objs ∧
      MutatorOK (fun _ => False) ti 1 objs ∧ InHeap objs 1001 ∧
      exportHeap 0 fuel mallocF mallocV r ti (8 * 1001) = .abort := by
  let t0 : TI := { makeTinfo m 1000 with mem := upd (upd m 1000 1024) 1001 1, alloc := 1002 }
  let next : TI → TI := fun t =>
    { t with mem := upd (upd t.mem 1001 (8 * 1001)) (t.limit - 1) (8 * 1001), limit := t.limit - 1 }
  let objs : Nat → List Nat := fun k => if k = 0 then [] ++ [1001] else []
  have h0 : allocBlock (makeTinfo m 1000) 0 [1] = .ok (t0, 1001) := rfl
  have s0 : History (fun _ => False) Barriered 0 (2 ^ 60) (makeTinfo m 1000) 1 (fun _ => []) t0 1 objs :=
    .step .refl (.alloc (by decide) (by decide) (fun _ v hv => Or.inl (by
      rcases List.mem_cons.1 hv with rfl | hv
      · rfl
      · cases hv)) h0)
  have hin : InHeap objs 1001 := ⟨0, by simp [objs]⟩
  have go : ∀ t : TI, t.mem 1000 = 1024 → modify t (1001 + 0) (8 * 1001) = .ok (next t) →
      Action (fun _ => False) Barriered 0 (2 ^ 60) t 1 objs (next t) 1 objs := by
    intro t ht h
    have hb : blockSize t.mem 1001 = 1 := by unfold blockSize; rw [show 1001 - 1 = 1000 from rfl, ht]
    refine .modify (k := 0) (a := 1001) (i := 0) (by simp [objs]) ?_ (by rw [hb]; decide)
      (Or.inr (Or.inl ⟨1001, rfl, hin⟩)) ?_ h
    · unfold Scanned; rw [show 1001 - 1 = 1000 from rfl, ht]; decide
    · intro b j _ hj
      by_cases h0 : j = 0
      · exact Or.inl h0
      · simp [objs, h0] at hj
  have s3 : History (fun _ => False) Barriered 0 (2 ^ 60) (makeTinfo m 1000) 1 (fun _ => []) (next (next (next t0))) 1 objs :=
    .step (.step (.step s0 (go _ rfl rfl)) (go _ rfl rfl)) (go _ rfl rfl)
  refine ⟨_, objs, s3, C16_invariant_partial (by decide) (fun _ h => h.elim) s3, hin, ?_⟩
  have hg : garbageCollectAll 0 fuel
      { next (next (next t0)) with
        mem := upd (next (next (next t0))).mem r (8 * 1001)
        fp := [⟨r, r + 1⟩] } =
      .ok ({ next (next (next t0)) with
        mem := upd (next (next (next t0))).mem r (8 * 1001)
        fp := [⟨r, r + 1⟩]
        heap := setSpace (createHeap 1000) 0 ⟨1000, 1002, 1000 + nurserySize - 1 - 1 - 1, 1000 + nurserySize⟩ }, 0) := rfl
  unfold exportHeap
  rw [if_pos (by decide : isPtr (8 * 1001) = true)]
  simp only [hg, Outcome.bind]
  cases hf : mallocF _ with
  | none => exact absurd hf (hF _)
  | some f =>
    simp only [doGeneration, forwardRemset]
    rw [if_neg]
    · rfl
    · simp only [createSpace, setSpace, nurserySize, upd]
      norm_num
      try omega

/-- Allocators that never fail exist, so the hypothesis is met. -/
example : ∀ n : Nat, (fun n => some (10 ^ 6 + n) : Nat → Option Nat) n ≠ none := fun _ => Option.some_ne_none _

end GC
