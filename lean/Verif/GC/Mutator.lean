import Verif.GC.Heap
import Mathlib.Algebra.BigOperators.Intervals

/-!
# When the collector gives up, and the mutator's operations
-/

namespace GC
open Setup

/-- Occupied words of generations `i, …, N-1`. -/
def usedFrom (h : Nat → Space) (i N : Nat) : Nat := ∑ k ∈ Finset.Ico i N, (h k).used

theorem gcLoop_abort {Static : Nat → Prop} (D fuel : Nat) (malloc : Nat → Option Nat) : ∀ (n i : Nat) (ti : TI) (N : Nat)
    (objs : Nat → List Nat), WF Static ti.mem ti.heap N objs (Roots ti.fp) i →
    MallocOK Static ti.heap N (Roots ti.fp) (ti.heap 0).size malloc →
    (∀ j, j < i + n → 2 ^ j * (ti.heap 0).size < fuel) → 0 < i + n →
    (0 < i → 2 ^ (i - 1) * (ti.heap 0).size < (ti.heap i).used) →
    gcLoop D fuel malloc n i ti = .abort →
    (∃ j, malloc j = none) ∨ (ti.heap 0).size < ti.nalloc ∨
      2 ^ (i + n - 1) * (ti.heap 0).size < usedFrom ti.heap i N := by
  intro n
  induction n with
  | zero =>
    intro i ti N objs w _ _ hi hu _
    right; right
    have h1 := hu (by omega)
    have h2 : (ti.heap i).used ≤ usedFrom ti.heap i N :=
      Finset.single_le_sum (f := fun k => (ti.heap k).used) (fun _ _ => Nat.zero_le _)
        (Finset.mem_Ico.2 ⟨le_refl _, w.pos⟩)
    rw [Nat.add_zero]
    omega
  | succ n ih =>
    intro i ti N objs w hm hf hi hu
    simp only [gcLoop]
    rcases ensure_spec w hm with ⟨hab, hnone⟩ | ⟨h, N1, he, hN1, hNN, w1, hm1, hkeep, hnew⟩
    · intro _; exact Or.inl ⟨i, hnone⟩
    · rw [he]
      simp only [Outcome.bind]
      have hs0 : h 0 = ti.heap 0 := hkeep 0 (by have := w.inUse 0 (by have := w.pos; omega); omega)
      have hfi : (h i).size < fuel := by
        rw [w1.sizePow i w1.pos, hs0]; exact hf i (by omega)
      obtain ⟨m', h', objs', hg, hh', hext, w2, hgr, hused, hrest, hout⟩ := w1.iterate hN1 D fuel hfi
      rw [hg]
      simp only
      rw [← hh']
      have hs0' : (h' 0).size = (ti.heap 0).size := by
        unfold Space.size; rw [(hext 0).1, (hext 0).2, hs0]
      -- the occupied words do not increase
      have hold : usedFrom h i N1 = usedFrom ti.heap i N := by
        unfold usedFrom
        rw [← Finset.sum_Ico_consecutive _ (show i ≤ N by have := w.pos; omega) hNN]
        have h1 : ∑ k ∈ Finset.Ico N N1, (h k).used = 0 :=
          Finset.sum_eq_zero (fun k hk => hnew k (Finset.mem_Ico.1 hk).1 (Finset.mem_Ico.1 hk).2)
        rw [h1, Nat.add_zero]
        apply Finset.sum_congr rfl
        intro k hk
        rw [hkeep k (by have := w.inUse k (Finset.mem_Ico.1 hk).2; omega)]
      have hmono : usedFrom h' (i+1) N1 ≤ usedFrom h i N1 := by
        unfold usedFrom
        rw [Finset.sum_eq_sum_Ico_succ_bot (show i < N1 by omega), Finset.sum_eq_sum_Ico_succ_bot hN1,
          Finset.sum_eq_sum_Ico_succ_bot hN1]
        have : ∑ k ∈ Finset.Ico (i + 1 + 1) N1, (h' k).used = ∑ k ∈ Finset.Ico (i + 1 + 1) N1, (h k).used := by
          apply Finset.sum_congr rfl
          intro k hk
          rw [hrest k (by have := (Finset.mem_Ico.1 hk).1; omega)]
        omega
      by_cases hroom : (h' i).remLimit - (h' i).start ≤ (h' (i+1)).limit - (h' (i+1)).next
      · rw [if_pos hroom]
        have hb := w2.below 0 (by omega)
        unfold resume
        simp only
        by_cases hna : (h' 0).limit - (h' 0).start < ti.nalloc
        · intro _
          right; left
          rw [← hs0']
          unfold Space.size
          rw [← hb.2.2]; exact hna
        · rw [if_neg hna]; intro hc; cases hc
      · rw [if_neg hroom]
        have hm2 : MallocOK Static h' N1 (Roots ti.fp) (ti.heap 0).size malloc := by
          refine ⟨?_, hm1.apart⟩
          intro i' b hi' hb
          obtain ⟨k1, k2, k3⟩ := hm1.fresh i' b hi' hb
          exact ⟨k1, fun j hj => by rw [(hext j).1, (hext j).2]; exact k2 j hj, k3⟩
        intro hab
        have := ih (i+1) { ti with mem := m', heap := h' } N1 objs' w2 (by simp only; rw [hs0']; exact hm2)
          (by simp only; rw [hs0']; intro j hj; exact hf j (by omega)) (by omega) (by
            intro _
            simp only
            have e1 := w2.sizePow i (by omega)
            have e2 := w2.sizes i hN1
            have o := w2.order (i+1) hN1
            rw [Nat.add_sub_cancel, ← e1]
            unfold Space.size at e2 ⊢
            unfold Space.used
            omega) hab
        simp only at this
        rw [hs0', show i + 1 + n - 1 = i + (n + 1) - 1 by omega] at this
        rcases this with h1 | h1 | h1
        · exact Or.inl h1
        · exact Or.inr (Or.inl h1)
        · right; right
          omega

theorem garbageCollect_abort {Static : Nat → Prop} (D fuel : Nat) (malloc : Nat → Option Nat) (ti : TI) (N : Nat)
    (objs : Nat → List Nat) (w : MutatorOK Static ti N objs)
    (hm : MallocOK Static ti.heap N (Roots ti.fp) (ti.heap 0).size malloc)
    (hf : 2 ^ 41 * (ti.heap 0).size < fuel) (hab : garbageCollect D fuel malloc ti = .abort) :
    (∃ j, malloc j = none) ∨ (ti.heap 0).size < ti.nalloc ∨
      2 ^ 41 * (ti.heap 0).size < ∑ k ∈ Finset.range N, (currentHeap ti k).used := by
  unfold garbageCollect at hab
  simp only at hab
  have hcur : setSpace ti.heap 0 { ti.heap 0 with limit := ti.limit, next := ti.alloc } = currentHeap ti := by
    funext k; unfold setSpace currentHeap
    by_cases c : k = 0
    · subst c; rfl
    · rw [if_neg c]
  rw [hcur] at hab
  have hext : ∀ k, (currentHeap ti k).start = (ti.heap k).start ∧ (currentHeap ti k).remLimit = (ti.heap k).remLimit := by
    intro k; unfold currentHeap
    by_cases c : k = 0
    · subst c; exact ⟨rfl, rfl⟩
    · rw [if_neg c]; exact ⟨rfl, rfl⟩
  have hsz : (currentHeap ti 0).size = (ti.heap 0).size := by unfold Space.size; rw [(hext 0).1, (hext 0).2]
  have := gcLoop_abort (Static := Static) D fuel malloc (maxSpaces - 1) 0 { ti with heap := currentHeap ti } N objs w (by
    simp only
    rw [hsz]
    refine ⟨?_, hm.apart⟩
    intro i' b hi' hb
    obtain ⟨k1, k2, k3⟩ := hm.fresh i' b hi' hb
    exact ⟨k1, fun j hj => by rw [(hext j).1, (hext j).2]; exact k2 j hj, k3⟩) (by
    simp only
    rw [hsz]
    intro j hj
    have : j ≤ 41 := by unfold maxSpaces at hj; omega
    have := Nat.pow_le_pow_right (n := 2) (by omega) this
    have := Nat.mul_le_mul_right (ti.heap 0).size this
    exact Nat.lt_of_le_of_lt this hf) (by decide) (fun h => absurd h (by omega)) hab
  simp only at this
  rw [hsz] at this
  rcases this with h | h | h
  · exact Or.inl h
  · exact Or.inr (Or.inl h)
  · right; right
    unfold usedFrom at h
    rw [Finset.range_eq_Ico]
    exact h

/-! ## Allocation -/

theorem writeFields (m : Mem) (a : Nat) (fs : List Nat) (n x : Nat) :
    forLoop n (fun i m => upd m (a + i) (fs.getD i 1)) m x =
      if a ≤ x ∧ x < a + n then fs.getD (x - a) 1 else m x := by
  induction n with
  | zero => simp only [forLoop]; rw [if_neg (by omega)]
  | succ n ih =>
    simp only [forLoop]
    by_cases e : x = a + n
    · subst e
      rw [upd_same, if_pos (by omega), show a + n - a = n by omega]
    · rw [upd_other e, ih]
      by_cases h1 : a ≤ x ∧ x < a + n
      · rw [if_pos h1, if_pos (by omega)]
      · rw [if_neg h1, if_neg (by omega)]

/-- Block lists after allocating the block at `a`. -/
def addBlock (objs : Nat → List Nat) (a : Nat) : Nat → List Nat := fun k => if k = 0 then objs 0 ++ [a] else objs k

theorem ValidWord.mono {Static B B' : Nat → Prop} {v : Nat} (h : ValidWord Static B v) (hB : ∀ a, B a → B' a) :
    ValidWord Static B' v := by
  rcases h with h | ⟨a, e, h⟩ | h
  · exact Or.inl h
  · exact Or.inr (Or.inl ⟨a, e, hB a h⟩)
  · exact Or.inr (Or.inr h)

theorem alloc_ok {Static : Nat → Prop} {ti ti' : TI} {N : Nat} {objs : Nat → List Nat} {tag a : Nat} {fields : List Nat}
    (w : MutatorOK Static ti N objs) (htag : tag < 256) (hne : fields ≠ [])
    (hval : tag < 251 → ∀ v ∈ fields, ValidWord Static (InHeap objs) v)
    (he : allocBlock ti tag fields = .ok (ti', a)) :
    MutatorOK Static ti' N (addBlock objs a) ∧ (∀ x, x < ti.alloc ∨ ti.limit ≤ x → ti'.mem x = ti.mem x) ∧
      ti'.mem (a - 1) = fields.length * 1024 + tag ∧ (∀ i, i < fields.length → ti'.mem (a + i) = fields.getD i 1) ∧
      a = ti.alloc + 1 ∧ ti'.fp = ti.fp ∧ ti'.heap = ti.heap ∧ ti'.limit = ti.limit ∧
      ti'.alloc = ti.alloc + 1 + fields.length ∧ ti'.nalloc = ti.nalloc := by
  unfold allocBlock at he
  by_cases hroom : ti.alloc + 1 + fields.length ≤ ti.limit
  · rw [if_pos hroom] at he
    simp only [Outcome.ok.injEq, Prod.mk.injEq] at he
    obtain ⟨rfl, rfl⟩ := he
    have hlen : 0 < fields.length := List.length_pos_iff.2 hne
    set m' : Mem := forLoop fields.length (fun i m => upd m (ti.alloc + 1 + i) (fields.getD i 1))
      (upd ti.mem ti.alloc (fields.length * 1024 + tag)) with hm'
    have hmem : ∀ x, m' x = if ti.alloc + 1 ≤ x ∧ x < ti.alloc + 1 + fields.length then fields.getD (x - (ti.alloc + 1)) 1
        else upd ti.mem ti.alloc (fields.length * 1024 + tag) x := fun x => writeFields _ _ _ _ _
    have hout : ∀ x, x < ti.alloc ∨ ti.limit ≤ x → m' x = ti.mem x := by
      intro x hx
      rw [hmem, if_neg (by omega), upd_other (by omega)]
    have hhd : m' ti.alloc = fields.length * 1024 + tag := by
      rw [hmem, if_neg (by omega), upd_same]
    have hfld : ∀ i, i < fields.length → m' (ti.alloc + 1 + i) = fields.getD i 1 := by
      intro i hi
      rw [hmem, if_pos (by omega), show ti.alloc + 1 + i - (ti.alloc + 1) = i by omega]
    unfold MutatorOK at w
    have hcur : ∀ k, currentHeap (TI.mk m' (ti.alloc + 1 + fields.length) ti.limit ti.heap ti.fp ti.nalloc) k = if k = 0 then { currentHeap ti 0 with next := ti.alloc + 1 + fields.length }
        else currentHeap ti k := by
      intro k
      unfold currentHeap
      by_cases c : k = 0
      · subst c; rfl
      · rw [if_neg c, if_neg c, if_neg c]
    have hc0 : (currentHeap ti 0).next = ti.alloc ∧ (currentHeap ti 0).limit = ti.limit := ⟨rfl, rfl⟩
    have h0N := w.pos
    have o0 := w.order 0 h0N
    rw [hc0.1, hc0.2] at o0
    -- old blocks lie outside the written region
    have hold : ∀ k b x, b ∈ objs k → b - 1 ≤ x → x < b + blockSize ti.mem b → m' x = ti.mem x := by
      intro k b x hb h1 h2
      have ho := w.obj hb
      have ok := w.order k ho.1
      apply hout
      by_cases c : k = 0
      · subst c; rw [hc0.1] at ho; omega
      · have := w.disj k 0 ho.1 h0N c
        omega
    have hobj : ∀ k b, b ∈ objs k → (Scanned m' b ↔ Scanned ti.mem b) ∧ blockSize m' b = blockSize ti.mem b := by
      intro k b hb
      have ho := w.obj hb
      unfold Scanned blockSize
      rw [hold k b (b-1) hb (le_refl _) (by omega)]
      exact ⟨Iff.rfl, rfl⟩
    have hnewsz : blockSize m' (ti.alloc + 1) = fields.length := by
      unfold blockSize; rw [Nat.add_sub_cancel, hhd]; omega
    have hnewsc : Scanned m' (ti.alloc + 1) ↔ tag < 251 := by
      unfold Scanned; rw [Nat.add_sub_cancel, hhd]; omega
    have hin : ∀ b, InHeap objs b → InHeap (addBlock objs (ti.alloc + 1)) b := by
      rintro b ⟨k, hk⟩
      refine ⟨k, ?_⟩
      unfold addBlock
      by_cases c : k = 0
      · subst c; rw [if_pos rfl]; exact List.mem_append_left _ hk
      · rw [if_neg c]; exact hk
    have hmemN : ∀ k b, b ∈ addBlock objs (ti.alloc + 1) k → b ∈ objs k ∨ (k = 0 ∧ b = ti.alloc + 1) := by
      intro k b hb
      unfold addBlock at hb
      by_cases c : k = 0
      · subst c
        rw [if_pos rfl, List.mem_append] at hb
        rcases hb with hb | hb
        · exact Or.inl hb
        · right; exact ⟨rfl, by simpa using hb⟩
      · rw [if_neg c] at hb; exact Or.inl hb
    have hst : ∀ k, (if k = 0 then { currentHeap ti 0 with next := ti.alloc + 1 + fields.length } else currentHeap ti k).start
        = (currentHeap ti k).start := by
      intro k; by_cases c : k = 0
      · subst c; rfl
      · rw [if_neg c]
    have hrl : ∀ k, (if k = 0 then { currentHeap ti 0 with next := ti.alloc + 1 + fields.length } else currentHeap ti k).remLimit
        = (currentHeap ti k).remLimit := by
      intro k; by_cases c : k = 0
      · subst c; rfl
      · rw [if_neg c]
    have hlm : ∀ k, (if k = 0 then { currentHeap ti 0 with next := ti.alloc + 1 + fields.length } else currentHeap ti k).limit
        = (currentHeap ti k).limit := by
      intro k; by_cases c : k = 0
      · subst c; rfl
      · rw [if_neg c]
    have hrem : ∀ j q, j < N → (currentHeap ti j).limit ≤ q → q < (currentHeap ti j).remLimit → m' q = ti.mem q := by
      intro j q hj h1 h2
      apply hout
      by_cases c : j = 0
      · subst c; rw [hc0.2] at h1; omega
      · have := w.disj j 0 hj h0N c
        have := w.order j hj
        omega
    refine ⟨?_, hout, ?_, hfld, rfl, rfl, rfl, rfl, rfl, rfl⟩
    · unfold MutatorOK
      rw [funext hcur]
      simp only
      constructor
      · exact w.pos
      · intro k hk; rw [hst]; exact w.inUse k hk
      · intro k hk
        rw [hst]
        refine ⟨(w.unused k hk).1, ?_⟩
        unfold addBlock
        rw [if_neg (by omega)]; exact (w.unused k hk).2
      · intro k hk
        by_cases c : k = 0
        · subst c; rw [if_pos rfl]; simp only; rw [hc0.2]; omega
        · rw [if_neg c]; exact w.order k hk
      · intro k hk; unfold Space.size; rw [hst, hst, hrl, hrl]; exact w.sizes k hk
      · intro j k hj hk hjk; rw [hst, hst, hrl, hrl]; exact w.disj j k hj hk hjk
      · intro k hk
        have hb := blocks_congr (w.blocks k hk) (m' := m') (fun b hb => by
          have ho := w.obj hb
          exact hold k b (b-1) hb (le_refl _) (by omega))
        unfold addBlock
        by_cases c : k = 0
        · subst c
          rw [if_pos rfl, if_pos rfl]
          refine blocks_append hb ?_
          rw [hc0.1]
          simp only
          have hsz : m' ti.alloc / 1024 = fields.length := by rw [hhd]; omega
          have := Blocks.cons (m := m') (s := ti.alloc) (l := []) (e := ti.alloc + 1 + fields.length) (by omega)
            (by rw [hsz]; exact .nil _)
          exact this
        · rw [if_neg c, if_neg c]; exact hb
      · intro k hk hk'
        unfold Space.size
        rw [hst, hrl, if_neg (by omega)]
        exact w.room k hk hk'
      · intro k hk; omega
      · intro x k hx hk; rw [hst, hrl]; exact w.static x k hx hk
      · intro x k hx hk; rw [hst, hrl]; exact w.rootsOut x k hx hk
      · intro x hx
        have := w.rootsOut x 0 hx h0N
        rw [hout x (by omega)]
        exact (w.rootVal x hx).mono hin
      · intro k b i hb hs hi
        rcases hmemN k b hb with hb | ⟨rfl, rfl⟩
        · rw [(hobj k b hb).1] at hs
          rw [(hobj k b hb).2] at hi
          rw [hold k b (b+i) hb (by omega) (by omega)]
          exact (w.fieldVal k b i hb hs hi).mono hin
        · rw [hnewsz] at hi
          rw [hfld i hi]
          refine (hval (hnewsc.1 hs) _ ?_).mono hin
          simp only [List.getD, List.getElem?_eq_getElem hi, Option.getD_some]
          exact List.getElem_mem hi
      · intro k b i j c hb hs hi he hc hjk
        rcases hmemN k b hb with hb | ⟨rfl, rfl⟩
        · rw [(hobj k b hb).1] at hs
          rw [(hobj k b hb).2] at hi
          rw [hold k b (b+i) hb (by omega) (by omega)] at he
          have hc' : c ∈ objs j := by
            rcases hmemN j c hc with hc | ⟨rfl, rfl⟩
            · exact hc
            · exfalso
              rcases w.fieldVal k b i hb hs hi with h | ⟨c', e, k', hk'⟩ | ⟨c', e, hs'⟩
              · omega
              · have : c' = ti.alloc + 1 := by omega
                subst this
                have h0 := w.gen h0N hk' (by omega) (by omega)
                subst h0
                have := w.obj hk'
                rw [hc0.1] at this
                omega
              · have : c' = ti.alloc + 1 := by omega
                subst this
                have := w.static _ 0 hs' h0N
                omega
          obtain ⟨q, q1, q2, q3⟩ := w.barrier k b i j c hb hs hi he hc' hjk
          refine ⟨q, by rw [hlm]; exact q1, by rw [hrl]; exact q2, ?_⟩
          rw [hrem j q (w.obj hc').1 q1 q2]; exact q3
        · omega
      · intro j q hj q1 q2
        rw [hlm] at q1
        rw [hrl] at q2
        obtain ⟨k, b, i, hk, hb, hs, hi, e⟩ := w.remset j q hj q1 q2
        refine ⟨k, b, i, hk, ?_, (hobj k b hb).1.2 hs, by rw [(hobj k b hb).2]; exact hi, by rw [hrem j q hj q1 q2]; exact e⟩
        unfold addBlock
        by_cases c : k = 0
        · subst c; rw [if_pos rfl]; exact List.mem_append_left _ hb
        · rw [if_neg c]; exact hb
    · simp only; rw [Nat.add_sub_cancel]; exact hhd
  · rw [if_neg hroom] at he; cases he

/-! ## Mutation -/

/-- `certirocq_modify` on a field of a block, when the value stored lives in the nursery or is not younger than the
block (or is not a heap pointer). -/
theorem modify_ok {Static : Nat → Prop} {ti ti' : TI} {N : Nat} {objs : Nat → List Nat} {k a i v : Nat}
    (w : MutatorOK Static ti N objs) (ha : a ∈ objs k) (hs : Scanned ti.mem a) (hi : i < blockSize ti.mem a)
    (hv : ValidWord Static (InHeap objs) v)
    (hgen : ∀ b j, v = 8 * b → b ∈ objs j → j = 0 ∨ k ≤ j)
    (he : modify ti (a + i) v = .ok ti') :
    MutatorOK Static ti' N objs ∧ ti'.mem (a + i) = v ∧ ti'.fp = ti.fp ∧ ti'.heap = ti.heap ∧ ti'.alloc = ti.alloc ∧
      ti'.nalloc = ti.nalloc ∧
      (∀ x, x ≠ a + i → x < ti.alloc ∨ ti.limit ≤ x → ti'.mem x = ti.mem x) := by
  unfold MutatorOK at w
  have h0N := w.pos
  have o0 := w.order 0 h0N
  have hc0 : (currentHeap ti 0).next = ti.alloc ∧ (currentHeap ti 0).limit = ti.limit := ⟨rfl, rfl⟩
  rw [hc0.1, hc0.2] at o0
  unfold modify at he
  by_cases hroom : ti.alloc < ti.limit
  · rw [if_pos hroom] at he
    simp only at he
    have hoa := w.obj ha
    -- both cases: memory `m'` and new limit `l'`
    have key : ∀ (m' : Mem) (l' : Nat), m' (a + i) = v →
        (∀ x, x ≠ a + i → x < l' ∨ ti.limit ≤ x → m' x = ti.mem x) → ti.alloc ≤ l' → l' ≤ ti.limit →
        (∀ q, l' ≤ q → q < ti.limit → m' q = 8 * (a + i)) → (∀ b, v = 8 * b → InHeap objs b → l' < ti.limit) →
        MutatorOK Static { mem := m', alloc := ti.alloc, limit := l', heap := ti.heap, fp := ti.fp, nalloc := ti.nalloc } N objs := by
      intro m' l' e1 e2 hl1 hl2 e3 hpush
      have hai : ∀ x, x < ti.alloc → x < l' ∨ ti.limit ≤ x := fun x hx => Or.inl (by omega)
      have hcur : ∀ k, currentHeap (TI.mk m' ti.alloc l' ti.heap ti.fp ti.nalloc) k = if k = 0 then { currentHeap ti 0 with limit := l' }
          else currentHeap ti k := by
        intro k
        unfold currentHeap
        by_cases c : k = 0
        · subst c; rfl
        · rw [if_neg c, if_neg c, if_neg c]
      have hst : ∀ k, (if k = 0 then { currentHeap ti 0 with limit := l' } else currentHeap ti k).start
          = (currentHeap ti k).start := by
        intro k; by_cases c : k = 0
        · subst c; rfl
        · rw [if_neg c]
      have hrl : ∀ k, (if k = 0 then { currentHeap ti 0 with limit := l' } else currentHeap ti k).remLimit
          = (currentHeap ti k).remLimit := by
        intro k; by_cases c : k = 0
        · subst c; rfl
        · rw [if_neg c]
      have hnx : ∀ k, (if k = 0 then { currentHeap ti 0 with limit := l' } else currentHeap ti k).next
          = (currentHeap ti k).next := by
        intro k; by_cases c : k = 0
        · subst c; rfl
        · rw [if_neg c]
      -- block words other than the cell are unchanged
      have hold : ∀ k b x, b ∈ objs k → b - 1 ≤ x → x < b + blockSize ti.mem b → x ≠ a + i → m' x = ti.mem x := by
        intro k b x hb h1 h2 hx
        have ho := w.obj hb
        have ok := w.order k ho.1
        refine e2 x hx ?_
        by_cases c : k = 0
        · subst c; rw [hc0.1] at ho; omega
        · have := w.disj k 0 ho.1 h0N c
          omega
      have hhdr : ∀ k b, b ∈ objs k → m' (b - 1) = ti.mem (b - 1) := by
        intro k' b hb
        have ho := w.obj hb
        refine hold k' b (b-1) hb (le_refl _) (by omega) ?_
        intro e
        by_cases ek : k' = k
        · subst ek
          by_cases eb : b = a
          · omega
          · have := blocks_disj (w.blocks k' ho.1) a ha b hb (fun e => eb e.symm)
            omega
        · have := w.disj k' k ho.1 hoa.1 ek
          have := w.order k' ho.1
          have := w.order k hoa.1
          omega
      have hobj : ∀ k b, b ∈ objs k → (Scanned m' b ↔ Scanned ti.mem b) ∧ blockSize m' b = blockSize ti.mem b := by
        intro k b hb
        unfold Scanned blockSize
        rw [hhdr k b hb]
        exact ⟨Iff.rfl, rfl⟩
      -- remembered sets are unchanged below the pushed entry
      have hrem : ∀ j q, j < N → (currentHeap ti j).limit ≤ q → q < (currentHeap ti j).remLimit → m' q = ti.mem q := by
        intro j q hj h1 h2
        have hoj := w.order j hj
        refine e2 q ?_ ?_
        · intro e
          by_cases c : j = k
          · subst c; omega
          · have := w.disj j k hj hoa.1 c
            have := w.order k hoa.1
            omega
        · by_cases c : j = 0
          · subst c; rw [hc0.2] at h1; omega
          · have := w.disj j 0 hj h0N c
            omega
      unfold MutatorOK
      rw [funext hcur]
      simp only
      constructor
      · exact w.pos
      · intro k hk; rw [hst]; exact w.inUse k hk
      · intro k hk; rw [hst]; exact w.unused k hk
      · intro k hk
        by_cases c : k = 0
        · subst c; rw [if_pos rfl]; simp only; rw [hc0.1]; omega
        · rw [if_neg c]; exact w.order k hk
      · intro k hk; unfold Space.size; rw [hst, hst, hrl, hrl]; exact w.sizes k hk
      · intro j k hj hk hjk; rw [hst, hst, hrl, hrl]; exact w.disj j k hj hk hjk
      · intro k hk
        rw [hst, hnx]
        exact blocks_congr (w.blocks k hk) (fun b hb => hhdr k b hb)
      · intro k hk hk'
        unfold Space.size
        rw [hst, hrl, if_neg (by omega)]
        exact w.room k hk hk'
      · intro k hk; omega
      · intro x k hx hk; rw [hst, hrl]; exact w.static x k hx hk
      · intro x k hx hk; rw [hst, hrl]; exact w.rootsOut x k hx hk
      · intro x hx
        have h1 := w.rootsOut x 0 hx h0N
        have h2 := w.rootsOut x k hx hoa.1
        have h3 := w.order k hoa.1
        rw [e2 x (by omega) (by omega)]
        exact w.rootVal x hx
      · intro k' b i' hb hs' hi'
        rw [(hobj k' b hb).1] at hs'
        rw [(hobj k' b hb).2] at hi'
        by_cases e : b + i' = a + i
        · rw [e, e1]; exact hv
        · rw [hold k' b (b+i') hb (by omega) (by omega) e]
          exact w.fieldVal k' b i' hb hs' hi'
      · intro k' b i' j c hb hs' hi' he' hc hjk
        rw [(hobj k' b hb).1] at hs'
        rw [(hobj k' b hb).2] at hi'
        by_cases e : b + i' = a + i
        · rw [e, e1] at he'
          have hkk : k' = k := by
            have hob := w.obj hb
            have := w.order k' hob.1
            have := w.order k hoa.1
            by_contra hne
            have := w.disj k' k hob.1 hoa.1 hne
            omega
          have hj0 : j = 0 := by
            rcases hgen c j he' hc with h | h
            · exact h
            · omega
          subst hj0
          have hlt := hpush c he' ⟨0, hc⟩
          refine ⟨l', ?_, ?_, ?_⟩
          · rw [if_pos rfl]
          · rw [hrl]; omega
          · rw [e]; exact e3 l' (le_refl _) hlt
        · rw [hold k' b (b+i') hb (by omega) (by omega) e] at he'
          obtain ⟨q, q1, q2, q3⟩ := w.barrier k' b i' j c hb hs' hi' he' hc hjk
          refine ⟨q, ?_, by rw [hrl]; exact q2, ?_⟩
          · by_cases c0 : j = 0
            · subst c0; rw [if_pos rfl]; simp only; rw [hc0.2] at q1; omega
            · rw [if_neg c0]; exact q1
          · rw [hrem j q (w.obj hc).1 q1 q2]; exact q3
      · intro j q hj q1 q2
        rw [hrl] at q2
        by_cases hnew : j = 0 ∧ q < ti.limit
        · obtain ⟨rfl, hq⟩ := hnew
          rw [if_pos rfl] at q1
          simp only at q1
          exact ⟨k, a, i, by omega, ha, (hobj k a ha).1.2 hs, by rw [(hobj k a ha).2]; exact hi, e3 q q1 hq⟩
        · have q1' : (currentHeap ti j).limit ≤ q := by
            by_cases c : j = 0
            · subst c; rw [hc0.2]; omega
            · rw [if_neg c] at q1; exact q1
          obtain ⟨k', b, i', hk', hb, hs', hi', e⟩ := w.remset j q hj q1' q2
          exact ⟨k', b, i', hk', hb, (hobj k' b hb).1.2 hs', by rw [(hobj k' b hb).2]; exact hi',
            by rw [hrem j q hj q1' q2]; exact e⟩
    have hne : a + i ≠ ti.limit - 1 := by
      have ok := w.order k hoa.1
      by_cases c : k = 0
      · subst c; rw [hc0.1] at hoa; omega
      · have := w.disj k 0 hoa.1 h0N c
        omega
    by_cases hp : isPtr v = true
    · rw [if_pos hp] at he
      simp only [Outcome.ok.injEq] at he
      subst he
      refine ⟨?_, ?_, rfl, rfl, rfl, rfl, ?_⟩
      · refine key _ _ ?_ ?_ (by omega) (by omega) ?_ (fun _ _ _ => by omega)
        · rw [upd_other hne, upd_same]
        · intro x hx h; rw [upd_other (by omega), upd_other hx]
        · intro q h1 h2
          have : q = ti.limit - 1 := by omega
          subst this
          rw [upd_same]; rfl
      · simp only; rw [upd_other hne, upd_same]
      · intro x hx h; simp only; rw [upd_other (by omega), upd_other hx]
    · rw [if_neg hp] at he
      simp only [Outcome.ok.injEq] at he
      subst he
      refine ⟨?_, ?_, rfl, rfl, rfl, rfl, ?_⟩
      · refine key _ _ ?_ ?_ (by omega) (le_refl _) (fun q h1 h2 => by omega) (fun b e _ => ?_)
        · rw [upd_same]
        · intro x hx _; rw [upd_other hx]
        · exfalso
          apply hp
          unfold isPtr; rw [beq_iff_eq]; omega
      · simp only; rw [upd_same]
      · intro x hx _; simp only; rw [upd_other hx]
  · rw [if_neg hroom] at he; cases he

/-! ## Frames and roots -/

/-- The mutator pushes, pops and fills stack frames: it may change memory outside the heap and the frame list. -/
theorem roots_ok {Static : Nat → Prop} {ti : TI} {N : Nat} {objs : Nat → List Nat} {m' : Mem} {fp' : List Frame} {nalloc' : Nat}
    (w : MutatorOK Static ti N objs)
    (hm : ∀ x k, k < N → (ti.heap k).start ≤ x → x < (ti.heap k).remLimit → m' x = ti.mem x)
    (hout : ∀ x k, Roots fp' x → k < N → x < (ti.heap k).start ∨ (ti.heap k).remLimit ≤ x)
    (hval : ∀ x, Roots fp' x → ValidWord Static (InHeap objs) (m' x)) :
    MutatorOK Static { ti with mem := m', fp := fp', nalloc := nalloc' } N objs := by
  unfold MutatorOK at w ⊢
  have hcur : currentHeap { ti with mem := m', fp := fp', nalloc := nalloc' } = currentHeap ti := rfl
  have hext : ∀ k, (currentHeap ti k).start = (ti.heap k).start ∧ (currentHeap ti k).remLimit = (ti.heap k).remLimit := by
    intro k; unfold currentHeap
    by_cases c : k = 0
    · subst c; exact ⟨rfl, rfl⟩
    · rw [if_neg c]; exact ⟨rfl, rfl⟩
  rw [hcur]
  have hold : ∀ k b x, b ∈ objs k → b - 1 ≤ x → x < b + blockSize ti.mem b → m' x = ti.mem x := by
    intro k b x hb h1 h2
    have ho := w.obj hb
    have := w.order k ho.1
    have := hext k
    exact hm x k ho.1 (by omega) (by omega)
  have hhdr : ∀ k b, b ∈ objs k → m' (b - 1) = ti.mem (b - 1) := by
    intro k b hb
    have ho := w.obj hb
    exact hold k b (b-1) hb (le_refl _) (by omega)
  have hobj : ∀ k b, b ∈ objs k → (Scanned m' b ↔ Scanned ti.mem b) ∧ blockSize m' b = blockSize ti.mem b := by
    intro k b hb
    unfold Scanned blockSize
    rw [hhdr k b hb]
    exact ⟨Iff.rfl, rfl⟩
  have hrem : ∀ j q, j < N → (currentHeap ti j).limit ≤ q → q < (currentHeap ti j).remLimit → m' q = ti.mem q := by
    intro j q hj h1 h2
    have := w.order j hj
    have := hext j
    exact hm q j hj (by omega) (by omega)
  refine { w with blocks := ?_, rootsOut := ?_, rootVal := hval, fieldVal := ?_, barrier := ?_, remset := ?_ }
  · intro k hk; exact blocks_congr (w.blocks k hk) (fun b hb => hhdr k b hb)
  · intro x k hx hk; rw [(hext k).1, (hext k).2]; exact hout x k hx hk
  · intro k b i hb hs hi
    rw [(hobj k b hb).1] at hs
    rw [(hobj k b hb).2] at hi
    simp only
    rw [hold k b (b+i) hb (by omega) (by omega)]
    exact w.fieldVal k b i hb hs hi
  · intro k b i j c hb hs hi he hc hjk
    rw [(hobj k b hb).1] at hs
    rw [(hobj k b hb).2] at hi
    simp only at he
    rw [hold k b (b+i) hb (by omega) (by omega)] at he
    obtain ⟨q, q1, q2, q3⟩ := w.barrier k b i j c hb hs hi he hc hjk
    exact ⟨q, q1, q2, by simp only; rw [hrem j q (w.obj hc).1 q1 q2]; exact q3⟩
  · intro j q hj q1 q2
    obtain ⟨k, b, i, hk, hb, hs, hi, e⟩ := w.remset j q hj q1 q2
    exact ⟨k, b, i, hk, hb, (hobj k b hb).1.2 hs, by simp only; rw [(hobj k b hb).2]; exact hi,
      by simp only; rw [hrem j q hj q1 q2]; exact e⟩

/-! ## Uniqueness of the block lists -/

theorem blocks_unique {m s l e} (h : Blocks m s l e) : ∀ l', Blocks m s l' e → l = l' := by
  induction h with
  | nil s =>
    intro l' h'
    cases h' with
    | nil => rfl
    | cons h1 h2 => have := blocks_le h2; omega
  | @cons s e l hsz hr ih =>
    intro l' h'
    cases h' with
    | nil => have := blocks_le hr; omega
    | cons _ h2 => rw [ih _ h2]

end GC
