import Verif.GC.Generation
import Verif.GC.Spec

/-!
# Collecting one generation of a well-formed heap
-/

namespace GC
open Setup

theorem blocks_le {m s l e} (h : Blocks m s l e) : s ≤ e := by
  induction h with
  | nil => exact le_refl _
  | cons _ _ ih => omega

theorem blocks_mem {m s l e} (h : Blocks m s l e) : ∀ a ∈ l, s + 1 ≤ a ∧ a + blockSize m a ≤ e ∧ 1 ≤ blockSize m a := by
  induction h with
  | nil => intro a ha; cases ha
  | @cons s e l hsz hrest ih =>
    intro a ha
    cases ha with
    | head =>
      have := blocks_le hrest
      unfold blockSize
      rw [Nat.add_sub_cancel]
      omega
    | tail _ ha =>
      have := ih a ha
      omega

theorem blocks_disj {m s l e} (h : Blocks m s l e) : ∀ a ∈ l, ∀ b ∈ l, a ≠ b →
    a + blockSize m a + 1 ≤ b ∨ b + blockSize m b + 1 ≤ a := by
  induction h with
  | nil => intro a ha; cases ha
  | @cons s e l hsz hrest ih =>
    intro a ha b hb hab
    have e1 : blockSize m (s + 1) = m s / 1024 := by unfold blockSize; rw [Nat.add_sub_cancel]
    cases ha with
    | head =>
      cases hb with
      | head => exact absurd rfl hab
      | tail _ hb => have := blocks_mem hrest b hb; rw [e1]; omega
    | tail _ ha =>
      cases hb with
      | head => have := blocks_mem hrest a ha; rw [e1]; omega
      | tail _ hb => exact ih a ha b hb hab

theorem blocks_append {m s l e l' e'} (h : Blocks m s l e) (h' : Blocks m e l' e') : Blocks m s (l ++ l') e' := by
  induction h with
  | nil => exact h'
  | cons hsz _ ih => exact .cons hsz (ih h')

theorem blocks_congr {m m' s l e} (h : Blocks m s l e) (heq : ∀ a ∈ l, m' (a - 1) = m (a - 1)) : Blocks m' s l e := by
  induction h with
  | nil => exact .nil _
  | @cons s e l hsz _ ih =>
    have e1 : m' s = m s := by have := heq (s + 1) List.mem_cons_self; rwa [Nat.add_sub_cancel] at this
    refine .cons (by rw [e1]; exact hsz) ?_
    rw [e1]
    exact ih (fun a ha => heq a (List.mem_cons_of_mem _ ha))

theorem blocks_new {m : Mem} {sz : Nat → Nat} : ∀ (L : List Nat) (t : Nat), L.Nodup → (∀ a ∈ L, 1 ≤ sz a) →
    (∀ a ∈ L, m (posOf sz t L a - 1) / 1024 = sz a) →
    Blocks m t (L.map (posOf sz t L)) (endOf sz t L) := by
  intro L
  induction L with
  | nil => intro t _ _ _; exact .nil _
  | cons b L ih =>
    intro t hn hs hm
    have hb := hm b List.mem_cons_self
    simp only [posOf, if_true, Nat.add_sub_cancel] at hb
    rw [List.nodup_cons] at hn
    have hcg : ∀ a ∈ L, posOf sz t (b :: L) a = posOf sz (t + 1 + sz b) L a := by
      intro a ha
      simp only [posOf]
      rw [if_neg (fun (e : a = b) => hn.1 (e ▸ ha))]
    have := ih (t + 1 + sz b) hn.2 (fun a ha => hs a (List.mem_cons_of_mem _ ha)) (fun a ha => by
      rw [← hcg a ha]; exact hm a (List.mem_cons_of_mem _ ha))
    rw [List.map_cons, List.map_congr_left hcg]
    simp only [posOf, if_true, endOf]
    rw [← hb] at this ⊢
    exact .cons (by rw [hb]; exact hs b List.mem_cons_self) this

theorem blocks_sum {m s l e} (h : Blocks m s l e) : e = s + (l.map (fun a => blockSize m a + 1)).sum := by
  induction h with
  | nil => simp
  | @cons s e l hsz hrest ih =>
    rw [List.map_cons, List.sum_cons]
    have : blockSize m (s + 1) = m s / 1024 := by unfold blockSize; rw [Nat.add_sub_cancel]
    omega

theorem endOf_sum (sz : Nat → Nat) (L : List Nat) : ∀ t, endOf sz t L = t + (L.map (fun a => sz a + 1)).sum := by
  induction L with
  | nil => intro t; simp [endOf]
  | cons b L ih => intro t; simp only [endOf, ih, List.map_cons, List.sum_cons]; omega

section
variable {Static : Nat → Prop} {m : Mem} {h : Heap} {N : Nat} {objs : Nat → List Nat} {roots : Nat → Prop} {i : Nat}

theorem WF.obj (w : WF Static m h N objs roots i) {k a : Nat} (ha : a ∈ objs k) :
    k < N ∧ (h k).start + 1 ≤ a ∧ a + blockSize m a ≤ (h k).next ∧ 1 ≤ blockSize m a := by
  have hk : k < N := by
    by_contra hk
    rw [(w.unused k (by omega)).2] at ha
    cases ha
  have := blocks_mem (w.blocks k hk) a ha
  exact ⟨hk, this⟩

/-- The generation of a block is unique. -/
theorem WF.gen (w : WF Static m h N objs roots i) {k j a : Nat} (hk : k < N) (hj : a ∈ objs j)
    (h1 : (h k).start ≤ a) (h2 : a < (h k).remLimit) : j = k := by
  by_contra hne
  have ho := w.obj hj
  have := w.disj j k ho.1 hk hne
  have := w.order j ho.1
  omega

/-- The data describing the collection of generation `i`. -/
def stepSetup (m : Mem) (h : Heap) (objs : Nat → List Nat) (roots : Nat → Prop) (i : Nat) : Setup where
  m0 := m
  fs := (h i).start
  fl := (h i).limit
  fe := (h i).limit
  t0 := (h (i+1)).next
  tlim := (h (i+1)).limit - ((h i).remLimit - (h i).limit)
  Obj := fun a => a ∈ objs i
  Cell := fun x => roots x ∨
    (¬ ((h i).start ≤ x ∧ x < (h i).limit) ∧ ∃ j, j < (h i).remLimit - (h i).limit ∧ x = addrOf (m ((h i).limit + j)))
  Wr := fun x => (h (i+1)).limit - ((h i).remLimit - (h i).limit) ≤ x ∧ x < (h (i+1)).limit

/-- Cells recorded in the remembered set are fields of older blocks. -/
theorem WF.cell_old (w : WF Static m h N objs roots i) {x : Nat}
    (hx : (stepSetup m h objs roots i).Cell x) (hr : ¬ roots x) :
    ∃ k a j, i < k ∧ a ∈ objs k ∧ Scanned m a ∧ j < blockSize m a ∧ x = a + j := by
  rcases hx with hx | ⟨hout, j, hj, hx⟩
  · exact absurd hx hr
  · obtain ⟨k, a, l, hk, ha, hs, hl, e⟩ := w.remset i ((h i).limit + j) w.pos (by omega) (by omega)
    have hxe : x = a + l := by rw [hx, e]; unfold addrOf; omega
    refine ⟨k, a, l, ?_, ha, hs, hl, hxe⟩
    have ho := w.obj ha
    by_contra hik
    have hki : k = i := by omega
    subst hki
    have := w.order k ho.1
    omega

theorem WF.valid_from (w : WF Static m h N objs roots i) {v : Nat} (hv : ValidWord Static (InHeap objs) v)
    (hf : (stepSetup m h objs roots i).FromPtr v) : ∃ a, v = 8 * a ∧ a ∈ objs i ∧ addrOf v = a := by
  obtain ⟨hp, h1, h2⟩ := hf
  have ho := w.order i w.pos
  change (h i).start ≤ addrOf v at h1
  change addrOf v < (h i).limit at h2
  rcases hv with hv | ⟨a, e, j, ha⟩ | ⟨a, e, ha⟩
  · unfold isPtr at hp; rw [beq_iff_eq] at hp; omega
  · have ea : addrOf v = a := by rw [e]; unfold addrOf; omega
    rw [ea] at h1 h2
    have : j = i := w.gen w.pos ha h1 (by omega)
    subst this
    exact ⟨a, e, ha, ea⟩
  · have ea : addrOf v = a := by rw [e]; unfold addrOf; omega
    rw [ea] at h1 h2
    have := w.static a i ha w.pos
    omega

theorem WF.cell_valid (w : WF Static m h N objs roots i) {x : Nat}
    (hx : (stepSetup m h objs roots i).Cell x) : ValidWord Static (InHeap objs) (m x) := by
  by_cases hr : roots x
  · exact w.rootVal x hr
  · obtain ⟨k, a, j, _, ha, hs, hj, rfl⟩ := w.cell_old hx hr
    exact w.fieldVal k a j ha hs hj

theorem WF.cell_loc (w : WF Static m h N objs roots i) (hN : i + 1 < N) {x : Nat}
    (hx : (stepSetup m h objs roots i).Cell x) :
    (x < (h i).start ∨ (h i).remLimit ≤ x) ∧ (x < (h (i+1)).next ∨ (h (i+1)).remLimit ≤ x) := by
  have o0 := w.order i w.pos
  have o1 := w.order (i+1) hN
  by_cases hr : roots x
  · have h1 := w.rootsOut x i hr w.pos
    have h2 := w.rootsOut x (i+1) hr hN
    omega
  · obtain ⟨k, a, j, hk, ha, hs, hj, rfl⟩ := w.cell_old hx hr
    have ho := w.obj ha
    have ok := w.order k ho.1
    have d := w.disj k i ho.1 w.pos (by omega)
    by_cases e : k = i + 1
    · subst e; omega
    · have d1 := w.disj k (i+1) ho.1 hN e
      omega

theorem scannable_iff {a : Nat} : (stepSetup m h objs roots i).scannable a ↔ Scanned m a := by
  unfold Setup.scannable Scanned noScan tagOf stepSetup
  simp

theorem WF.setup_ok (w : WF Static m h N objs roots i) (hN : i + 1 < N) : (stepSetup m h objs roots i).OK := by
  have o0 := w.order i w.pos
  have o1 := w.order (i+1) hN
  have hd := w.disj i (i+1) w.pos hN (by omega)
  have hroom := w.room i (le_refl _) hN
  unfold Space.size at hroom
  constructor
  · intro a ha
    have := w.obj (show a ∈ objs i from ha)
    change (h i).start + 1 ≤ a ∧ a + blockSize m a ≤ (h i).limit ∧ 1 ≤ blockSize m a
    omega
  · intro a b ha hb hab
    exact blocks_disj (w.blocks i w.pos) a ha b hb hab
  · change (h i).limit ≤ (h (i+1)).next ∨ (h (i+1)).limit - ((h i).remLimit - (h i).limit) ≤ (h i).start
    omega
  · exact le_refl _
  · intro a ha
    have := w.obj (show a ∈ objs i from ha)
    change a + blockSize m a ≤ (h i).limit
    omega
  · change (h (i+1)).next + ((h i).limit - (h i).start) ≤ (h (i+1)).limit - ((h i).remLimit - (h i).limit)
    omega
  · intro x hx
    have := w.cell_loc hN hx
    change (x < (h i).start ∨ (h i).limit ≤ x) ∧
      (x < (h (i+1)).next ∨ (h (i+1)).limit - ((h i).remLimit - (h i).limit) ≤ x) ∧
      ¬ ((h (i+1)).limit - ((h i).remLimit - (h i).limit) ≤ x ∧ x < (h (i+1)).limit)
    omega
  · intro x hx
    change (h (i+1)).limit - ((h i).remLimit - (h i).limit) ≤ x ∧ x < (h (i+1)).limit at hx
    change (x < (h i).start ∨ (h i).limit ≤ x) ∧
      (x < (h (i+1)).next ∨ (h (i+1)).limit - ((h i).remLimit - (h i).limit) ≤ x)
    omega
  · intro x hx hf
    obtain ⟨a, _, ha, e⟩ := w.valid_from (w.cell_valid hx) hf
    change addrOf (m x) ∈ objs i
    rw [e]; exact ha
  · intro a j ha hs hj hf
    obtain ⟨b, _, hb, e⟩ := w.valid_from (w.fieldVal i a j ha (scannable_iff.1 hs) hj) hf
    change addrOf (m (a + j)) ∈ objs i
    rw [e]; exact hb

theorem WF.rem_ok (w : WF Static m h N objs roots i) (hN : i + 1 < N) :
    (stepSetup m h objs roots i).RemOK (h (i+1)).limit ((h i).remLimit - (h i).limit) := by
  have o0 := w.order i w.pos
  have o1 := w.order (i+1) hN
  have hd := w.disj i (i+1) w.pos hN (by omega)
  have hroom := w.room i (le_refl _) hN
  unfold Space.size at hroom
  constructor
  · rfl
  · omega
  · intro x; exact Iff.rfl
  · intro j hj
    refine ⟨fun hc => ?_, ?_, ?_⟩
    · have := (w.cell_loc hN hc).1
      change (h i).limit + j < _ ∨ _ ≤ (h i).limit + j at this
      omega
    · change ¬ ((h (i+1)).limit - ((h i).remLimit - (h i).limit) ≤ (h i).limit + j ∧ (h i).limit + j < (h (i+1)).limit)
      omega
    · change (h i).limit + j < (h (i+1)).next ∨ (h (i+1)).limit - ((h i).remLimit - (h i).limit) ≤ (h i).limit + j
      omega
  · intro j hj hout
    exact Or.inr ⟨hout, j, hj, rfl⟩

/-- Block lists after collecting generation `i`, when the blocks in `L` were copied to the free part of `i+1`. -/
def newObjs (S : Setup) (objs : Nat → List Nat) (i : Nat) (L : List Nat) : Nat → List Nat := fun k =>
  if k = i then [] else if k = i + 1 then objs (i+1) ++ L.map (S.pos L) else objs k

/-- Descriptors after collecting generation `i`. -/
def newHeap (h : Heap) (i n T' : Nat) : Heap :=
  setSpace (setSpace h i { h i with next := (h i).start, limit := (h i).remLimit }) (i+1)
    { h (i+1) with next := n, limit := T' }

/-- The facts used to re-establish well-formedness after a collection. -/
structure StepFacts (Static : Nat → Prop) (m : Mem) (h : Heap) (N : Nat) (objs : Nat → List Nat) (roots : Nat → Prop)
    (i : Nat) (m' : Mem) (n T' : Nat) (L : List Nat) : Prop where
  wf : WF Static m h N objs roots i
  hN : i + 1 < N
  col : (stepSetup m h objs roots i).Collected (h (i+1)).limit ((h i).remLimit - (h i).limit) m' n T' L

namespace StepFacts
variable {m' : Mem} {n T' : Nat} {L : List Nat}

theorem n_bounds (f : StepFacts Static m h N objs roots i m' n T' L) :
    (h (i+1)).next ≤ n ∧ n ≤ T' ∧ T' ≤ (h (i+1)).limit := by
  have h1 := f.col.inv.next_le (f.wf.setup_ok f.hN)
  have h2 := f.col.lo
  have h3 := f.col.hi
  have h4 : (h (i+1)).next ≤ n := by rw [f.col.inv.next]; exact le_endOf _ _ _
  change n ≤ (h (i+1)).limit - ((h i).remLimit - (h i).limit) at h1
  omega

/-- No more is copied than the collected generation holds. -/
theorem copied_le (f : StepFacts Static m h N objs roots i m' n T' L) :
    n ≤ (h (i+1)).next + ((h i).next - (h i).start) := by
  have e1 : n = endOf (stepSetup m h objs roots i).sz (h (i+1)).next L := f.col.inv.next
  rw [e1, endOf_sum]
  have hb := blocks_sum (f.wf.blocks i f.wf.pos)
  have hsub : List.Subperm L (objs i) := f.col.inv.nodup.subperm (fun a ha => f.col.inv.objs a ha)
  obtain ⟨l', hp, hs⟩ := hsub
  have h1 : (L.map (fun a => (stepSetup m h objs roots i).sz a + 1)).sum = (l'.map (fun a => blockSize m a + 1)).sum :=
    ((hp.map _).sum_eq).symm
  have h2 : (l'.map (fun a => blockSize m a + 1)).sum ≤ ((objs i).map (fun a => blockSize m a + 1)).sum :=
    (hs.map _).sum_le_sum (fun _ _ => Nat.zero_le _)
  omega

/-- Words of older generations outside the reserved part, and words outside the heap, that are not cells, are unchanged. -/
theorem same (f : StepFacts Static m h N objs roots i m' n T' L) {x : Nat}
    (h1 : x < (h i).start ∨ (h i).limit ≤ x) (h2 : x < (h (i+1)).next ∨ (h (i+1)).limit ≤ x)
    (hc : ¬ (stepSetup m h objs roots i).Cell x) : m' x = m x := by
  have hb := f.n_bounds
  refine f.col.inv.frame x h1 (by change x < (h (i+1)).next ∨ n ≤ x; omega) hc ?_
  change ¬ ((h (i+1)).limit - ((h i).remLimit - (h i).limit) ≤ x ∧ x < (h (i+1)).limit)
  have := f.wf.room i (le_refl _) f.hN
  unfold Space.size at this
  have := f.wf.order i f.wf.pos
  omega

/-- Headers of older blocks are unchanged. -/
theorem header (f : StepFacts Static m h N objs roots i m' n T' L) {k a : Nat} (ha : a ∈ objs k) (hk : k ≠ i) :
    m' (a - 1) = m (a - 1) := by
  have w := f.wf
  have ho := w.obj ha
  have ok := w.order k ho.1
  have o1 := w.order (i+1) f.hN
  have o0 := w.order i w.pos
  have d := w.disj k i ho.1 w.pos hk
  refine f.same (by omega) ?_ ?_
  · by_cases e : k = i + 1
    · subst e; omega
    · have := w.disj k (i+1) ho.1 f.hN e
      omega
  · intro hc
    by_cases hr : roots (a - 1)
    · have := w.rootsOut _ k hr ho.1
      omega
    · obtain ⟨k', b, j, _, hb, _, hj, e⟩ := w.cell_old hc hr
      have hob := w.obj hb
      by_cases ekk : k' = k
      · subst ekk
        by_cases eab : b = a
        · subst eab; omega
        · have := blocks_disj (w.blocks k' ho.1) b hb a ha eab
          omega
      · have := w.disj k' k hob.1 ho.1 ekk
        have := w.order k' hob.1
        omega

/-- Fields of older blocks and root words have been forwarded. -/
theorem old_field (f : StepFacts Static m h N objs roots i m' n T' L) {k a j : Nat} (ha : a ∈ objs k) (hk : i < k)
    (hs : Scanned m a) (hj : j < blockSize m a) :
    (stepSetup m h objs roots i).Done m' L (a + j) (m (a + j)) := by
  have w := f.wf
  have ho := w.obj ha
  have ok := w.order k ho.1
  have o1 := w.order (i+1) f.hN
  have o0 := w.order i w.pos
  have d := w.disj k i ho.1 w.pos (by omega)
  by_cases hc : (stepSetup m h objs roots i).Cell (a + j)
  · exact f.col.done _ _ (Or.inl ⟨hc, rfl⟩)
  · have he : m' (a + j) = m (a + j) := by
      refine f.same (by omega) ?_ hc
      by_cases e : k = i + 1
      · subst e; omega
      · have := w.disj k (i+1) ho.1 f.hN e
        omega
    refine done_of_notFrom he ?_
    intro hf
    obtain ⟨b, e, hb, _⟩ := w.valid_from (w.fieldVal k a j ha hs hj) hf
    obtain ⟨q, h1, h2, h3⟩ := w.barrier k a j i b ha hs hj e hb hk
    apply hc
    right
    refine ⟨by omega, q - (h i).limit, by omega, ?_⟩
    rw [show (h i).limit + (q - (h i).limit) = q by omega, h3]
    unfold addrOf; omega

theorem root_word (f : StepFacts Static m h N objs roots i m' n T' L) {x : Nat} (hx : roots x) :
    (stepSetup m h objs roots i).Done m' L x (m x) := f.col.done _ _ (Or.inl ⟨Or.inl hx, rfl⟩)

theorem new_field (f : StepFacts Static m h N objs roots i m' n T' L) {a j : Nat} (ha : a ∈ L)
    (hs : Scanned m a) (hj : j < blockSize m a) :
    (stepSetup m h objs roots i).Done m' L ((stepSetup m h objs roots i).pos L a + j) (m (a + j)) :=
  f.col.done _ _ (Or.inr ⟨a, j, ha, scannable_iff.2 hs, hj, rfl, rfl⟩)

/-- Values are mapped to values. -/
theorem word (f : StepFacts Static m h N objs roots i m' n T' L) {x v : Nat}
    (hv : ValidWord Static (InHeap objs) v) (hd : (stepSetup m h objs roots i).Done m' L x v) :
    (∃ a, v = 8 * a ∧ a ∈ L ∧ m' x = 8 * (stepSetup m h objs roots i).pos L a) ∨
    (m' x = v ∧ (v % 2 = 1 ∨ (∃ a k, v = 8 * a ∧ a ∈ objs k ∧ k ≠ i) ∨ ∃ a, v = 8 * a ∧ Static a)) := by
  by_cases hf : (stepSetup m h objs roots i).FromPtr v
  · left
    obtain ⟨a, e, ha, ea⟩ := f.wf.valid_from hv hf
    refine ⟨a, e, ?_, ?_⟩
    · have := hd.2 hf; rwa [ea] at this
    · have := hd.1
      unfold fwv at this
      rw [if_pos hf, ea] at this
      exact this
  · right
    have he : m' x = v := by
      have := hd.1
      unfold fwv at this
      rwa [if_neg hf] at this
    refine ⟨he, ?_⟩
    rcases hv with hv | ⟨a, e, k, ha⟩ | hv
    · exact Or.inl hv
    · refine Or.inr (Or.inl ⟨a, k, e, ha, ?_⟩)
      intro hk
      subst hk
      apply hf
      have ho := f.wf.obj ha
      have := f.wf.order k ho.1
      refine ⟨?_, ?_, ?_⟩
      · rw [e]; unfold isPtr; rw [beq_iff_eq]; omega
      · change (h k).start ≤ addrOf v; rw [e]; unfold addrOf; omega
      · change addrOf v < (h k).limit; rw [e]; unfold addrOf; omega
    · exact Or.inr (Or.inr hv)

theorem valid (f : StepFacts Static m h N objs roots i m' n T' L) {x v : Nat}
    (hv : ValidWord Static (InHeap objs) v) (hd : (stepSetup m h objs roots i).Done m' L x v) :
    ValidWord Static (InHeap (newObjs (stepSetup m h objs roots i) objs i L)) (m' x) := by
  rcases f.word hv hd with ⟨a, e, ha, he⟩ | ⟨he, h1 | ⟨a, k, e, ha, hk⟩ | h1⟩
  · refine Or.inr (Or.inl ⟨_, he, i + 1, ?_⟩)
    simp only [newObjs]
    rw [if_neg (by omega), if_pos trivial, List.mem_append]
    exact Or.inr (List.mem_map_of_mem ha)
  · left; rw [he]; exact h1
  · refine Or.inr (Or.inl ⟨a, by rw [he, e], k, ?_⟩)
    simp only [newObjs]
    rw [if_neg hk]
    by_cases e1 : k = i + 1
    · subst e1; rw [if_pos rfl, List.mem_append]; exact Or.inl ha
    · rw [if_neg e1]; exact ha
  · right; right; rw [he]; exact h1

/-- Blocks after the collection: an old block of an older generation or a copy. -/
theorem mem_new (f : StepFacts Static m h N objs roots i m' n T' L) {k a : Nat}
    (ha : a ∈ newObjs (stepSetup m h objs roots i) objs i L k) :
    (a ∈ objs k ∧ i < k) ∨ (k = i + 1 ∧ ∃ b ∈ L, a = (stepSetup m h objs roots i).pos L b) := by
  simp only [newObjs] at ha
  by_cases e : k = i
  · rw [if_pos e] at ha; cases ha
  · rw [if_neg e] at ha
    by_cases e1 : k = i + 1
    · rw [if_pos e1, List.mem_append] at ha
      subst e1
      rcases ha with ha | ha
      · exact Or.inl ⟨ha, by omega⟩
      · obtain ⟨b, hb, hba⟩ := List.mem_map.1 ha
        exact Or.inr ⟨rfl, b, hb, hba.symm⟩
    · rw [if_neg e1] at ha
      refine Or.inl ⟨ha, ?_⟩
      by_contra hk
      rw [(f.wf.below k (by omega)).1] at ha
      cases ha

theorem new_hdr (f : StepFacts Static m h N objs roots i m' n T' L) {b : Nat} (hb : b ∈ L) :
    m' ((stepSetup m h objs roots i).pos L b - 1) = m (b - 1) := f.col.inv.hdr b hb

theorem old_remset_word (f : StepFacts Static m h N objs roots i m' n T' L) {j q : Nat} (hj : j < N) (hji : i < j)
    (h1 : (h j).limit ≤ q) (h2 : q < (h j).remLimit) : m' q = m q := by
  have w := f.wf
  have oj := w.order j hj
  have o1 := w.order (i+1) f.hN
  have o0 := w.order i w.pos
  have d := w.disj j i hj w.pos (by omega)
  refine f.same (by omega) ?_ ?_
  · by_cases e : j = i + 1
    · subst e; omega
    · have := w.disj j (i+1) hj f.hN e
      omega
  · intro hc
    by_cases hr : roots q
    · have := w.rootsOut _ j hr hj
      omega
    · obtain ⟨k', b, l, _, hb, _, hl, e⟩ := w.cell_old hc hr
      have hob := w.obj hb
      by_cases ekk : k' = j
      · subst ekk; omega
      · have := w.disj k' j hob.1 hj ekk
        have := w.order k' hob.1
        omega

/-- Well-formedness after collecting generation `i` into `i+1`. -/
theorem wf_after (f : StepFacts Static m h N objs roots i m' n T' L) :
    (∀ k, k < N → k ≠ i → k ≠ i + 1 → newHeap h i n T' k = h k) ∧
    newHeap h i n T' i = { h i with next := (h i).start, limit := (h i).remLimit } ∧
    newHeap h i n T' (i+1) = { h (i+1) with next := n, limit := T' } ∧
    WF Static m' (newHeap h i n T') N (newObjs (stepSetup m h objs roots i) objs i L) roots (i+1) := by
  have w := f.wf
  have hb := f.n_bounds
  have e0 : newHeap h i n T' i = { h i with next := (h i).start, limit := (h i).remLimit } := by
    simp [newHeap, setSpace]
  have e1 : newHeap h i n T' (i+1) = { h (i+1) with next := n, limit := T' } := by
    simp [newHeap, setSpace]
  have e2 : ∀ k, k ≠ i → k ≠ i + 1 → newHeap h i n T' k = h k := by
    intro k h1 h2; simp [newHeap, setSpace, h1, h2]
  have hst : ∀ k, (newHeap h i n T' k).start = (h k).start ∧ (newHeap h i n T' k).remLimit = (h k).remLimit := by
    intro k
    by_cases c0 : k = i
    · subst c0; rw [e0]; exact ⟨rfl, rfl⟩
    · by_cases c1 : k = i + 1
      · subst c1; rw [e1]; exact ⟨rfl, rfl⟩
      · rw [e2 k c0 c1]; exact ⟨rfl, rfl⟩
  have hsize : ∀ k, (newHeap h i n T' k).size = (h k).size := by
    intro k; unfold Space.size; rw [(hst k).1, (hst k).2]
  have hOi : newObjs (stepSetup m h objs roots i) objs i L i = [] := by simp [newObjs]
  have hO1 : newObjs (stepSetup m h objs roots i) objs i L (i+1) =
      objs (i+1) ++ L.map ((stepSetup m h objs roots i).pos L) := by simp [newObjs]
  have hOk : ∀ k, k ≠ i → k ≠ i + 1 → newObjs (stepSetup m h objs roots i) objs i L k = objs k := by
    intro k h1 h2; simp [newObjs, h1, h2]
  have o0 := w.order i w.pos
  have o1 := w.order (i+1) f.hN
  -- properties of blocks transfer
  have hscan : ∀ k a, a ∈ objs k → i < k → (Scanned m' a ↔ Scanned m a) ∧ blockSize m' a = blockSize m a := by
    intro k a ha hk
    unfold Scanned blockSize
    rw [f.header ha (by omega)]
    exact ⟨Iff.rfl, rfl⟩
  have hscanN : ∀ b, b ∈ L → (Scanned m' ((stepSetup m h objs roots i).pos L b) ↔ Scanned m b) ∧
      blockSize m' ((stepSetup m h objs roots i).pos L b) = blockSize m b := by
    intro b hb
    unfold Scanned blockSize
    rw [f.new_hdr hb]
    exact ⟨Iff.rfl, rfl⟩
  -- a field of a block after the collection
  have hfield : ∀ k a j, a ∈ newObjs (stepSetup m h objs roots i) objs i L k → Scanned m' a → j < blockSize m' a →
      ∃ v, ValidWord Static (InHeap objs) v ∧ (stepSetup m h objs roots i).Done m' L (a + j) v ∧
        (i + 1 < k → a ∈ objs k ∧ Scanned m a ∧ j < blockSize m a ∧ v = m (a + j)) := by
    intro k a j ha hs hj
    rcases f.mem_new ha with ⟨ha', hk⟩ | ⟨hk, b, hbL, rfl⟩
    · rw [(hscan k a ha' hk).1] at hs
      rw [(hscan k a ha' hk).2] at hj
      exact ⟨m (a + j), w.fieldVal k a j ha' hs hj, f.old_field ha' hk hs hj, fun _ => ⟨ha', hs, hj, rfl⟩⟩
    · rw [(hscanN b hbL).1] at hs
      rw [(hscanN b hbL).2] at hj
      exact ⟨m (b + j), w.fieldVal i b j (f.col.inv.objs b hbL) hs hj, f.new_field hbL hs hj, fun h => by omega⟩
  refine ⟨fun k _ h1 h2 => e2 k h1 h2, e0, e1, ?_⟩
  constructor
  · exact f.hN
  · intro k hk; rw [(hst k).1]; exact w.inUse k hk
  · intro k hk
    have hN := f.hN
    rw [(hst k).1, hOk k (by omega) (by omega)]
    exact w.unused k hk
  · intro k hk
    by_cases c0 : k = i
    · subst c0; rw [e0]; simp only; omega
    · by_cases c1 : k = i + 1
      · subst c1; rw [e1]; simp only; omega
      · rw [e2 k c0 c1]; exact w.order k hk
  · intro k hk; rw [hsize, hsize]; exact w.sizes k hk
  · intro k j hk hj hkj
    rw [(hst k).1, (hst k).2, (hst j).1, (hst j).2]
    exact w.disj k j hk hj hkj
  · intro k hk
    by_cases c0 : k = i
    · subst c0; rw [e0, hOi]; exact .nil _
    · have hold : Blocks m' (h k).start (objs k) (h k).next :=
        blocks_congr (w.blocks k hk) (fun a ha => f.header ha c0)
      by_cases c1 : k = i + 1
      · subst c1
        rw [e1, hO1]
        refine blocks_append hold ?_
        have hn : n = endOf (stepSetup m h objs roots i).sz (h (i+1)).next L := f.col.inv.next
        simp only
        rw [hn]
        refine blocks_new L _ f.col.inv.nodup ?_ ?_
        · intro a ha
          exact ((w.setup_ok f.hN).obj (f.col.inv.objs a ha)).2.2
        · intro a ha
          have := f.new_hdr ha
          unfold Setup.pos at this
          change m' (posOf _ (h (i+1)).next L a - 1) = _ at this
          rw [this]; rfl
      · rw [e2 k c0 c1, hOk k c0 c1]; exact hold
  · intro k hk1 hk2
    rw [hsize, e2 (k+1) (by omega) (by omega)]
    exact w.room k (by omega) hk2
  · intro k hk
    by_cases c0 : k = i
    · subst c0; rw [e0, hOi]; exact ⟨rfl, rfl, rfl⟩
    · rw [e2 k c0 (by omega), hOk k c0 (by omega)]
      exact w.below k (by omega)
  · intro x k hx hk; rw [(hst k).1, (hst k).2]; exact w.static x k hx hk
  · intro x k hx hk; rw [(hst k).1, (hst k).2]; exact w.rootsOut x k hx hk
  · intro x hx
    exact f.valid (w.rootVal x hx) (f.root_word hx)
  · intro k a j ha hs hj
    obtain ⟨v, hv, hd, _⟩ := hfield k a j ha hs hj
    exact f.valid hv hd
  · intro k a j l b ha hs hj he hbl hlk
    -- the target is in generation `i+1` or older
    have hl : i + 1 ≤ l := by
      rcases f.mem_new hbl with ⟨_, h⟩ | ⟨h, _⟩ <;> omega
    obtain ⟨v, hv, hd, hold⟩ := hfield k a j ha hs hj
    obtain ⟨ha', hs', hj', rfl⟩ := hold (by omega)
    have hkN := (w.obj ha').1
    rcases f.word hv hd with ⟨c, ec, hc, e⟩ | ⟨e, hcase⟩
    · -- forwarded now: the cell has been pushed on the remembered set of `i+1`
      have hbc : b = (stepSetup m h objs roots i).pos L c := by omega
      have hpb := pos_bounds (S := stepSetup m h objs roots i) hc
      rw [← f.col.inv.next] at hpb
      change (h (i+1)).next < _ ∧ _ at hpb
      have hli : l = i + 1 := by
        rcases f.mem_new hbl with ⟨hbo, _⟩ | ⟨h, _⟩
        · have hgen := w.gen f.hN hbo (by omega) (by
            have := ((w.setup_ok f.hN).obj (f.col.inv.objs c hc)).2.2
            omega)
          exact hgen
        · exact h
      subst hli
      rw [e1]
      obtain ⟨q, q1, q2, q3⟩ := w.barrier k a j i c ha' hs' hj' ec (f.col.inv.objs c hc) (by omega)
      have hent : (stepSetup m h objs roots i).entryAt (q - (h i).limit) = a + j := by
        show addrOf (m ((h i).limit + (q - (h i).limit))) = _
        rw [show (h i).limit + (q - (h i).limit) = q by omega, q3]; unfold addrOf; omega
      have hcell : (stepSetup m h objs roots i).Cell (a + j) := by
        right
        refine ⟨?_, q - (h i).limit, by omega, hent.symm⟩
        have ho := w.obj ha'
        have d := w.disj k i ho.1 w.pos (by omega)
        have := w.order k ho.1
        omega
      have hfp : (stepSetup m h objs roots i).FromPtr (m (a + j)) := by
        have hoc := w.obj (f.col.inv.objs c hc)
        refine ⟨?_, ?_, ?_⟩
        · rw [ec]; unfold isPtr; rw [beq_iff_eq]; omega
        · change (h i).start ≤ _; rw [ec]; unfold addrOf; omega
        · change _ < (h i).limit; rw [ec]; unfold addrOf; omega
      obtain ⟨q', g1, g2, g3⟩ := f.col.complete (q - (h i).limit) (by omega) (by rw [hent]; exact hcell)
        (by rw [hent]; exact hfp)
      refine ⟨q', g1, by simp only; omega, ?_⟩
      rw [g3, hent]; rfl
    · -- unchanged pointer
      rw [e] at he
      have hbo : b ∈ objs l := by
        rcases f.mem_new hbl with ⟨hbo, _⟩ | ⟨hl1, c, hc, hbc⟩
        · exact hbo
        · exfalso
          have hpb := pos_bounds (S := stepSetup m h objs roots i) hc
          rw [← f.col.inv.next] at hpb
          change (h (i+1)).next < _ ∧ _ at hpb
          have hszc := ((w.setup_ok f.hN).obj (f.col.inv.objs c hc)).2.2
          rcases hcase with h1 | ⟨c', k', ec', hc', _⟩ | ⟨c', ec', hc'⟩
          · omega
          · have : c' = b := by omega
            subst this
            have := w.gen f.hN hc' (by omega) (by omega)
            subst this
            have := w.obj hc'
            omega
          · have : c' = b := by omega
            subst this
            have := w.static c' (i+1) hc' f.hN
            omega
      obtain ⟨q, q1, q2, q3⟩ := w.barrier k a j l b ha' hs' hj' he hbo hlk
      have hsame := f.old_remset_word (w.obj hbo).1 (by omega) q1 q2
      refine ⟨q, ?_, by rw [(hst l).2]; exact q2, by rw [hsame, q3]⟩
      by_cases c1 : l = i + 1
      · subst c1; rw [e1]; simp only; omega
      · rw [e2 l (by omega) c1]; exact q1
  · intro l q hl q1 q2
    rw [(hst l).2] at q2
    by_cases c0 : l = i
    · subst c0; rw [e0] at q1; simp only at q1; omega
    · by_cases cb : l < i
      · have hbel := w.below l cb
        rw [e2 l c0 (by omega)] at q1
        omega
      · have key : ∀ k a j, l ≤ k → a ∈ objs k → Scanned m a → j < blockSize m a → m' q = 8 * (a + j) →
            ∃ k a j, l ≤ k ∧ a ∈ newObjs (stepSetup m h objs roots i) objs i L k ∧ Scanned m' a ∧
              j < blockSize m' a ∧ m' q = 8 * (a + j) := by
          intro k a j hk ha hs hj he
          refine ⟨k, a, j, hk, ?_, ?_, ?_, he⟩
          · by_cases c1 : k = i + 1
            · subst c1; rw [hO1, List.mem_append]; exact Or.inl ha
            · rw [hOk k (by omega) c1]; exact ha
          · exact (hscan k a ha (by omega)).1.2 hs
          · rw [(hscan k a ha (by omega)).2]; exact hj
        by_cases c1 : l = i + 1
        · subst c1
          rw [e1] at q1
          simp only at q1
          by_cases hq : q < (h (i+1)).limit
          · obtain ⟨j, hj, he, hc⟩ := f.col.pushed q q1 hq
            have hnr : ¬ roots ((stepSetup m h objs roots i).entryAt j) := by
              intro hr
              obtain ⟨k, a, l, hk, ha, hs, hl, e⟩ := w.remset i ((h i).limit + j) w.pos (by omega) (by omega)
              have hxe : (stepSetup m h objs roots i).entryAt j = a + l := by
                show addrOf (m ((h i).limit + j)) = _
                rw [e]; unfold addrOf; omega
              rw [hxe] at hr
              have ho := w.obj ha
              have := w.rootsOut _ k hr ho.1
              have := w.order k ho.1
              omega
            obtain ⟨k, a, l, hk, ha, hs, hl, e⟩ := w.cell_old hc hnr
            rw [e] at he
            exact key k a l (by omega) ha hs hl he
          · have hsame := f.old_remset_word f.hN (by omega) (by omega) q2
            obtain ⟨k, a, l, hk, ha, hs, hl, e⟩ := w.remset (i+1) q f.hN (by omega) q2
            exact key k a l hk ha hs hl (by rw [hsame]; exact e)
        · rw [e2 l c0 c1] at q1
          have hsame := f.old_remset_word hl (by omega) q1 q2
          obtain ⟨k, a, l', hk, ha, hs, hl', e⟩ := w.remset l q hl q1 q2
          exact key k a l' hk ha hs hl' (by rw [hsame]; exact e)

open Classical in
/-- Collecting one generation preserves the reachable graph. -/
theorem sameGraph (f : StepFacts Static m h N objs roots i m' n T' L) :
    SameGraph Static (InHeap objs) (InHeap (newObjs (stepSetup m h objs roots i) objs i L)) roots m m' := by
  have w := f.wf
  have hlive : ∀ a, Reach (InHeap objs) m roots a → a ∈ objs i → a ∈ L := by
    have aux : ∀ {x v a : Nat}, ValidWord Static (InHeap objs) v →
        (stepSetup m h objs roots i).Done m' L x v → v = 8 * a → a ∈ objs i → a ∈ L := by
      intro x v a hv hd e ha
      rcases f.word hv hd with ⟨b, eb, hb, _⟩ | ⟨_, h1 | ⟨b, k, eb, hb, hk⟩ | ⟨b, eb, hb⟩⟩
      · have : a = b := by omega
        rw [this]; exact hb
      · omega
      · have : a = b := by omega
        subst this
        have ho := w.obj ha
        have := w.order i ho.1
        exact absurd (w.gen ho.1 hb (by omega) (by omega)) hk
      · have : a = b := by omega
        subst this
        have ho := w.obj ha
        have := w.order i ho.1
        have := w.static a i hb ho.1
        omega
    intro a hr
    induction hr with
    | @root x a hx e _ =>
      intro ha
      exact aux (w.rootVal x hx) (f.root_word hx) e ha
    | @field a j b _ hs hj e hB ih =>
      intro hb
      rename_i hra
      have : ∃ k, a ∈ objs k := by
        cases hra with
        | root _ _ h => exact h
        | field _ _ _ _ h => exact h
      obtain ⟨k, hk⟩ := this
      by_cases c : k = i
      · subst c
        exact aux (w.fieldVal k a j hk hs hj) (f.new_field (ih hk) hs hj) e hb
      · have : i < k := by
          by_contra hlt
          rw [(w.below k (by omega)).1] at hk
          cases hk
        exact aux (w.fieldVal k a j hk hs hj) (f.old_field hk this hs hj) e hb
  refine ⟨fun a => if a ∈ objs i then (stepSetup m h objs roots i).pos L a else a, ?_, ?_, ?_⟩
  · intro x hx
    rcases f.word (w.rootVal x hx) (f.root_word hx) with ⟨a, e, ha, he⟩ | ⟨he, h1 | ⟨a, k, e, ha, hk⟩ | ⟨a, e, ha⟩⟩
    · refine Or.inr (Or.inl ⟨a, e, ⟨i, f.col.inv.objs a ha⟩, ?_⟩)
      simp only
      rw [if_pos (show a ∈ objs i from f.col.inv.objs a ha)]; exact he
    · exact Or.inl ⟨h1, he⟩
    · refine Or.inr (Or.inl ⟨a, e, ⟨k, ha⟩, ?_⟩)
      have : ¬ a ∈ objs i := by
        intro hai
        have ho := w.obj ha
        have := w.order k ho.1
        exact hk (w.gen ho.1 hai (by omega) (by omega)).symm
      simp only
      rw [if_neg this, he, e]
    · exact Or.inr (Or.inr ⟨a, e, ha, he⟩)
  · have wordIso : ∀ {x v : Nat}, ValidWord Static (InHeap objs) v →
        (stepSetup m h objs roots i).Done m' L x v →
        WordIso Static (InHeap objs) (fun a => if a ∈ objs i then (stepSetup m h objs roots i).pos L a else a) v (m' x) := by
      intro x v hv hd
      rcases f.word hv hd with ⟨a, e, ha, he⟩ | ⟨he, h1 | ⟨a, k, e, ha, hk⟩ | ⟨a, e, ha⟩⟩
      · refine Or.inr (Or.inl ⟨a, e, ⟨i, f.col.inv.objs a ha⟩, ?_⟩)
        simp only
        rw [if_pos (show a ∈ objs i from f.col.inv.objs a ha)]; exact he
      · exact Or.inl ⟨h1, he⟩
      · refine Or.inr (Or.inl ⟨a, e, ⟨k, ha⟩, ?_⟩)
        have : ¬ a ∈ objs i := by
          intro hai
          have ho := w.obj ha
          have := w.order k ho.1
          exact hk (w.gen ho.1 hai (by omega) (by omega)).symm
        simp only
        rw [if_neg this, he, e]
      · exact Or.inr (Or.inr ⟨a, e, ha, he⟩)
    intro a hr
    have hB : ∃ k, a ∈ objs k := by
      cases hr with
      | root _ _ h => exact h
      | field _ _ _ _ h => exact h
    by_cases hai : a ∈ objs i
    · have haL := hlive a hr hai
      simp only
      rw [if_pos hai]
      refine ⟨⟨i + 1, ?_⟩, f.new_hdr haL, ?_⟩
      · simp only [newObjs]
        rw [if_neg (by omega), if_pos trivial, List.mem_append]
        exact Or.inr (List.mem_map_of_mem haL)
      · intro j hj
        refine ⟨fun hs => wordIso (w.fieldVal i a j hai hs hj) (f.new_field haL hs hj), fun hs => ?_⟩
        exact f.col.inv.raw a haL (fun h => hs (scannable_iff.1 h)) j hj
    · obtain ⟨k, hk⟩ := hB
      have hki : k ≠ i := fun e => hai (e ▸ hk)
      have hik : i < k := by
        by_contra hlt
        rw [(w.below k (by omega)).1] at hk
        cases hk
      simp only
      rw [if_neg hai]
      refine ⟨⟨k, ?_⟩, f.header hk hki, ?_⟩
      · simp only [newObjs]
        rw [if_neg hki]
        by_cases e1 : k = i + 1
        · subst e1; rw [if_pos rfl, List.mem_append]; exact Or.inl hk
        · rw [if_neg e1]; exact hk
      · intro j hj
        refine ⟨fun hs => wordIso (w.fieldVal k a j hk hs hj) (f.old_field hk hik hs hj), fun hs => ?_⟩
        have ho := w.obj hk
        have ok := w.order k ho.1
        have o0 := w.order i w.pos
        have o1 := w.order (i+1) f.hN
        have d := w.disj k i ho.1 w.pos hki
        refine f.same (by omega) ?_ ?_
        · by_cases e : k = i + 1
          · subst e; omega
          · have := w.disj k (i+1) ho.1 f.hN e
            omega
        · intro hc
          by_cases hr : roots (a + j)
          · have := w.rootsOut _ k hr ho.1
            omega
          · obtain ⟨k', b, l, _, hb, hsb, hl, e⟩ := w.cell_old hc hr
            have hob := w.obj hb
            by_cases ekk : k' = k
            · subst ekk
              by_cases eab : b = a
              · subst eab; exact hs hsb
              · have := blocks_disj (w.blocks k' ho.1) b hb a hk eab
                omega
            · have := w.disj k' k hob.1 ho.1 ekk
              have := w.order k' hob.1
              omega
  · intro a b hra hrb hab
    have hB : ∀ {a}, Reach (InHeap objs) m roots a → ∃ k, a ∈ objs k := by
      intro a hr
      cases hr with
      | root _ _ h => exact h
      | field _ _ _ _ h => exact h
    have cross : ∀ a b, a ∈ L → Reach (InHeap objs) m roots b → b ∉ objs i →
        (stepSetup m h objs roots i).pos L a = b → False := by
      intro a b ha hrb hb e
      obtain ⟨k, hk⟩ := hB hrb
      have hpb := pos_bounds (S := stepSetup m h objs roots i) ha
      rw [← f.col.inv.next] at hpb
      change (h (i+1)).next < _ ∧ _ at hpb
      have hsz := ((w.setup_ok f.hN).obj (f.col.inv.objs a ha)).2.2
      have hnb := f.n_bounds
      have o1 := w.order (i+1) f.hN
      have hk1 := w.gen f.hN hk (by omega) (by omega)
      subst hk1
      have := w.obj hk
      omega
    simp only at hab
    by_cases ha : a ∈ objs i
    · by_cases hb : b ∈ objs i
      · rw [if_pos ha, if_pos hb] at hab
        by_contra hne
        have haL := hlive a hra ha
        have hbL := hlive b hrb hb
        have := posOf_disj (stepSetup m h objs roots i).sz L a b haL hbL hne (stepSetup m h objs roots i).t0
        unfold Setup.pos at hab
        omega
      · rw [if_pos ha, if_neg hb] at hab
        exact absurd hab (fun e => cross a b (hlive a hra ha) hrb hb e)
    · by_cases hb : b ∈ objs i
      · rw [if_neg ha, if_pos hb] at hab
        exact absurd hab.symm (fun e => cross b a (hlive b hrb hb) hra ha e)
      · rw [if_neg ha, if_neg hb] at hab
        exact hab

end StepFacts
end
end GC
