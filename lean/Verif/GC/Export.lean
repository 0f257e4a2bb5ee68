import Verif.GC.ExportModel
import Verif.GC.Mutator

/-!
# Lemmas on `garbage_collect_all` and `export_heap`
-/

namespace GC
namespace Setup
variable {S : Setup}

/-- The first `forward` of a collection copies to the start of the free part of the to-space. -/
theorem forward_first (hS : S.OK) (D : Nat) {p : Nat} (hc : S.Cell p) (hf : S.FromPtr (S.m0 p)) :
    (forward S.fs S.fl D ⟨S.m0, S.t0⟩ p).mem p = ptr (S.t0 + 1) := by
  have hI := inv_init hS
  have hO : S.Orig [] p (S.m0 p) := Or.inl ⟨hc, rfl⟩
  have hobj := hO.val hS hI hf
  have hsz := (hS.obj hobj).2.2
  have hne : ¬ S.m0 (addrOf (S.m0 p) - 1) = 0 := by
    intro e; unfold sz at hsz; rw [e] at hsz; revert hsz; decide
  have hfr : isFrom S.fs S.fl (addrOf (S.m0 p)) = true := by
    unfold isFrom; simp only [Bool.and_eq_true, decide_eq_true_eq]; exact hf.2
  cases D with
  | zero =>
    rw [forward]
    simp only [hf.1, if_true, hfr, hne, if_false]
    exact upd_same _ _ _
  | succ d =>
    rw [forward]
    simp only [hf.1, if_true, hfr, hne, if_false]
    by_cases hns : noScan (tagOf (S.m0 (addrOf (S.m0 p) - 1))) = true
    · rw [if_pos hns]; exact upd_same _ _ _
    · rw [if_neg hns]
      have hsc : S.scannable (addrOf (S.m0 p)) := by unfold scannable; simpa using hns
      have hci := copy_inv hS hI hO rfl hf (by simp)
      simp only [copied] at hci
      obtain ⟨hI1, hD1, hS1, hF1⟩ := hci
      have hposa : S.pos ([] ++ [addrOf (S.m0 p)]) (addrOf (S.m0 p)) = S.t0 + 1 := by
        unfold pos; rw [posOf_append_new _ _ _ _ (by simp)]; rfl
      obtain ⟨L2, _, _, _, hF2⟩ := loop_spec (fun st p => forward S.fs S.fl d st p) (forward_spec hS d)
        (fun i => S.t0 + 1 + i) (fun i => S.m0 (addrOf (S.m0 p) + i)) (S.sz (addrOf (S.m0 p)))
        ⟨_, S.t0 + 1 + S.sz (addrOf (S.m0 p))⟩ _ hI1
        (fun j hj => Or.inr ⟨addrOf (S.m0 p), j, by simp, hsc, hj, by rw [hposa], rfl⟩)
      have := hF2 p (Or.inl hc) (by
        intro j hj e
        have h1 := hI1.next_le hS
        have h2 := (hS.cell hc).2.1
        omega)
      refine Eq.trans this ?_
      exact upd_same _ _ _

/-- The remembered set of a space that only records its own words is skipped. -/
theorem remLoop_own (D : Nat) {frm : Space} {m : Mem} (st : RS) (hm : st.mem = m) : ∀ k,
    (∀ j, j < k → frm.start ≤ addrOf (m (frm.limit + j)) ∧ addrOf (m (frm.limit + j)) < frm.limit) →
    forLoop k (fun i s => remStep D frm.start frm.limit (frm.limit + i) s) st = st := by
  intro k
  induction k with
  | zero => intro _; rfl
  | succ k ih =>
    intro h
    simp only [forLoop]
    rw [ih (fun j hj => h j (by omega))]
    unfold remStep
    simp only
    rw [hm, if_neg (not_not_intro (h k (by omega)))]

end Setup

open Setup

/-- The data describing the collection of a space with blocks `l` from the single root word `r`. -/
def ownSetup (m : Mem) (frm dst : Space) (l : List Nat) (r : Nat) : Setup where
  m0 := m
  fs := frm.start
  fl := frm.limit
  fe := frm.next
  t0 := dst.next
  tlim := dst.limit
  Obj := fun a => a ∈ l ∧ Reach (· ∈ l) m (· = r) a
  Cell := fun x => x = r
  Wr := fun _ => False

theorem blocks_nodup {m s l e} (h : Blocks m s l e) : l.Nodup := by
  induction h with
  | nil => exact List.nodup_nil
  | @cons s e l hsz hrest ih =>
    refine List.nodup_cons.2 ⟨fun hm => ?_, ih⟩
    have := blocks_mem hrest _ hm
    omega

/-- What is needed to compact a space with blocks `l` into `dst` from the root word `r`. -/
structure Compactable (Static : Nat → Prop) (m : Mem) (frm dst : Space) (l : List Nat) (r : Nat) : Prop where
  blocks : Blocks m frm.start l frm.next
  order : frm.next ≤ frm.limit ∧ frm.limit ≤ frm.remLimit
  own : ∀ q, frm.limit ≤ q → q < frm.remLimit → frm.start ≤ addrOf (m q) ∧ addrOf (m q) < frm.limit
  asserted : frm.remLimit - frm.limit ≤ dst.limit - dst.start
  empty : dst.next = dst.start ∧ dst.start ≤ dst.limit ∧ dst.limit = dst.remLimit
  room : frm.next - frm.start ≤ dst.limit - dst.start
  disj : frm.remLimit ≤ dst.start ∨ dst.limit ≤ frm.start
  rootF : r < frm.start ∨ frm.remLimit ≤ r
  rootD : r < dst.start ∨ dst.limit ≤ r
  static : ∀ x, Static x → x < frm.start ∨ frm.remLimit ≤ x
  rootVal : ∃ a ∈ l, m r = 8 * a
  fieldVal : ∀ a i, a ∈ l → Scanned m a → i < blockSize m a → ValidWord Static (· ∈ l) (m (a + i))

section
variable {Static : Nat → Prop} {m : Mem} {frm dst : Space} {l : List Nat} {r : Nat}

theorem Compactable.obj (c : Compactable Static m frm dst l r) {a : Nat} (ha : a ∈ l) :
    frm.start + 1 ≤ a ∧ a + blockSize m a ≤ frm.next ∧ 1 ≤ blockSize m a := blocks_mem c.blocks a ha

theorem ownSetup_scannable {a : Nat} : (ownSetup m frm dst l r).scannable a ↔ Scanned m a := by
  unfold Setup.scannable Scanned noScan tagOf ownSetup
  simp

theorem Compactable.valid_from (c : Compactable Static m frm dst l r) {v : Nat} (hv : ValidWord Static (· ∈ l) v)
    (hf : (ownSetup m frm dst l r).FromPtr v) : ∃ a, v = 8 * a ∧ a ∈ l ∧ addrOf v = a := by
  obtain ⟨hp, h1, h2⟩ := hf
  have ho := c.order
  change frm.start ≤ addrOf v at h1
  change addrOf v < frm.limit at h2
  rcases hv with hv | ⟨a, e, ha⟩ | ⟨a, e, ha⟩
  · unfold isPtr at hp; rw [beq_iff_eq] at hp; omega
  · exact ⟨a, e, ha, by rw [e]; unfold addrOf; omega⟩
  · have ea : addrOf v = a := by rw [e]; unfold addrOf; omega
    rw [ea] at h1 h2
    have := c.static a ha
    omega

theorem Compactable.from_valid (c : Compactable Static m frm dst l r) {a : Nat} (ha : a ∈ l) :
    (ownSetup m frm dst l r).FromPtr (8 * a) := by
  have := c.obj ha
  have ho := c.order
  refine ⟨?_, ?_, ?_⟩
  · unfold isPtr; rw [beq_iff_eq]; omega
  · change frm.start ≤ _; unfold addrOf; omega
  · change _ < frm.limit; unfold addrOf; omega

theorem Compactable.setup_ok (c : Compactable Static m frm dst l r) : (ownSetup m frm dst l r).OK := by
  have o0 := c.order
  have o1 := c.empty
  have hd := c.disj
  have hroom := c.room
  constructor
  · intro a ha
    have := c.obj ha.1
    change frm.start + 1 ≤ a ∧ a + blockSize m a ≤ frm.limit ∧ 1 ≤ blockSize m a
    omega
  · intro a b ha hb hab
    exact blocks_disj c.blocks a ha.1 b hb.1 hab
  · change frm.limit ≤ dst.next ∨ dst.limit ≤ frm.start
    omega
  · change frm.next ≤ frm.limit
    omega
  · intro a ha
    exact (c.obj ha.1).2.1
  · change dst.next + (frm.next - frm.start) ≤ dst.limit
    omega
  · intro x hx
    have h1 := c.rootF
    have h2 := c.rootD
    change x = r at hx
    subst hx
    change (x < frm.start ∨ frm.limit ≤ x) ∧ (x < dst.next ∨ dst.limit ≤ x) ∧ ¬ False
    refine ⟨by omega, by omega, id⟩
  · intro x hx; exact hx.elim
  · intro x hx hf
    change x = r at hx
    subst hx
    obtain ⟨a, ha, e⟩ := c.rootVal
    change addrOf (m x) ∈ l ∧ Reach _ m _ (addrOf (m x))
    have : addrOf (m x) = a := by rw [e]; unfold addrOf; omega
    rw [this]
    exact ⟨ha, .root rfl e ha⟩
  · intro a j ha hs hj hf
    obtain ⟨b, e, hb, e'⟩ := c.valid_from (c.fieldVal a j ha.1 (ownSetup_scannable.1 hs) hj) hf
    change addrOf (m (a + j)) ∈ l ∧ Reach _ m _ (addrOf (m (a + j)))
    rw [e']
    exact ⟨hb, .field ha.2 (ownSetup_scannable.1 hs) hj e hb⟩

theorem posOf_first {sz : Nat → Nat} {t a : Nat} {L : List Nat} (ha : a ∈ L) (h : posOf sz t L a = t + 1) :
    ∃ L', L = a :: L' := by
  cases L with
  | nil => cases ha
  | cons b L =>
    by_cases e : a = b
    · exact ⟨L, by rw [e]⟩
    · simp only [posOf] at h
      rw [if_neg e] at h
      have hm : a ∈ L := by
        cases ha with
        | head => exact absurd rfl e
        | tail _ h => exact h
      have := posOf_bounds sz L a hm (t + 1 + sz b)
      omega

/-- Compacting a space: what `do_generation` does when the remembered set of the from-space only concerns its own
blocks, and `dst` is empty and just large enough. -/
theorem Compactable.run (c : Compactable Static m frm dst l r) (D fuel : Nat) (hfuel : frm.limit - frm.start + 1 ≤ fuel) :
    ∃ m' e l', doGeneration D fuel m frm dst [⟨r, r + 1⟩] =
        .ok (m', { frm with next := frm.start, limit := frm.remLimit }, { dst with next := e }) ∧
      m' r = 8 * (dst.start + 1) ∧ Blocks m' dst.start ((dst.start + 1) :: l') e ∧
      e - dst.start ≤ frm.next - frm.start ∧ e ≤ dst.limit ∧
      ((∀ b ∈ l, Reach (· ∈ l) m (· = r) b) → e - dst.start = frm.next - frm.start) ∧
      SameGraph Static (· ∈ l) (· ∈ (dst.start + 1) :: l') (· = r) m m' ∧
      (∀ b ∈ (dst.start + 1) :: l', Reach (· ∈ (dst.start + 1) :: l') m' (· = r) b) ∧
      (∀ b i, b ∈ (dst.start + 1) :: l' → Scanned m' b → i < blockSize m' b →
        ValidWord Static (· ∈ (dst.start + 1) :: l') (m' (b + i))) ∧
      (∀ x, x ≠ r → (x < frm.start ∨ frm.limit ≤ x) → (x < dst.start ∨ dst.limit ≤ x) → m' x = m x) := by
  have hS := c.setup_ok
  obtain ⟨a0, ha0, hr0⟩ := c.rootVal
  have hcell : (ownSetup m frm dst l r).Cell r := rfl
  have hfrom : (ownSetup m frm dst l r).FromPtr (m r) := by rw [hr0]; exact c.from_valid ha0
  have haddr : addrOf (m r) = a0 := by rw [hr0]; unfold addrOf; omega
  have hfirst := forward_first hS D hcell hfrom
  have hw : ∀ x, rootCells [⟨r, r + 1⟩] x → x = r := by
    rintro x ⟨f, hf, h1, h2⟩
    rw [List.mem_singleton] at hf
    subst hf
    simp only at h1 h2
    omega
  obtain ⟨L1, hI1, hD1, _, _⟩ := forwardRoots_spec hS D [⟨r, r + 1⟩] ⟨m, dst.next⟩ [] (inv_init hS) hw
  have hroots : forwardRoots D (ownSetup m frm dst l r).fs (ownSetup m frm dst l r).fl [⟨r, r + 1⟩] ⟨m, dst.next⟩ =
      forward frm.start frm.limit D ⟨m, dst.next⟩ r := by
    simp only [forwardRoots, Nat.add_sub_cancel_left, forLoop, Nat.add_zero]
    rfl
  have hDr := hD1 r ⟨⟨r, r + 1⟩, by simp, by simp, by simp⟩
  obtain ⟨st', L, h1, h2, h3, _, M, h5⟩ := doScan_spec hS D fuel [] L1 _ (by simpa using hI1)
    (by simpa [ownSetup] using hfuel) (by
    intro x w hx
    rcases hx with ⟨hc, e⟩ | ⟨a, _, ha, _⟩
    · change x = r at hc
      subst hc; subst e; simpa using hDr
    · cases ha)
  have hrun : doGeneration D fuel m frm dst [⟨r, r + 1⟩] =
      .ok (st'.mem, { frm with next := frm.start, limit := frm.remLimit }, { dst with next := st'.next }) := by
    unfold doGeneration forwardRemset
    rw [if_pos c.asserted]
    simp only [Outcome.bind]
    rw [remLoop_own (m := m) D _ rfl _ (fun j hj => c.own _ (by omega) (by omega))]
    have : doScan D frm.start frm.limit fuel dst.next (forwardRoots D frm.start frm.limit [⟨r, r + 1⟩] ⟨m, dst.next⟩) =
        .ok st' := h1
    simp only [this]
  have hnext : st'.next = endOf (ownSetup m frm dst l r).sz dst.next L := h2.next
  have hle := h2.next_le hS
  change st'.next ≤ dst.limit at hle
  have hge : dst.next ≤ st'.next := by rw [hnext]; exact le_endOf _ _ _
  have hds := c.empty
  -- the root comes first
  have ha1 : a0 ∈ L1 := by have := hDr.2 hfrom; rwa [show addrOf ((ownSetup m frm dst l r).m0 r) = a0 from haddr] at this
  have hp1 : posOf (ownSetup m frm dst l r).sz dst.next L1 a0 = dst.next + 1 := by
    have e1 := hDr.1
    rw [hroots] at e1
    unfold fwv at e1
    rw [if_pos (show (ownSetup m frm dst l r).FromPtr ((ownSetup m frm dst l r).m0 r) from hfrom)] at e1
    have e2 : (forward frm.start frm.limit D ⟨m, dst.next⟩ r).mem r = ptr (dst.next + 1) := hfirst
    rw [e2] at e1
    have e3 : ptr (dst.next + 1) = ptr (posOf (ownSetup m frm dst l r).sz dst.next L1 (addrOf (m r))) := e1
    rw [haddr] at e3
    unfold ptr at e3
    omega
  have ha : a0 ∈ L := by rw [h5]; simp [ha1]
  have hp : posOf (ownSetup m frm dst l r).sz dst.next L a0 = dst.next + 1 := by
    rw [h5, List.nil_append, posOf_append _ _ _ _ ha1, hp1]
  obtain ⟨L', hL'⟩ := posOf_first ha hp
  have hmap : L.map (posOf (ownSetup m frm dst l r).sz dst.next L) =
      (dst.start + 1) :: L'.map (posOf (ownSetup m frm dst l r).sz dst.next L) := by
    rw [← hds.1, ← hp]
    conv_lhs => rw [hL']
    rw [List.map_cons, ← hL']
  have hin : ∀ a, a ∈ L → (ownSetup m frm dst l r).pos L a ∈
      (dst.start + 1) :: L'.map (posOf (ownSetup m frm dst l r).sz dst.next L) := by
    intro a h
    rw [← hmap]
    exact List.mem_map_of_mem h
  have hout : ∀ b, b ∈ (dst.start + 1) :: L'.map (posOf (ownSetup m frm dst l r).sz dst.next L) →
      ∃ a ∈ L, (ownSetup m frm dst l r).pos L a = b := by
    intro b h
    rw [← hmap] at h
    exact List.mem_map.1 h
  have hhdr : ∀ a ∈ L, st'.mem ((ownSetup m frm dst l r).pos L a - 1) = m (a - 1) := h2.hdr
  have hscan : ∀ a ∈ L, (Scanned st'.mem ((ownSetup m frm dst l r).pos L a) ↔ Scanned m a) ∧
      blockSize st'.mem ((ownSetup m frm dst l r).pos L a) = blockSize m a := by
    intro a h
    unfold Scanned blockSize
    rw [hhdr a h]
    exact ⟨Iff.rfl, rfl⟩
  have hword : ∀ {x v : Nat}, ValidWord Static (· ∈ l) v → (ownSetup m frm dst l r).Done st'.mem L x v →
      (∃ a, v = 8 * a ∧ a ∈ L ∧ st'.mem x = 8 * (ownSetup m frm dst l r).pos L a) ∨
      (st'.mem x = v ∧ (v % 2 = 1 ∨ ∃ a, v = 8 * a ∧ Static a)) := by
    intro x v hv hd
    by_cases hf : (ownSetup m frm dst l r).FromPtr v
    · obtain ⟨a, e, _, ea⟩ := c.valid_from hv hf
      refine Or.inl ⟨a, e, by rw [← ea]; exact hd.2 hf, ?_⟩
      have := hd.1
      unfold fwv at this
      rw [if_pos hf, ea] at this
      exact this
    · have he : st'.mem x = v := by
        have := hd.1
        unfold fwv at this
        rwa [if_neg hf] at this
      refine Or.inr ⟨he, ?_⟩
      rcases hv with hv | ⟨a, e, hal⟩ | hv
      · exact Or.inl hv
      · exact absurd (by rw [e]; exact c.from_valid hal) hf
      · exact Or.inr hv
  have hroot : st'.mem r = 8 * (ownSetup m frm dst l r).pos L a0 := by
    rcases hword (Or.inr (Or.inl ⟨a0, hr0, ha0⟩)) (h3 r (m r) (Or.inl ⟨hcell, rfl⟩)) with ⟨a, e, _, e'⟩ | ⟨_, h | ⟨a, e, hs⟩⟩
    · have : a = a0 := by omega
      subst this; exact e'
    · omega
    · have : a = a0 := by omega
      subst this
      have := c.static a hs
      have := c.obj ha0
      have := c.order
      omega
  have hfield : ∀ {a j : Nat}, a ∈ L → Scanned m a → j < blockSize m a →
      (ownSetup m frm dst l r).Done st'.mem L ((ownSetup m frm dst l r).pos L a + j) (m (a + j)) :=
    fun hL hs hj => h3 _ _ (Or.inr ⟨_, _, hL, ownSetup_scannable.2 hs, hj, rfl, rfl⟩)
  have hobjL : ∀ a ∈ L, a ∈ l ∧ Reach (· ∈ l) m (· = r) a := h2.objs
  have hlive : ∀ a, Reach (· ∈ l) m (· = r) a → a ∈ L := by
    intro a hr
    induction hr with
    | @root x a hx e _ =>
      subst hx
      have : a = a0 := by omega
      rw [this]; exact ha
    | @field a j b hra hs hj e hB ih =>
      rcases hword (c.fieldVal a j (reach_in hra) hs hj) (hfield ih hs hj) with ⟨d, e', hd, _⟩ | ⟨_, h | ⟨d, e', hd⟩⟩
      · have : d = b := by omega
        rw [← this]; exact hd
      · omega
      · have : d = b := by omega
        subst this
        have := c.static d hd
        have := c.obj hB
        have := c.order
        omega
  have hreach' : ∀ a, Reach (· ∈ l) m (· = r) a →
      Reach (· ∈ (dst.start + 1) :: L'.map (posOf (ownSetup m frm dst l r).sz dst.next L)) st'.mem (· = r)
        ((ownSetup m frm dst l r).pos L a) := by
    intro a hr
    induction hr with
    | @root x a hx e hB =>
      subst hx
      have : a = a0 := by omega
      subst this
      exact .root rfl hroot (hin a ha)
    | @field a j b hra hs hj e hB ih =>
      have haL := hlive a hra
      have hbL := hlive b (.field hra hs hj e hB)
      refine .field ih ((hscan a haL).1.2 hs) (by rw [(hscan a haL).2]; exact hj) ?_ (hin b hbL)
      rcases hword (c.fieldVal a j (reach_in hra) hs hj) (hfield haL hs hj) with ⟨d, e', hd, e''⟩ | ⟨_, h | ⟨d, e', hd⟩⟩
      · have : d = b := by omega
        rw [← this]; exact e''
      · omega
      · have : d = b := by omega
        subst this
        have := c.static d hd
        have := c.obj hB
        have := c.order
        omega
  refine ⟨st'.mem, st'.next, L'.map (posOf (ownSetup m frm dst l r).sz dst.next L), hrun, ?_, ?_, ?_, hle, ?_, ?_, ?_, ?_, ?_⟩
  · rw [hroot, ← hds.1]
    exact congrArg (8 * ·) hp
  · rw [← hmap, hnext, ← hds.1]
    refine blocks_new L _ h2.nodup (fun a h => (hS.obj (h2.objs a h)).2.2) (fun a h => ?_)
    have := hhdr a h
    unfold Setup.pos at this
    change st'.mem (posOf _ dst.next L a - 1) = _ at this
    rw [this]; rfl
  · have := last_le hS h2.nodup h2.objs
    rw [← h2.next] at this
    change st'.next ≤ dst.next + (frm.next - frm.start) at this
    omega
  · intro hall
    have hperm : List.Perm L l := (List.perm_ext_iff_of_nodup h2.nodup (blocks_nodup c.blocks)).2
      (fun a => ⟨fun h => (hobjL a h).1, fun h => hlive a (hall a h)⟩)
    have h1 := endOf_sum (ownSetup m frm dst l r).sz L dst.next
    have h2' : (L.map (fun a => (ownSetup m frm dst l r).sz a + 1)).sum = (l.map (fun a => blockSize m a + 1)).sum :=
      (hperm.map _).sum_eq
    have h3' := blocks_sum c.blocks
    omega
  · have wordIso : ∀ {x v : Nat}, ValidWord Static (· ∈ l) v → (ownSetup m frm dst l r).Done st'.mem L x v →
        WordIso Static (· ∈ l) ((ownSetup m frm dst l r).pos L) v (st'.mem x) := by
      intro x v hv hd
      rcases hword hv hd with ⟨a, e, haL, he⟩ | ⟨he, h1 | ⟨a, e, ha⟩⟩
      · exact Or.inr (Or.inl ⟨a, e, (hobjL a haL).1, he⟩)
      · exact Or.inl ⟨h1, he⟩
      · exact Or.inr (Or.inr ⟨a, e, ha, he⟩)
    refine ⟨(ownSetup m frm dst l r).pos L, ?_, ?_, ?_⟩
    · intro x hx
      subst hx
      exact Or.inr (Or.inl ⟨a0, hr0, ha0, hroot⟩)
    · intro a hra
      have haL := hlive a hra
      refine ⟨hin a haL, hhdr a haL, fun j hj => ⟨fun hs => ?_, fun hs => ?_⟩⟩
      · exact wordIso (c.fieldVal a j (reach_in hra) hs hj) (hfield haL hs hj)
      · exact h2.raw a haL (fun h => hs (ownSetup_scannable.1 h)) j hj
    · intro a b hra hrb e
      by_contra hne
      have := posOf_disj (ownSetup m frm dst l r).sz L a b (hlive a hra) (hlive b hrb) hne dst.next
      change posOf (ownSetup m frm dst l r).sz dst.next L a = posOf (ownSetup m frm dst l r).sz dst.next L b at e
      omega
  · intro b hb
    obtain ⟨a, haL, rfl⟩ := hout b hb
    exact hreach' a (hobjL a haL).2
  · intro b i hb hs hi
    obtain ⟨a, haL, rfl⟩ := hout b hb
    rw [(hscan a haL).1] at hs
    rw [(hscan a haL).2] at hi
    rcases hword (c.fieldVal a i (hobjL a haL).1 hs hi) (hfield haL hs hi) with ⟨d, _, hd, e⟩ | ⟨e, h⟩
    · exact Or.inr (Or.inl ⟨_, e, hin d hd⟩)
    · rw [e]
      rcases h with h | h
      · exact Or.inl h
      · exact Or.inr (Or.inr h)
  · intro x hx hf hd
    exact h2.frame x hf (by change x < dst.next ∨ st'.next ≤ x; omega) hx id

end

/-- How the remembered set and the allocation pointer of the next generation change. -/
theorem WF.iterate_rem {Static : Nat → Prop} {m : Mem} {h : Heap} {N i : Nat} {objs : Nat → List Nat} {fr : List Frame}
    (w : WF Static m h N objs (Roots fr) i) (hN : i + 1 < N) {D fuel : Nat} (hfuel : (h i).size < fuel)
    {m' : Mem} {s t : Space} (hg : doGeneration D fuel m (h i) (h (i+1)) fr = .ok (m', s, t)) :
    t.remLimit - t.limit ≤ ((h i).remLimit - (h i).limit) + ((h (i+1)).remLimit - (h (i+1)).limit) ∧
    (h (i+1)).next ≤ t.next := by
  have o0 := w.order i w.pos
  have o1 := w.order (i+1) hN
  obtain ⟨m2, n, T', L, hg', hc⟩ := doGeneration_spec (w.setup_ok hN) D fuel (h i) (h (i+1)) fr rfl rfl rfl o1.1 (w.rem_ok hN)
    (fun x hx => Or.inl hx)
    (fun x hx => by
      rcases hx with hx | ⟨_, j, hj, e⟩
      · exact Or.inl hx
      · exact Or.inr ⟨j, hj, e⟩)
    (by
      change (h i).limit - (h i).start + 1 ≤ fuel
      unfold Space.size at hfuel
      omega)
  have f : StepFacts Static m h N objs (Roots fr) i m2 n T' L := ⟨w, hN, hc⟩
  have hb := f.n_bounds
  have hl := hc.lo
  have hh : (stepSetup m h objs (Roots fr) i).m0 = m := rfl
  rw [hh, hg] at hg'
  cases hg'
  simp only
  omega

/-- `garbage_collect_all` runs through all generations and leaves everything in the last one. -/
theorem gcAllLoop_spec {Static : Nat → Prop} (D fuel : Nat) : ∀ (n i : Nat) (ti : TI) (N : Nat) (objs : Nat → List Nat),
    WF Static ti.mem ti.heap N objs (Roots ti.fp) i → N ≤ i + n + 1 → (∀ j, j < N → (ti.heap j).size < fuel) →
    ∃ ti' objs', gcAllLoop D fuel n i ti = .ok (ti', N - 1) ∧ ti'.fp = ti.fp ∧ ti'.alloc = ti.alloc ∧
      ti'.limit = ti.limit ∧ ti'.nalloc = ti.nalloc ∧
      WF Static ti'.mem ti'.heap N objs' (Roots ti.fp) (N - 1) ∧
      SameGraph Static (InHeap objs) (InHeap objs') (Roots ti.fp) ti.mem ti'.mem ∧
      (∀ k, (ti'.heap k).start = (ti.heap k).start ∧ (ti'.heap k).remLimit = (ti.heap k).remLimit) ∧
      (ti'.heap (N - 1)).remLimit - (ti'.heap (N - 1)).limit ≤
        ∑ k ∈ Finset.Ico i N, ((ti.heap k).remLimit - (ti.heap k).limit) ∧
      (ti.heap (N - 1)).next ≤ (ti'.heap (N - 1)).next ∧
      (∀ x, ¬ Roots ti.fp x → (∀ k, k < N → x < (ti.heap k).start ∨ (ti.heap k).remLimit ≤ x) →
        ti'.mem x = ti.mem x) := by
  intro n
  induction n with
  | zero =>
    intro i ti N objs w hn hfuel
    have hi := w.pos
    obtain rfl : i = N - 1 := by omega
    refine ⟨ti, objs, rfl, rfl, rfl, rfl, rfl, w, SameGraph.refl' w, fun _ => ⟨rfl, rfl⟩, ?_, le_refl _, fun _ _ _ => rfl⟩
    rw [Finset.sum_eq_sum_Ico_succ_bot hi]
    omega
  | succ n ih =>
    intro i ti N objs w hn hfuel
    have hi := w.pos
    rw [gcAllLoop]
    by_cases hN : i + 1 < N
    · have hst := w.inUse (i+1) hN
      rw [if_pos (by omega)]
      obtain ⟨m', h', objs', hg, hh, hext, w', g, _, hsame, hout⟩ := w.iterate hN D fuel (hfuel i hi)
      obtain ⟨r1, r2⟩ := w.iterate_rem hN (hfuel i hi) hg
      rw [hg]
      simp only [Outcome.bind]
      rw [← hh]
      have hsz : ∀ j, (h' j).size = (ti.heap j).size := by
        intro j; unfold Space.size; rw [(hext j).1, (hext j).2]
      obtain ⟨ti', objs2, e1, e2, e3, e4, e5, w2, g2, x2, b2, b3, o2⟩ := ih (i+1) { ti with mem := m', heap := h' } N objs' w'
        (by omega) (fun j hj => by show (h' j).size < fuel; rw [hsz]; exact hfuel j hj)
      refine ⟨ti', objs2, e1, e2, e3, e4, e5, w2, g.trans' w.static_not w'.static_not g2, ?_, ?_, ?_, ?_⟩
      · intro k
        exact ⟨(x2 k).1.trans (hext k).1, (x2 k).2.trans (hext k).2⟩
      · refine le_trans b2 ?_
        rw [Finset.sum_eq_sum_Ico_succ_bot hi, Finset.sum_eq_sum_Ico_succ_bot hN, Finset.sum_eq_sum_Ico_succ_bot hN]
        have : ∑ k ∈ Finset.Ico (i + 1 + 1) N, ((h' k).remLimit - (h' k).limit) =
            ∑ k ∈ Finset.Ico (i + 1 + 1) N, ((ti.heap k).remLimit - (ti.heap k).limit) := by
          refine Finset.sum_congr rfl (fun k hk => ?_)
          rw [Finset.mem_Ico] at hk
          rw [hsame k (by omega)]
        simp only
        rw [this]
        omega
      · refine le_trans ?_ b3
        show (ti.heap (N-1)).next ≤ (h' (N-1)).next
        by_cases c : i + 1 = N - 1
        · rw [← c]; exact r2
        · rw [hsame _ (by omega)]
      · intro x hx hxo
        refine (o2 x hx (fun k hk => ?_)).trans (hout x hx hxo)
        show x < (h' k).start ∨ (h' k).remLimit ≤ x
        rw [(hext k).1, (hext k).2]; exact hxo k hk
    · obtain rfl : i = N - 1 := by omega
      have hz := (w.unused (N - 1 + 1) (by omega)).1
      rw [if_neg (by omega)]
      refine ⟨ti, objs, rfl, rfl, rfl, rfl, rfl, w, SameGraph.refl' w, fun _ => ⟨rfl, rfl⟩, ?_, le_refl _, fun _ _ _ => rfl⟩
      rw [Finset.sum_eq_sum_Ico_succ_bot hi]
      omega

theorem roots_single (r x : Nat) : Roots [⟨r, r + 1⟩] x ↔ x = r := by
  unfold Roots
  simp only [List.mem_singleton, exists_eq_left]
  omega

theorem reachFrom_of {B : Nat → Prop} {m : Mem} {r w a : Nat} (hw : m r = w) (h : Reach B m (· = r) a) :
    ReachFrom B m w a := by
  induction h with
  | @root x a hx e hb => subst hx; exact .here (hw ▸ e) hb
  | field _ hs hi e hb ih => exact .field ih hs hi e hb

/-- A graph copied from a root word outside the blocks is a deep copy of the value stored there. -/
theorem deepCopy_of {Static B B' : Nat → Prop} {m m' : Mem} {r w w' : Nat}
    (hB : ∀ a, B a → a - 1 ≠ r ∧ ∀ i, i < blockSize m a → a + i ≠ r) (hw : m' r = w')
    (g : SameGraph Static B B' (· = r) (upd m r w) m') : DeepCopy Static B B' m w m' w' := by
  have hhd : ∀ a, B a → upd m r w (a - 1) = m (a - 1) := fun a ha => upd_other (hB a ha).1
  have hfl : ∀ a i, B a → i < blockSize m a → upd m r w (a + i) = m (a + i) := fun a i ha hi => upd_other ((hB a ha).2 i hi)
  have hsz : ∀ a, B a → (Scanned (upd m r w) a ↔ Scanned m a) ∧ blockSize (upd m r w) a = blockSize m a := by
    intro a ha
    unfold Scanned blockSize
    rw [hhd a ha]
    exact ⟨Iff.rfl, rfl⟩
  have hin : ∀ a, ReachFrom B m w a → B a := by
    intro a h
    cases h with
    | here _ h => exact h
    | field _ _ _ _ h => exact h
  have hre : ∀ a, ReachFrom B m w a → Reach B (upd m r w) (· = r) a := by
    intro a h
    induction h with
    | here e hb => exact .root rfl (by rw [upd_same]; exact e) hb
    | @field a i b ha hs hi e hb ih =>
      have hBa := hin a ha
      exact .field ih ((hsz a hBa).1.2 hs) (by rw [(hsz a hBa).2]; exact hi) (by rw [hfl a i hBa hi]; exact e) hb
  obtain ⟨ψ, h1, h2, h3⟩ := g
  refine ⟨ψ, ?_, ?_, fun a b ha hb e => h3 a b (hre a ha) (hre b hb) e⟩
  · have := h1 r rfl
    rwa [upd_same, hw] at this
  · intro a ha
    have hBa := hin a ha
    obtain ⟨g1, g2, g3⟩ := h2 a (hre a ha)
    refine ⟨g1, by rw [g2, hhd a hBa], fun i hi => ?_⟩
    have := g3 i (by rw [(hsz a hBa).2]; exact hi)
    rw [(hsz a hBa).1, hfl a i hBa hi] at this
    exact this

/-- What a successful export guarantees: the word `8 * (v + 1)` is returned, where `n` words at `v` were allocated for
the copy. -/
structure Exported (Static : Nat → Prop) (mallocF mallocV : Nat → Option Nat) (r : Nat) (ti ti' : TI) (N : Nat)
    (objs : Nat → List Nat) (root v n : Nat) (l : List Nat) : Prop where
  malloc : mallocV n = some v
  blocks : Blocks ti'.mem v ((v + 1) :: l) (v + n)
  copy : DeepCopy Static (InHeap objs) (· ∈ (v + 1) :: l) ti.mem root ti'.mem (8 * (v + 1))
  live : ∀ b ∈ (v + 1) :: l, ReachFrom (· ∈ (v + 1) :: l) ti'.mem (8 * (v + 1)) b
  closed : ∀ b i, b ∈ (v + 1) :: l → Scanned ti'.mem b → i < blockSize ti'.mem b →
    ValidWord Static (· ∈ (v + 1) :: l) (ti'.mem (b + i))
  fp : ti'.fp = [⟨r, r + 1⟩]
  mutator : ti'.alloc = ti.alloc ∧ ti'.limit = ti.limit ∧ ti'.nalloc = ti.nalloc
  empty : ∀ k, k < N → (ti'.heap k).start = (ti.heap k).start ∧ (ti'.heap k).remLimit = (ti.heap k).remLimit ∧
    (ti'.heap k).next = (ti'.heap k).start ∧ (ti'.heap k).limit = (ti'.heap k).remLimit
  outside : ∃ f nf, mallocF nf = some f ∧ ∀ x, x ≠ r → (∀ k, k < N → x < (ti.heap k).start ∨ (ti.heap k).remLimit ≤ x) →
    (x < f ∨ f + nf ≤ x) → (x < v ∨ v + n ≤ x) → ti'.mem x = ti.mem x

theorem exportHeap_spec {Static : Nat → Prop} {D fuel : Nat} {mallocF mallocV : Nat → Option Nat} {r a : Nat} {ti : TI}
    {N : Nat} {objs : Nat → List Nat} (w : MutatorOK Static ti N objs) (hN : N ≤ maxSpaces)
    (hr : ∀ k, k < N → r < (ti.heap k).start ∨ (ti.heap k).remLimit ≤ r)
    (hm : ExportMallocOK Static ti.heap N r mallocF mallocV) (hf : ∀ k, k < N → (ti.heap k).size < fuel)
    (ha : InHeap objs a) :
    (exportHeap D fuel mallocF mallocV r ti (8 * a) = .abort ∧
      ((∃ n, n ≤ (ti.heap (N - 1)).size ∧ mallocF n = none) ∨ (∃ n, n ≤ (ti.heap (N - 1)).size ∧ mallocV n = none) ∨
        (currentHeap ti (N - 1)).next - (currentHeap ti (N - 1)).start <
          ∑ k ∈ Finset.range N, ((currentHeap ti k).remLimit - (currentHeap ti k).limit))) ∨
    ∃ ti' v n l, exportHeap D fuel mallocF mallocV r ti (8 * a) = .ok (ti', 8 * (v + 1)) ∧
      Exported Static mallocF mallocV r ti ti' N objs (8 * a) v n l := by
  have hext : ∀ k, (currentHeap ti k).start = (ti.heap k).start ∧ (currentHeap ti k).remLimit = (ti.heap k).remLimit := by
    intro k; unfold currentHeap
    by_cases c : k = 0
    · subst c; exact ⟨rfl, rfl⟩
    · rw [if_neg c]; exact ⟨rfl, rfl⟩
  have hobj : ∀ b, InHeap objs b → b - 1 ≠ r ∧ ∀ i, i < blockSize ti.mem b → b + i ≠ r := by
    rintro b ⟨k, hb⟩
    have ho := w.obj hb
    have hord := w.order k ho.1
    have := hr k ho.1
    rw [← (hext k).1, ← (hext k).2] at this
    refine ⟨by omega, fun i hi => by omega⟩
  have w0 : MutatorOK Static { ti with mem := upd ti.mem r (8 * a), fp := [⟨r, r + 1⟩] } N objs :=
    roots_ok (m' := upd ti.mem r (8 * a)) (fp' := [⟨r, r + 1⟩]) (nalloc' := ti.nalloc) w
      (fun x k hk h1 h2 => upd_other (by have := hr k hk; omega))
      (fun x k hx hk => by rw [roots_single] at hx; rw [hx]; exact hr k hk)
      (fun x hx => by
        rw [roots_single] at hx
        rw [hx, upd_same]
        exact Or.inr (Or.inl ⟨a, rfl, ha⟩))
  have hcur : setSpace ti.heap 0 { ti.heap 0 with limit := ti.limit, next := ti.alloc } = currentHeap ti := by
    funext k; unfold setSpace currentHeap
    by_cases c : k = 0
    · rw [if_pos c]
    · rw [if_neg c]
  have hsize : ∀ k, (currentHeap ti k).size = (ti.heap k).size := by
    intro k; unfold Space.size; rw [(hext k).1, (hext k).2]
  obtain ⟨t1, objs1, e1, f1, f2, f3, f4, w1, g1, x1, b1, b2, o1⟩ := gcAllLoop_spec D fuel (maxSpaces - 1) 0
    { ti with mem := upd ti.mem r (8 * a), fp := [⟨r, r + 1⟩], heap := currentHeap ti } N objs w0
    (by unfold maxSpaces at hN ⊢; omega) (fun j hj => by show (currentHeap ti j).size < fuel; rw [hsize]; exact hf j hj)
  simp only at f1 f2 f3 f4 w1 g1 x1 b1 b2 o1
  have hroots : Roots [⟨r, r + 1⟩] = (· = r) := by funext x; exact propext (roots_single r x)
  rw [hroots] at w1 g1 o1
  have hpos := w1.pos
  have hx1 : ∀ k, (t1.heap k).start = (ti.heap k).start ∧ (t1.heap k).remLimit = (ti.heap k).remLimit :=
    fun k => ⟨(x1 k).1.trans (hext k).1, (x1 k).2.trans (hext k).2⟩
  have hgca : garbageCollectAll D fuel { ti with mem := upd ti.mem r (8 * a), fp := [⟨r, r + 1⟩] } = .ok (t1, N - 1) := by
    unfold garbageCollectAll
    simp only [hcur]
    exact e1
  have hptr : isPtr (8 * a) = true := by unfold isPtr; rw [beq_iff_eq]; omega
  unfold exportHeap
  simp only [hptr, if_true, hgca, Outcome.bind]
  -- blocks are all in the last generation
  have hlast : ∀ b, InHeap objs1 b ↔ b ∈ objs1 (N - 1) := by
    intro b
    refine ⟨fun ⟨k, hb⟩ => ?_, fun h => ⟨_, h⟩⟩
    have hk := (w1.obj hb).1
    by_cases c : k = N - 1
    · rw [← c]; exact hb
    · rw [(w1.below k (by omega)).1] at hb; cases hb
  have hlast' : InHeap objs1 = (· ∈ objs1 (N - 1)) := by funext b; exact propext (hlast b)
  have ord := w1.order (N - 1) hpos
  have hsz1 : (t1.heap (N - 1)).size < fuel := by
    unfold Space.size; rw [(hx1 _).1, (hx1 _).2]; exact hf _ hpos
  have hsz2 : (t1.heap (N - 1)).size = (ti.heap (N - 1)).size := by
    unfold Space.size; rw [(hx1 _).1, (hx1 _).2]
  unfold Space.size at hsz1
  cases hF : mallocF ((t1.heap (N - 1)).next - (t1.heap (N - 1)).start) with
  | none => exact Or.inl ⟨rfl, Or.inl ⟨_, by rw [← hsz2]; unfold Space.size; omega, hF⟩⟩
  | some f =>
    simp only
    by_cases hass : (t1.heap (N - 1)).remLimit - (t1.heap (N - 1)).limit ≤ (t1.heap (N - 1)).next - (t1.heap (N - 1)).start
    swap
    · left
      refine ⟨?_, Or.inr (Or.inr ?_)⟩
      · unfold doGeneration forwardRemset createSpace
        simp only [Nat.add_sub_cancel_left]
        rw [if_neg hass]
        rfl
      · rw [Finset.range_eq_Ico, (hext (N-1)).1]
        rw [(hx1 (N-1)).1] at hass
        omega
    have hFf := hm.freshF _ _ hF
    have hFd := hFf.1 (N - 1) hpos
    rw [← (hx1 _).1, ← (hx1 _).2] at hFd
    have hFr := hFf.2 r (Or.inr rfl)
    have c1 : Compactable Static t1.mem (t1.heap (N - 1))
        (createSpace f ((t1.heap (N - 1)).next - (t1.heap (N - 1)).start)) (objs1 (N - 1)) r := by
      refine ⟨w1.blocks _ hpos, ⟨ord.2.1, ord.2.2⟩, ?_, ?_, ?_, ?_, ?_, ?_, ?_, ?_, ?_, ?_⟩
      · intro q h1 h2
        obtain ⟨k, b, i, hk, hb, _, hi, e⟩ := w1.remset (N - 1) q hpos h1 h2
        have hob := w1.obj hb
        have : k = N - 1 := by omega
        subst this
        have : addrOf (t1.mem q) = b + i := by rw [e]; unfold addrOf; omega
        rw [this]
        omega
      · simp only [createSpace]; omega
      · simp [createSpace]
      · simp [createSpace]
      · simp only [createSpace]; omega
      · exact w1.rootsOut r _ rfl hpos
      · simp only [createSpace]; omega
      · exact fun x hx => w1.static x _ hx hpos
      · obtain ⟨ψ, h1, h2, _⟩ := g1
        have := h1 r rfl
        rw [upd_same] at this
        rcases this with ⟨o, _⟩ | ⟨b, e, hb, e'⟩ | ⟨b, e, hs, _⟩
        · omega
        · refine ⟨ψ b, (hlast _).1 (h2 b (.root rfl (by rw [upd_same]; exact e) hb)).1, e'⟩
        · have : b = a := by omega
          subst this
          exact absurd ha (w.static_not b hs)
      · intro b i hb hs hi
        rw [← hlast']
        exact w1.fieldVal _ b i hb hs hi
    obtain ⟨m2, e2, l2, r1, r2, r3, r4, r5, _, r7, r8, r9, r10⟩ := c1.run D fuel (by omega)
    rw [f1, r1]
    simp only [createSpace] at r2 r3 r4 r5 r7 r8 r9 r10 ⊢
    have hle2 := blocks_le r3
    cases hV : mallocV (e2 - f) with
    | none => exact Or.inl ⟨rfl, Or.inr (Or.inl ⟨_, by rw [← hsz2]; unfold Space.size; omega, hV⟩)⟩
    | some v =>
      right
      simp only
      have hVf := hm.freshV _ _ hV
      have hVr := hVf.2 r (Or.inr rfl)
      have hFV := hm.apart _ _ _ _ hF hV
      have c2 : Compactable Static m2
          { start := f, next := e2, limit := f + ((t1.heap (N - 1)).next - (t1.heap (N - 1)).start),
            remLimit := f + ((t1.heap (N - 1)).next - (t1.heap (N - 1)).start) }
          { start := v, next := v, limit := v + (e2 - f), remLimit := v + (e2 - f) } ((f + 1) :: l2) r := by
        refine ⟨r3, ⟨r5, le_refl _⟩, ?_, ?_, ?_, ?_, ?_, ?_, ?_, ?_, ?_, ?_⟩
        · intro q h1 h2; simp only at h1 h2; omega
        · simp
        · simp
        · simp
        · simp only; omega
        · simp only; omega
        · simp only; omega
        · intro x hx
          have := hFf.2 x (Or.inl hx)
          simp only; omega
        · exact ⟨f + 1, List.mem_cons_self, r2⟩
        · exact r9
      obtain ⟨m3, e3, l3, s1, s2, s3, s4, s5, s6, s7, s8, s9, s10⟩ := c2.run D fuel (by simp only; omega)
      simp only at s2 s3 s4 s5 s6 s7 s8 s9 s10
      have he3 : e3 = v + (e2 - f) := by
        have := s6 r8
        have := blocks_le s3
        omega
      subst he3
      rw [s1]
      simp only
      have hstB : ∀ x, Static x → ¬ x ∈ (f + 1) :: l2 := by
        intro x hx hm'
        have := blocks_mem r3 x hm'
        have := hFf.2 x (Or.inl hx)
        omega
      refine ⟨_, v, e2 - f, l3, rfl, ⟨hV, s3, ?_, fun b hb => reachFrom_of s2 (s8 b hb), s9, rfl, ⟨f2, f3, f4⟩, ?_, ?_⟩⟩
      · refine deepCopy_of hobj s2 ?_
        have g2 := g1.trans' (B3 := (· ∈ (f + 1) :: l2)) w0.static_not w1.static_not (by rw [hlast']; exact r7)
        exact g2.trans' w0.static_not hstB s7
      · intro k hk
        simp only [setSpace]
        by_cases c : k = N - 1
        · rw [if_pos c, c]
          exact ⟨(hx1 _).1, (hx1 _).2, rfl, rfl⟩
        · rw [if_neg c]
          have := w1.below k (by omega)
          exact ⟨(hx1 _).1, (hx1 _).2, this.2.1, this.2.2⟩
      · refine ⟨f, _, hF, ?_⟩
        intro x hx hxk hxf hxv
        have h3 := s10 x hx hxf hxv
        have h2 := r10 x hx (by
          have := hxk _ hpos
          rw [← (hx1 _).1, ← (hx1 _).2] at this
          omega) hxf
        have h1 := o1 x hx (fun k hk => by rw [(hext k).1, (hext k).2]; exact hxk k hk)
        exact (h3.trans (h2.trans h1)).trans (upd_other hx)

end GC
