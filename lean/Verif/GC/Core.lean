import Verif.GC.Model
import Mathlib.Algebra.BigOperators.Group.Finset.Basic
import Mathlib.Algebra.Order.BigOperators.Group.Finset
import Mathlib.Data.Finset.Card
import Mathlib.Order.Interval.Finset.Nat
import Mathlib.Tactic.Ring
import Mathlib.Tactic.Linarith

/-!
# One collection: the Cheney invariant

Ghost state: the list `L` of already copied from-space blocks in copying order. The new address of a block is
determined by `L` (`posOf`).
-/

namespace GC

theorem upd_same (m : Mem) (a v : Nat) : upd m a v a = v := by simp [upd]
theorem upd_other {m : Mem} {a v x : Nat} (h : x ≠ a) : upd m a v x = m x := by simp [upd, h]

/-- Address of block `a` when the blocks in `L` are laid out one after the other from `t`. -/
def posOf (sz : Nat → Nat) : Nat → List Nat → Nat → Nat
  | t, [], _ => t
  | t, b :: L, a => if a = b then t + 1 else posOf sz (t + 1 + sz b) L a

/-- First free address behind the blocks in `L` laid out from `t`. -/
def endOf (sz : Nat → Nat) : Nat → List Nat → Nat
  | t, [] => t
  | t, b :: L => endOf sz (t + 1 + sz b) L

theorem endOf_append (sz : Nat → Nat) (L M : List Nat) : ∀ t, endOf sz t (L ++ M) = endOf sz (endOf sz t L) M := by
  induction L with
  | nil => intro t; rfl
  | cons b L ih => intro t; exact ih _

theorem le_endOf (sz : Nat → Nat) (L : List Nat) : ∀ t, t ≤ endOf sz t L := by
  induction L with
  | nil => intro t; exact le_refl _
  | cons b L ih => intro t; have := ih (t + 1 + sz b); simp only [endOf]; omega

theorem posOf_bounds (sz : Nat → Nat) (L : List Nat) (a : Nat) (h : a ∈ L) :
    ∀ t, t < posOf sz t L a ∧ posOf sz t L a + sz a ≤ endOf sz t L := by
  induction L with
  | nil => cases h
  | cons b L ih =>
    intro t
    simp only [posOf, endOf]
    by_cases e : a = b
    · subst e; rw [if_pos rfl]
      have := le_endOf sz L (t + 1 + sz a); omega
    · rw [if_neg e]
      have hm : a ∈ L := by cases h with
        | head => exact absurd rfl e
        | tail _ h => exact h
      have := ih hm (t + 1 + sz b); omega

theorem posOf_append (sz : Nat → Nat) (L M : List Nat) (a : Nat) (h : a ∈ L) :
    ∀ t, posOf sz t (L ++ M) a = posOf sz t L a := by
  induction L with
  | nil => cases h
  | cons b L ih =>
    intro t
    simp only [List.cons_append, posOf]
    by_cases e : a = b
    · rw [if_pos e, if_pos e]
    · rw [if_neg e, if_neg e]
      have hm : a ∈ L := by cases h with
        | head => exact absurd rfl e
        | tail _ h => exact h
      exact ih hm _

theorem posOf_append_new (sz : Nat → Nat) (L M : List Nat) (a : Nat) (h : a ∉ L) :
    ∀ t, posOf sz t (L ++ a :: M) a = endOf sz t L + 1 := by
  induction L with
  | nil => intro t; simp [posOf, endOf]
  | cons b L ih =>
    intro t
    simp only [List.cons_append, posOf, endOf]
    have hb : ¬ a = b := fun e => h (e ▸ List.mem_cons_self)
    rw [if_neg hb]
    exact ih (fun hm => h (List.mem_cons_of_mem _ hm)) _

theorem posOf_disj (sz : Nat → Nat) (L : List Nat) (a b : Nat) (ha : a ∈ L) (hb : b ∈ L) (hab : a ≠ b) :
    ∀ t, posOf sz t L a + sz a + 1 ≤ posOf sz t L b ∨ posOf sz t L b + sz b + 1 ≤ posOf sz t L a := by
  induction L with
  | nil => cases ha
  | cons c L ih =>
    intro t
    simp only [posOf]
    by_cases e1 : a = c
    · subst e1
      rw [if_pos rfl, if_neg (Ne.symm hab)]
      have hm : b ∈ L := by cases hb with
        | head => exact absurd rfl hab
        | tail _ h => exact h
      have := posOf_bounds sz L b hm (t + 1 + sz a); omega
    · rw [if_neg e1]
      have hm : a ∈ L := by cases ha with
        | head => exact absurd rfl e1
        | tail _ h => exact h
      by_cases e2 : b = c
      · subst e2
        rw [if_pos rfl]
        have := posOf_bounds sz L a hm (t + 1 + sz b); omega
      · rw [if_neg e2]
        have hm2 : b ∈ L := by cases hb with
          | head => exact absurd rfl e2
          | tail _ h => exact h
        exact ih hm hm2 _

theorem copyFields_eq (m : Mem) (v newv : Nat) (sz : Nat) (h : v + sz ≤ newv ∨ newv + sz ≤ v) (x : Nat) :
    copyFields m v newv sz x = if newv ≤ x ∧ x < newv + sz then m (v + (x - newv)) else m x := by
  unfold copyFields
  induction sz generalizing x with
  | zero => simp only [forLoop]; rw [if_neg (by omega)]
  | succ n ih =>
    simp only [forLoop]
    by_cases e : x = newv + n
    · subst e
      rw [upd_same, if_pos (by omega), ih (by omega), if_neg (by omega)]
      congr 1; omega
    · rw [upd_other e, ih (by omega)]
      by_cases h1 : newv ≤ x ∧ x < newv + n
      · rw [if_pos h1, if_pos (by omega)]
      · rw [if_neg h1, if_neg (by omega)]

/-- Everything that is fixed during one collection: initial memory, from-space `[fs, fl)` with its blocks in `[fs, fe)`,
free part of the to-space `[t0, tlim)`, the from-space blocks `Obj`, the cells outside that may be updated (`Cell`) and the words overwritten by
growth of the to-space's remembered set (`Wr`). -/
structure Setup where
  m0 : Mem
  fs : Nat
  fl : Nat
  fe : Nat
  t0 : Nat
  tlim : Nat
  Obj : Nat → Prop
  Cell : Nat → Prop
  Wr : Nat → Prop

namespace Setup
variable (S : Setup)

def sz (a : Nat) : Nat := wosize (S.m0 (a - 1))
def scannable (a : Nat) : Prop := noScan (tagOf (S.m0 (a - 1))) = false
def FromPtr (w : Nat) : Prop := isPtr w = true ∧ S.fs ≤ addrOf w ∧ addrOf w < S.fl
def pos (L : List Nat) (a : Nat) : Nat := posOf S.sz S.t0 L a
def last (L : List Nat) : Nat := endOf S.sz S.t0 L

structure OK : Prop where
  obj : ∀ {a}, S.Obj a → S.fs + 1 ≤ a ∧ a + S.sz a ≤ S.fl ∧ 1 ≤ S.sz a
  objDisj : ∀ {a b}, S.Obj a → S.Obj b → a ≠ b → a + S.sz a + 1 ≤ b ∨ b + S.sz b + 1 ≤ a
  ft : S.fl ≤ S.t0 ∨ S.tlim ≤ S.fs
  usedLe : S.fe ≤ S.fl
  inUsed : ∀ {a}, S.Obj a → a + S.sz a ≤ S.fe
  room : S.t0 + (S.fe - S.fs) ≤ S.tlim
  cell : ∀ {x}, S.Cell x → (x < S.fs ∨ S.fl ≤ x) ∧ (x < S.t0 ∨ S.tlim ≤ x) ∧ ¬ S.Wr x
  wr : ∀ {x}, S.Wr x → (x < S.fs ∨ S.fl ≤ x) ∧ (x < S.t0 ∨ S.tlim ≤ x)
  cellVal : ∀ {x}, S.Cell x → S.FromPtr (S.m0 x) → S.Obj (addrOf (S.m0 x))
  fieldVal : ∀ {a i}, S.Obj a → S.scannable a → i < S.sz a → S.FromPtr (S.m0 (a + i)) → S.Obj (addrOf (S.m0 (a + i)))

/-- `x` is a word the collector may forward and `w` is what it held originally. -/
def Orig (L : List Nat) (x w : Nat) : Prop :=
  (S.Cell x ∧ w = S.m0 x) ∨
  ∃ a i, a ∈ L ∧ S.scannable a ∧ i < S.sz a ∧ x = S.pos L a + i ∧ w = S.m0 (a + i)

open Classical in
/-- The forwarded form of a word. -/
noncomputable def fwv (L : List Nat) (w : Nat) : Nat := if S.FromPtr w then ptr (S.pos L (addrOf w)) else w

def Done (m : Mem) (L : List Nat) (x w : Nat) : Prop :=
  m x = S.fwv L w ∧ (S.FromPtr w → addrOf w ∈ L)

structure Inv (m : Mem) (n : Nat) (L : List Nat) : Prop where
  nodup : L.Nodup
  objs : ∀ a ∈ L, S.Obj a
  next : n = S.last L
  fwd : ∀ a ∈ L, m (a - 1) = 0 ∧ m a = ptr (S.pos L a)
  keep : ∀ a, S.Obj a → a ∉ L → ∀ i, i ≤ S.sz a → m (a - 1 + i) = S.m0 (a - 1 + i)
  hdr : ∀ a ∈ L, m (S.pos L a - 1) = S.m0 (a - 1)
  raw : ∀ a ∈ L, ¬ S.scannable a → ∀ i, i < S.sz a → m (S.pos L a + i) = S.m0 (a + i)
  cell : ∀ x w, S.Orig L x w → m x = w ∨ S.Done m L x w
  frame : ∀ x, (x < S.fs ∨ S.fl ≤ x) → (x < S.t0 ∨ n ≤ x) → ¬ S.Cell x → ¬ S.Wr x → m x = S.m0 x

/-- Progress made by a step of the collector. -/
structure Step (L : List Nat) (m : Mem) (L' : List Nat) (m' : Mem) : Prop where
  ext : ∃ M, L' = L ++ M
  mono : ∀ x w, S.Orig L x w → S.Done m L x w → S.Done m' L' x w

variable {S}

theorem pos_append {L : List Nat} {a : Nat} (h : a ∈ L) (M : List Nat) : S.pos (L ++ M) a = S.pos L a :=
  posOf_append _ _ _ _ h _

theorem pos_bounds {L : List Nat} {a : Nat} (h : a ∈ L) : S.t0 < S.pos L a ∧ S.pos L a + S.sz a ≤ S.last L :=
  posOf_bounds _ _ _ h _

theorem Orig.append {L : List Nat} {x w : Nat} (h : S.Orig L x w) (M : List Nat) : S.Orig (L ++ M) x w := by
  rcases h with h | ⟨a, i, ha, hs, hi, hx, hw⟩
  · exact Or.inl h
  · exact Or.inr ⟨a, i, List.mem_append_left _ ha, hs, hi, by rw [pos_append ha]; exact hx, hw⟩

theorem Step.refl (L : List Nat) (m : Mem) : S.Step L m L m := ⟨⟨[], by simp⟩, fun _ _ _ h => h⟩

theorem Step.trans {L L' L'' : List Nat} {m m' m'' : Mem} (h : S.Step L m L' m') (h' : S.Step L' m' L'' m'') :
    S.Step L m L'' m'' := by
  obtain ⟨M, rfl⟩ := h.ext
  obtain ⟨M', rfl⟩ := h'.ext
  exact ⟨⟨M ++ M', by simp⟩, fun x w ho hd => h'.mono x w (ho.append M) (h.mono x w ho hd)⟩

theorem Step.orig {L L' : List Nat} {m m' : Mem} (h : S.Step L m L' m') {x w : Nat} (ho : S.Orig L x w) :
    S.Orig L' x w := by
  obtain ⟨M, rfl⟩ := h.ext
  exact ho.append M

theorem fwv_append {L : List Nat} {w : Nat} (h : S.FromPtr w → addrOf w ∈ L) (M : List Nat) :
    S.fwv (L ++ M) w = S.fwv L w := by
  unfold fwv
  by_cases hf : S.FromPtr w
  · rw [if_pos hf, if_pos hf, pos_append (h hf)]
  · rw [if_neg hf, if_neg hf]

theorem Done.append {m m' : Mem} {L : List Nat} {x w : Nat} (h : S.Done m L x w) (M : List Nat) (e : m' x = m x) :
    S.Done m' (L ++ M) x w :=
  ⟨by rw [e, h.1, fwv_append h.2], fun hf => List.mem_append_left _ (h.2 hf)⟩

/-- The blocks in `L` fit into the from-space, so their copies fit into the same amount of room. -/
theorem last_le (hS : S.OK) {L : List Nat} (hn : L.Nodup) (ho : ∀ a ∈ L, S.Obj a) : S.last L ≤ S.t0 + (S.fe - S.fs) := by
  have hsum : ∀ (L : List Nat) t, endOf S.sz t L = t + (L.map (fun a => S.sz a + 1)).sum := by
    intro L
    induction L with
    | nil => intro t; simp [endOf]
    | cons b L ih => intro t; simp only [endOf, ih, List.map_cons, List.sum_cons]; omega
  unfold last
  rw [hsum]
  have h1 : (L.map (fun a => S.sz a + 1)).sum = ∑ a ∈ L.toFinset, (S.sz a + 1) := by
    rw [List.sum_toFinset _ hn]
  have h2 : ∑ a ∈ L.toFinset, (S.sz a + 1) = (L.toFinset.biUnion (fun a => Finset.Ico (a - 1) (a + S.sz a))).card := by
    rw [Finset.card_biUnion]
    · apply Finset.sum_congr rfl
      intro a ha
      have := hS.obj (ho a (List.mem_toFinset.1 ha))
      rw [Nat.card_Ico]; omega
    · intro a ha b hb hab
      have h1 := hS.objDisj (ho a (List.mem_toFinset.1 ha)) (ho b (List.mem_toFinset.1 hb)) hab
      have h2 := hS.obj (ho a (List.mem_toFinset.1 ha))
      have h3 := hS.obj (ho b (List.mem_toFinset.1 hb))
      show Disjoint (Finset.Ico _ _) (Finset.Ico _ _)
      rw [Finset.disjoint_left]
      intro x hx hy
      rw [Finset.mem_Ico] at hx hy
      omega
  have h3 : (L.toFinset.biUnion (fun a => Finset.Ico (a - 1) (a + S.sz a))) ⊆ Finset.Ico S.fs S.fe := by
    intro x hx
    rw [Finset.mem_biUnion] at hx
    obtain ⟨a, ha, hx⟩ := hx
    have := hS.obj (ho a (List.mem_toFinset.1 ha))
    have := hS.inUsed (ho a (List.mem_toFinset.1 ha))
    rw [Finset.mem_Ico] at hx ⊢
    omega
  have h4 := Finset.card_le_card h3
  rw [Nat.card_Ico] at h4
  omega

theorem Inv.next_le (hS : S.OK) {m n L} (h : S.Inv m n L) : n ≤ S.tlim := by
  rw [h.next]; exact le_trans (last_le hS h.nodup h.objs) hS.room

/-- A forwardable word lies outside the from-space, and inside the filled part of the to-space or outside of it. -/
theorem Orig.loc (hS : S.OK) {m n L} (hI : S.Inv m n L) {x w : Nat} (h : S.Orig L x w) :
    (x < S.fs ∨ S.fl ≤ x) ∧ ((S.Cell x ∧ (x < S.t0 ∨ S.tlim ≤ x)) ∨ (S.t0 < x ∧ x < n)) := by
  rcases h with ⟨hc, _⟩ | ⟨a, i, ha, _, hi, hx, _⟩
  · exact ⟨(hS.cell hc).1, Or.inl ⟨hc, (hS.cell hc).2.1⟩⟩
  · have hb := pos_bounds (S := S) ha
    have hn := hI.next_le hS
    have ht := hS.ft
    have := hI.next
    omega

/-- The original content of a forwardable word is determined by its address. -/
theorem Orig.det (hS : S.OK) {m n L} (hI : S.Inv m n L) {x w w' : Nat} (h : S.Orig L x w) (h' : S.Orig L x w') :
    w = w' := by
  have hn := hI.next_le hS
  have hne := hI.next
  rcases h with ⟨hc, e⟩ | ⟨a, i, ha, _, hi, hx, hw⟩ <;> rcases h' with ⟨hc', e'⟩ | ⟨a', i', ha', _, hi', hx', hw'⟩
  · rw [e, e']
  · have := pos_bounds (S := S) ha'
    have := (hS.cell hc).2.1
    omega
  · have := pos_bounds (S := S) ha
    have := (hS.cell hc').2.1
    omega
  · by_cases e : a = a'
    · subst e
      have : i = i' := by omega
      rw [hw, hw', this]
    · have := posOf_disj S.sz L a a' ha ha' e S.t0
      unfold pos at hx hx'
      omega

theorem Orig.val (hS : S.OK) {m n L} (hI : S.Inv m n L) {x w : Nat} (h : S.Orig L x w) (hf : S.FromPtr w) :
    S.Obj (addrOf w) := by
  rcases h with ⟨hc, e⟩ | ⟨a, i, ha, hs, hi, hx, hw⟩
  · subst e; exact hS.cellVal hc hf
  · subst hw; exact hS.fieldVal (hI.objs a ha) hs hi hf

theorem isPtr_ptr (a : Nat) : isPtr (ptr a) = true := by
  unfold isPtr ptr; rw [beq_iff_eq]; omega

theorem addrOf_ptr (a : Nat) : addrOf (ptr a) = a := by unfold addrOf ptr; omega

/-- A word that has been forwarded no longer points into the from-space. -/
theorem Done.notFrom (hS : S.OK) {m n L} (hI : S.Inv m n L) {m' : Mem} {x w : Nat} (h : S.Done m' L x w) :
    ¬ S.FromPtr (m' x) := by
  intro hf
  rw [h.1] at hf
  unfold fwv at hf
  by_cases hw : S.FromPtr w
  · rw [if_pos hw] at hf
    have hb := pos_bounds (S := S) (h.2 hw)
    have hsz := (hS.obj (hI.objs _ (h.2 hw))).2.2
    have := hf.2
    rw [addrOf_ptr] at this
    have hn := hI.next_le hS
    have := hI.next
    have ht := hS.ft
    omega
  · rw [if_neg hw] at hf; exact hw hf

/-- The memory after copying the block at `a` and updating the word `p` (gc_stack.c:198-210). -/
def copied (S : Setup) (m : Mem) (n a p : Nat) : Mem :=
  let hd := m (a - 1)
  let newv := n + 1
  let m1 := upd m (newv - 1) hd
  let m2 := copyFields m1 a newv (wosize hd)
  let m3 := upd m2 (a - 1) 0
  let m4 := upd m3 a (ptr newv)
  upd m4 p (ptr newv)

theorem copied_spec (hS : S.OK) {m n L} (hI : S.Inv m n L) {p a : Nat} (ho : S.Obj a) (ha : a ∉ L)
    (hp1 : p < S.fs ∨ S.fl ≤ p) (hp2 : p < n ∨ S.tlim ≤ p) :
    n + 1 + S.sz a ≤ S.tlim ∧
    copied S m n a p p = ptr (n + 1) ∧
    copied S m n a p a = ptr (n + 1) ∧
    copied S m n a p (a - 1) = 0 ∧
    copied S m n a p n = S.m0 (a - 1) ∧
    (∀ i, i < S.sz a → copied S m n a p (n + 1 + i) = S.m0 (a + i)) ∧
    (∀ x, x ≠ p → x ≠ a → x ≠ a - 1 → (x < n ∨ n + 1 + S.sz a ≤ x) → copied S m n a p x = m x) := by
  have hb := hS.obj ho
  have hle := last_le hS (L := L ++ [a])
    (by rw [List.nodup_append]; exact ⟨hI.nodup, by simp, by intro x hx y hy; simp at hy; subst hy; exact fun e => ha (e ▸ hx)⟩)
    (by intro x hx; rw [List.mem_append] at hx; rcases hx with hx | hx
        · exact hI.objs x hx
        · simp at hx; subst hx; exact ho)
  unfold last at hle
  rw [endOf_append] at hle
  simp only [endOf] at hle
  have hnx := hI.next
  unfold last at hnx
  rw [← hnx] at hle
  have hroom := hS.room
  have hft := hS.ft
  have htn : S.t0 ≤ n := by rw [hnx]; exact le_endOf _ _ _
  have hkeep := hI.keep a ho ha
  have hhd : m (a - 1) = S.m0 (a - 1) := by have := hkeep 0 (by omega); simpa using this
  have hfld : ∀ i, i < S.sz a → m (a + i) = S.m0 (a + i) := by
    intro i hi
    have := hkeep (i + 1) (by omega)
    rw [show a - 1 + (i + 1) = a + i by omega] at this
    exact this
  have hsz : wosize (m (a - 1)) = S.sz a := by rw [hhd]; rfl
  have hn1 : n + 1 + S.sz a ≤ S.tlim := by omega
  refine ⟨hn1, ?_⟩
  unfold copied
  simp only [hsz, Nat.add_sub_cancel]
  have hcf := copyFields_eq (upd m n (m (a - 1))) a (n + 1) (S.sz a) (by omega)
  refine ⟨upd_same _ _ _, ?_, ?_, ?_, ?_, ?_⟩
  · rw [upd_other (by omega), upd_same]
  · rw [upd_other (by omega), upd_other (by omega), upd_same]
  · rw [upd_other (by omega), upd_other (by omega), upd_other (by omega), hcf, if_neg (by omega), upd_same, hhd]
  · intro i hi
    rw [upd_other (by omega), upd_other (by omega), upd_other (by omega), hcf, if_pos (by omega),
      upd_other (by omega), show a + (n + 1 + i - (n + 1)) = a + i by omega, hfld i hi]
  · intro x h1 h2 h3 h4
    rw [upd_other h1, upd_other h2, upd_other h3, hcf, if_neg (by omega), upd_other (by omega)]

/-- Copying one block keeps the invariant. -/
theorem copy_inv (hS : S.OK) {m n L} (hI : S.Inv m n L) {p w : Nat} (hO : S.Orig L p w) (hw : m p = w)
    (hf : S.FromPtr w) (ha : addrOf w ∉ L) :
    let a := addrOf w
    let m' := copied S m n a p
    S.Inv m' (n + 1 + S.sz a) (L ++ [a]) ∧ S.Done m' (L ++ [a]) p w ∧ S.Step L m (L ++ [a]) m' ∧
    (∀ x, (S.Cell x ∨ S.Wr x) → x ≠ p → m' x = m x) := by
  intro a m'
  have ha : a ∉ L := ha
  have hobj : S.Obj a := hO.val hS hI hf
  have htn : S.t0 ≤ n := by rw [hI.next]; exact le_endOf _ _ _
  have hloc := hO.loc hS hI
  have hnt := hI.next_le hS
  have hft := hS.ft
  have hob := hS.obj hobj
  obtain ⟨hroom, hp, hca, hca1, hcn, hcf, hco⟩ := copied_spec hS hI hobj ha hloc.1 (by omega)
  have hposa : S.pos (L ++ [a]) a = n + 1 := by
    unfold pos; rw [posOf_append_new _ _ _ _ ha, hI.next]; rfl
  have hpos : ∀ b ∈ L, S.pos (L ++ [a]) b = S.pos L b := fun b hb => pos_append hb _
  have hlast : S.last (L ++ [a]) = n + 1 + S.sz a := by
    unfold last; rw [endOf_append, hI.next]; simp [endOf, last]
  have htn : S.t0 ≤ n := by rw [hI.next]; exact le_endOf _ _ _
  -- membership
  have hmem : ∀ b, b ∈ L ++ [a] ↔ b ∈ L ∨ b = a := by intro b; simp
  have hdone : S.Done m' (L ++ [a]) p w := by
    refine ⟨?_, fun _ => (hmem _).2 (Or.inr rfl)⟩
    unfold fwv
    rw [if_pos hf]
    show _ = ptr (S.pos (L ++ [a]) a)
    rw [hposa]; exact hp
  -- words of other from-space blocks
  have hother : ∀ b, S.Obj b → b ≠ a → ∀ i, i ≤ S.sz b → m' (b - 1 + i) = m (b - 1 + i) := by
    intro b hb hne i hi
    have h1 := hS.obj hb
    have h2 := hS.objDisj hb hobj hne
    apply hco <;> omega
  -- words of existing copies that are not `p`
  have hcopy : ∀ b ∈ L, ∀ x, S.pos L b - 1 ≤ x → x < S.pos L b + S.sz b → x ≠ p → m' x = m x := by
    intro b hb x h1 h2 h3
    have := pos_bounds (S := S) hb
    rw [← hI.next] at this
    apply hco <;> omega
  have hmono : ∀ x w, S.Orig L x w → x ≠ p → m' x = m x := by
    intro x w' hx hne
    have := hx.loc hS hI
    apply hco <;> omega
  refine ⟨?_, hdone, ⟨⟨[a], rfl⟩, ?_⟩, ?_⟩
  · constructor
    · rw [List.nodup_append]
      exact ⟨hI.nodup, by simp, by intro x hx y hy; simp at hy; subst hy; exact fun e => ha (e ▸ hx)⟩
    · intro b hb
      rcases (hmem b).1 hb with h | h
      · exact hI.objs b h
      · rw [h]; exact hobj
    · exact hlast.symm
    · intro b hb
      rcases (hmem b).1 hb with h | h
      · have hne : b ≠ a := fun e => ha (e ▸ h)
        have hb' := hS.obj (hI.objs b h)
        have h0 := hother b (hI.objs b h) hne 0 (by omega)
        have h1 := hother b (hI.objs b h) hne 1 (by omega)
        rw [show b - 1 + 1 = b by omega] at h1
        rw [show b - 1 + 0 = b - 1 by omega] at h0
        rw [h0, h1, hpos b h]
        exact hI.fwd b h
      · rw [h, hposa]; exact ⟨hca1, hca⟩
    · intro b hb hbL i hi
      have hne : b ≠ a := fun e => hbL ((hmem b).2 (Or.inr e))
      rw [hother b hb hne i hi]
      exact hI.keep b hb (fun h => hbL ((hmem b).2 (Or.inl h))) i hi
    · intro b hb
      rcases (hmem b).1 hb with h | h
      · have hne : S.pos L b - 1 ≠ p := by
          intro e
          -- `p` is a field of a copied block or a cell, never a header
          rcases hO with ⟨hc, _⟩ | ⟨c, i, hc, _, hi, hx, _⟩
          · have := pos_bounds (S := S) h
            have := (hS.cell hc).2.1
            have := hI.next
            omega
          · by_cases hcb : c = b
            · subst hcb
              have := pos_bounds (S := S) hc
              omega
            · have := posOf_disj S.sz L c b hc h hcb S.t0
              unfold pos at hx e
              have h1 := posOf_bounds S.sz L b h S.t0
              omega
        rw [hpos b h, hcopy b h _ (le_refl _) (by have := pos_bounds (S := S) h; have := hS.obj (hI.objs b h); omega) hne]
        exact hI.hdr b h
      · rw [h, hposa]; exact hcn
    · intro b hb hns i hi
      rcases (hmem b).1 hb with h | h
      · have hne : S.pos L b + i ≠ p := by
          intro e
          rcases hO with ⟨hc, _⟩ | ⟨c, j, hc, hsc, hj, hx, _⟩
          · have := pos_bounds (S := S) h
            have := (hS.cell hc).2.1
            have := hI.next
            omega
          · by_cases hcb : c = b
            · subst hcb; exact hns hsc
            · have := posOf_disj S.sz L c b hc h hcb S.t0
              unfold pos at hx e
              omega
        rw [hpos b h, hcopy b h _ (by omega) (by omega) hne]
        exact hI.raw b h hns i hi
      · subst h; rw [hposa]; exact hcf i hi
    · intro x w' hx
      -- classify
      by_cases hxp : x = p
      · subst hxp
        have hww : w' = w := by
          rcases hx with ⟨hc, e⟩ | ⟨b, i, hb, hs, hi, hx, hw'⟩
          · exact Orig.det hS hI (Or.inl ⟨hc, e⟩) hO
          · rcases (hmem b).1 hb with h | h
            · exact Orig.det hS hI (Or.inr ⟨b, i, h, hs, hi, by rw [hx, hpos b h], hw'⟩) hO
            · rw [h, hposa] at hx; exfalso; rw [h] at hi; omega
        subst hww
        exact Or.inr hdone
      · rcases hx with ⟨hc, e⟩ | ⟨b, i, hb, hs, hi, hx, hw'⟩
        · have hox : S.Orig L x w' := Or.inl ⟨hc, e⟩
          have he := hmono x w' hox hxp
          rcases hI.cell x w' hox with h | h
          · left; rw [he, h]
          · right; exact h.append [a] he
        · rcases (hmem b).1 hb with h | h
          · have hox : S.Orig L x w' := Or.inr ⟨b, i, h, hs, hi, by rw [hx, hpos b h], hw'⟩
            have he := hmono x w' hox hxp
            rcases hI.cell x w' hox with h | h
            · left; rw [he, h]
            · right; exact h.append [a] he
          · left
            subst h
            rw [hx, hposa, hw']
            exact hcf i hi
    · intro x h1 h2 h3 h4
      have hne : x ≠ p := by
        intro e
        subst e
        rcases hloc.2 with h | h
        · exact h3 h.1
        · omega
      show copied S m n a p x = _
      rw [hco x hne (by omega) (by omega) (by omega)]
      exact hI.frame x h1 (by omega) h3 h4
  · intro x w' hx hd
    by_cases hxp : x = p
    · subst hxp
      have hww : w' = w := hx.det hS hI hO
      subst hww
      exact absurd hf (by rw [← hw]; exact hd.notFrom hS hI)
    · exact hd.append [a] (hmono x w' hx hxp)
  · intro x hx hne
    have h1 : (x < S.fs ∨ S.fl ≤ x) ∧ (x < S.t0 ∨ S.tlim ≤ x) := by
      rcases hx with hx | hx
      · exact ⟨(hS.cell hx).1, (hS.cell hx).2.1⟩
      · exact hS.wr hx
    apply hco <;> omega

/-- Updating `p` to the forwarding address of an already copied block. -/
theorem fwd_inv (hS : S.OK) {m n L} (hI : S.Inv m n L) {p w : Nat} (hO : S.Orig L p w)
    (hf : S.FromPtr w) (ha : addrOf w ∈ L) :
    let m' := upd m p (ptr (S.pos L (addrOf w)))
    S.Inv m' n L ∧ S.Done m' L p w ∧ S.Step L m L m' ∧ (∀ x, (S.Cell x ∨ S.Wr x) → x ≠ p → m' x = m x) := by
  intro m'
  have hloc := hO.loc hS hI
  have hnt := hI.next_le hS
  have hdone : S.Done m' L p w := by
    refine ⟨?_, fun _ => ha⟩
    unfold fwv
    rw [if_pos hf]
    exact upd_same _ _ _
  refine ⟨?_, hdone, ⟨⟨[], by simp⟩, ?_⟩, fun x _ hne => upd_other hne⟩
  · constructor
    · exact hI.nodup
    · exact hI.objs
    · exact hI.next
    · intro b hb
      have hb' := hS.obj (hI.objs b hb)
      show upd m p _ (b - 1) = 0 ∧ upd m p _ b = _
      rw [upd_other (by omega), upd_other (by omega)]
      exact hI.fwd b hb
    · intro b hb hbL i hi
      have hb' := hS.obj hb
      show upd m p _ _ = _
      rw [upd_other (by omega)]
      exact hI.keep b hb hbL i hi
    · intro b h
      have hne : S.pos L b - 1 ≠ p := by
        intro e
        rcases hO with ⟨hc, _⟩ | ⟨c, i, hc, _, hi, hx, _⟩
        · have := pos_bounds (S := S) h
          have := (hS.cell hc).2.1
          have := hI.next
          omega
        · by_cases hcb : c = b
          · subst hcb
            have := pos_bounds (S := S) hc
            omega
          · have := posOf_disj S.sz L c b hc h hcb S.t0
            unfold pos at hx e
            have h1 := posOf_bounds S.sz L b h S.t0
            omega
      show upd m p _ _ = _
      rw [upd_other hne]
      exact hI.hdr b h
    · intro b h hns i hi
      have hne : S.pos L b + i ≠ p := by
        intro e
        rcases hO with ⟨hc, _⟩ | ⟨c, j, hc, hsc, hj, hx, _⟩
        · have := pos_bounds (S := S) h
          have := (hS.cell hc).2.1
          have := hI.next
          omega
        · by_cases hcb : c = b
          · subst hcb; exact hns hsc
          · have := posOf_disj S.sz L c b hc h hcb S.t0
            unfold pos at hx e
            omega
      show upd m p _ _ = _
      rw [upd_other hne]
      exact hI.raw b h hns i hi
    · intro x w' hx
      by_cases hxp : x = p
      · subst hxp
        have hww : w' = w := hx.det hS hI hO
        subst hww
        exact Or.inr hdone
      · have he : m' x = m x := upd_other hxp
        rcases hI.cell x w' hx with h | h
        · left; rw [he, h]
        · right; exact ⟨by rw [he]; exact h.1, h.2⟩
    · intro x h1 h2 h3 h4
      have hne : x ≠ p := by
        intro e
        subst e
        rcases hloc.2 with h | h
        · exact h3 h.1
        · omega
      show upd m p _ _ = _
      rw [upd_other hne]
      exact hI.frame x h1 h2 h3 h4
  · intro x w' hx hd
    by_cases hxp : x = p
    · subst hxp
      have hww : w' = w := hx.det hS hI hO
      subst hww
      exact hdone
    · exact ⟨by rw [show m' x = m x from upd_other hxp]; exact hd.1, hd.2⟩

theorem done_of_notFrom {m : Mem} {L : List Nat} {x w : Nat} (h : m x = w) (hf : ¬ S.FromPtr w) : S.Done m L x w :=
  ⟨by unfold fwv; rw [if_neg hf, h], fun h => absurd h hf⟩

/-- A loop of `forward` calls over words `P 0, …, P (k-1)`, given the specification of one call. -/
theorem loop_spec (f : FS → Nat → FS)
    (hf : ∀ (st : FS) L p w, S.Inv st.mem st.next L → S.Orig L p w →
      ∃ L', S.Inv (f st p).mem (f st p).next L' ∧ S.Done (f st p).mem L' p w ∧ S.Step L st.mem L' (f st p).mem ∧
        (∀ x, (S.Cell x ∨ S.Wr x) → x ≠ p → (f st p).mem x = st.mem x))
    (P W : Nat → Nat) (k : Nat) (st : FS) (L : List Nat) (hI : S.Inv st.mem st.next L)
    (hO : ∀ j, j < k → S.Orig L (P j) (W j)) :
    let r := forLoop k (fun j st => f st (P j)) st
    ∃ L', S.Inv r.mem r.next L' ∧ (∀ j, j < k → S.Done r.mem L' (P j) (W j)) ∧ S.Step L st.mem L' r.mem ∧
      (∀ x, (S.Cell x ∨ S.Wr x) → (∀ j, j < k → x ≠ P j) → r.mem x = st.mem x) := by
  induction k with
  | zero => exact ⟨L, hI, fun j h => absurd h (Nat.not_lt_zero _), Step.refl _ _, fun _ _ _ => rfl⟩
  | succ k ih =>
    obtain ⟨L1, hI1, hD1, hS1, hF1⟩ := ih (fun j h => hO j (by omega))
    obtain ⟨L2, hI2, hD2, hS2, hF2⟩ := hf _ L1 (P k) (W k) hI1 (hS1.orig (hO k (by omega)))
    refine ⟨L2, hI2, ?_, hS1.trans hS2, ?_⟩
    · intro j hj
      by_cases e : j = k
      · subst e; exact hD2
      · exact hS2.mono _ _ (hS1.orig (hO j hj)) (hD1 j (by omega))
    · intro x hx hne
      have h1 := hF1 x hx (fun j hj => hne j (by omega))
      rw [← h1]
      exact hF2 x hx (hne k (by omega))

/-- `forward` on a forwardable word, for every depth. -/
theorem forward_spec (hS : S.OK) (d : Nat) : ∀ (st : FS) L p w, S.Inv st.mem st.next L → S.Orig L p w →
    ∃ L', S.Inv (forward S.fs S.fl d st p).mem (forward S.fs S.fl d st p).next L' ∧
      S.Done (forward S.fs S.fl d st p).mem L' p w ∧ S.Step L st.mem L' (forward S.fs S.fl d st p).mem ∧
      (∀ x, (S.Cell x ∨ S.Wr x) → x ≠ p → (forward S.fs S.fl d st p).mem x = st.mem x) := by
  induction d with
  | zero =>
    intro st L p w hI hO
    rw [forward]
    simp only
    by_cases hp : isPtr (st.mem p) = true
    · rw [if_pos hp]
      by_cases hfr : isFrom S.fs S.fl (addrOf (st.mem p)) = true
      · rw [if_pos hfr]
        have hfrom : S.FromPtr (st.mem p) := by
          unfold isFrom at hfr; simp only [Bool.and_eq_true, decide_eq_true_eq] at hfr; exact ⟨hp, hfr⟩
        have hw : st.mem p = w := by
          rcases hI.cell p w hO with h | h
          · exact h
          · exact absurd hfrom (h.notFrom hS hI)
        rw [hw] at hfrom ⊢
        have hobj := hO.val hS hI hfrom
        by_cases hL : addrOf w ∈ L
        · obtain ⟨h0, h1⟩ := hI.fwd _ hL
          rw [if_pos h0, h1]
          exact ⟨L, fwd_inv hS hI hO hfrom hL⟩
        · have hk := hI.keep _ hobj hL 0 (by omega)
          rw [Nat.add_zero] at hk
          have hsz := (hS.obj hobj).2.2
          have hne : ¬ st.mem (addrOf w - 1) = 0 := by
            rw [hk]; intro e; unfold sz at hsz; rw [e] at hsz; revert hsz; decide
          rw [if_neg hne]
          have := copy_inv hS hI hO hw hfrom hL
          have hszeq : wosize (st.mem (addrOf w - 1)) = S.sz (addrOf w) := by rw [hk]; rfl
          refine ⟨L ++ [addrOf w], ?_⟩
          simp only [hszeq]
          simpa only [copied, hszeq] using this
      · rw [if_neg hfr]
        have hnf : ¬ S.FromPtr (st.mem p) := by
          intro h; apply hfr; unfold isFrom; simp only [Bool.and_eq_true, decide_eq_true_eq]; exact h.2
        refine ⟨L, hI, ?_, Step.refl _ _, fun _ _ _ => rfl⟩
        rcases hI.cell p w hO with h | h
        · exact done_of_notFrom h (h ▸ hnf)
        · exact h
    · rw [if_neg hp]
      have hnf : ¬ S.FromPtr (st.mem p) := fun h => hp h.1
      refine ⟨L, hI, ?_, Step.refl _ _, fun _ _ _ => rfl⟩
      rcases hI.cell p w hO with h | h
      · exact done_of_notFrom h (h ▸ hnf)
      · exact h
  | succ d ih =>
    intro st L p w hI hO
    rw [forward]
    simp only
    by_cases hp : isPtr (st.mem p) = true
    · rw [if_pos hp]
      by_cases hfr : isFrom S.fs S.fl (addrOf (st.mem p)) = true
      · rw [if_pos hfr]
        have hfrom : S.FromPtr (st.mem p) := by
          unfold isFrom at hfr; simp only [Bool.and_eq_true, decide_eq_true_eq] at hfr; exact ⟨hp, hfr⟩
        have hw : st.mem p = w := by
          rcases hI.cell p w hO with h | h
          · exact h
          · exact absurd hfrom (h.notFrom hS hI)
        rw [hw] at hfrom ⊢
        have hobj := hO.val hS hI hfrom
        by_cases hL : addrOf w ∈ L
        · obtain ⟨h0, h1⟩ := hI.fwd _ hL
          rw [if_pos h0, h1]
          exact ⟨L, fwd_inv hS hI hO hfrom hL⟩
        · have hk := hI.keep _ hobj hL 0 (by omega)
          rw [Nat.add_zero] at hk
          have hsz := (hS.obj hobj).2.2
          have hne : ¬ st.mem (addrOf w - 1) = 0 := by
            rw [hk]; intro e; unfold sz at hsz; rw [e] at hsz; revert hsz; decide
          rw [if_neg hne]
          have hci := copy_inv hS hI hO hw hfrom hL
          have hszeq : wosize (st.mem (addrOf w - 1)) = S.sz (addrOf w) := by rw [hk]; rfl
          simp only [copied, hszeq] at hci
          simp only [hszeq]
          generalize hm1 : upd (upd (upd (copyFields (upd st.mem (st.next + 1 - 1) (st.mem (addrOf w - 1))) (addrOf w)
            (st.next + 1) (S.sz (addrOf w))) (addrOf w - 1) 0) (addrOf w) (ptr (st.next + 1))) p (ptr (st.next + 1)) = m1 at hci ⊢
          obtain ⟨hI1, hD1, hS1, hF1⟩ := hci
          by_cases hns : noScan (tagOf (st.mem (addrOf w - 1))) = true
          · rw [if_pos hns]; exact ⟨_, hI1, hD1, hS1, hF1⟩
          · rw [if_neg hns]
            have hsc : S.scannable (addrOf w) := by
              unfold scannable; rw [← hk]; simpa using hns
            have hposa : S.pos (L ++ [addrOf w]) (addrOf w) = st.next + 1 := by
              unfold pos; rw [posOf_append_new _ _ _ _ hL, hI.next]; rfl
            obtain ⟨L2, hI2, _, hS2, hF2⟩ := loop_spec (fun st p => forward S.fs S.fl d st p) ih
              (fun i => st.next + 1 + i) (fun i => S.m0 (addrOf w + i)) (S.sz (addrOf w))
              ⟨m1, st.next + 1 + S.sz (addrOf w)⟩ _ hI1
              (fun j hj => Or.inr ⟨addrOf w, j, by simp, hsc, hj, by rw [hposa], rfl⟩)
            refine ⟨L2, hI2, hS2.mono _ _ (hS1.orig hO) hD1, hS1.trans hS2, ?_⟩
            intro x hx hne
            rw [hF2 x hx ?_]
            · exact hF1 x hx hne
            · intro j hj e
              have hloc : x < S.t0 ∨ S.tlim ≤ x := by
                rcases hx with hx | hx
                · exact (hS.cell hx).2.1
                · exact (hS.wr hx).2
              have h1 := hI1.next_le hS
              have h2 : S.t0 ≤ st.next := by rw [hI.next]; exact le_endOf _ _ _
              omega
      · rw [if_neg hfr]
        have hnf : ¬ S.FromPtr (st.mem p) := by
          intro h; apply hfr; unfold isFrom; simp only [Bool.and_eq_true, decide_eq_true_eq]; exact h.2
        refine ⟨L, hI, ?_, Step.refl _ _, fun _ _ _ => rfl⟩
        rcases hI.cell p w hO with h | h
        · exact done_of_notFrom h (h ▸ hnf)
        · exact h
    · rw [if_neg hp]
      have hnf : ¬ S.FromPtr (st.mem p) := fun h => hp h.1
      refine ⟨L, hI, ?_, Step.refl _ _, fun _ _ _ => rfl⟩
      rcases hI.cell p w hO with h | h
      · exact done_of_notFrom h (h ▸ hnf)
      · exact h

end Setup
end GC
