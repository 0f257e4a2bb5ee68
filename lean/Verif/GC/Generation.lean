import Verif.GC.Core

/-!
# One generation: `forward_remset`, `forward_roots`, `do_scan`, `do_generation`
-/

namespace GC
namespace Setup
variable {S : Setup}

/-- Writing to the reserved remembered-set words does not disturb the invariant. -/
theorem inv_wr (hS : S.OK) {m n L} (hI : S.Inv m n L) {y v : Nat} (hy : S.Wr y) :
    S.Inv (upd m y v) n L ∧ S.Step L m L (upd m y v) ∧ (∀ x w, S.Orig L x w → upd m y v x = m x) := by
  have hw := hS.wr hy
  have hnt := hI.next_le hS
  have hne : ∀ x w, S.Orig L x w → x ≠ y := by
    intro x w hx e
    subst e
    rcases hx with ⟨hc, _⟩ | ⟨a, i, ha, _, hi, hx, _⟩
    · exact (hS.cell hc).2.2 hy
    · have := pos_bounds (S := S) ha
      have := hI.next
      omega
  have heq : ∀ x w, S.Orig L x w → upd m y v x = m x := fun x w hx => upd_other (hne x w hx)
  refine ⟨?_, ⟨⟨[], by simp⟩, fun x w hx hd => ⟨by rw [heq x w hx]; exact hd.1, hd.2⟩⟩, heq⟩
  constructor
  · exact hI.nodup
  · exact hI.objs
  · exact hI.next
  · intro b hb
    have hb' := hS.obj (hI.objs b hb)
    rw [upd_other (by omega), upd_other (by omega)]
    exact hI.fwd b hb
  · intro b hb hbL i hi
    have hb' := hS.obj hb
    rw [upd_other (by omega)]
    exact hI.keep b hb hbL i hi
  · intro b hb
    have := pos_bounds (S := S) hb
    have := hI.next
    rw [upd_other (by omega)]
    exact hI.hdr b hb
  · intro b hb hns i hi
    have := pos_bounds (S := S) hb
    have := hI.next
    rw [upd_other (by omega)]
    exact hI.raw b hb hns i hi
  · intro x w hx
    rw [heq x w hx]
    rcases hI.cell x w hx with h | h
    · exact Or.inl h
    · exact Or.inr ⟨by rw [heq x w hx]; exact h.1, h.2⟩
  · intro x h1 h2 h3 h4
    rw [upd_other (fun e => h4 (by rw [e]; exact hy))]
    exact hI.frame x h1 h2 h3 h4

/-- Start of a collection. -/
theorem inv_init (_hS : S.OK) : S.Inv S.m0 S.t0 [] := by
  constructor
  · simp
  · simp
  · rfl
  · simp
  · intros; rfl
  · simp
  · simp
  · intro x w hx
    rcases hx with ⟨_, e⟩ | ⟨a, _, ha, _⟩
    · exact Or.inl e.symm
    · cases ha
  · intros; rfl

/-- Assumptions on the remembered set of the from-space: `k` entries from `fl` on, the to-space ends at `T`. -/
structure RemOK (S : Setup) (T k : Nat) : Prop where
  lim : S.tlim = T - k
  le : k ≤ T
  wr : ∀ x, S.Wr x ↔ T - k ≤ x ∧ x < T
  rem : ∀ i, i < k → ¬ S.Cell (S.fl + i) ∧ ¬ S.Wr (S.fl + i) ∧ (S.fl + i < S.t0 ∨ S.tlim ≤ S.fl + i)
  entry : ∀ i, i < k → ¬ (S.fs ≤ addrOf (S.m0 (S.fl + i)) ∧ addrOf (S.m0 (S.fl + i)) < S.fl) →
    S.Cell (addrOf (S.m0 (S.fl + i)))

/-- The cell recorded in the `i`-th remembered-set entry. -/
def entryAt (S : Setup) (i : Nat) : Nat := addrOf (S.m0 (S.fl + i))

structure RemInv (S : Setup) (T i : Nat) (s : RS) (L : List Nat) : Prop where
  inv : S.Inv s.mem s.next L
  lo : T - i ≤ s.toLimit
  hi : s.toLimit ≤ T
  pushed : ∀ q, s.toLimit ≤ q → q < T → ∃ j, j < i ∧ s.mem q = ptr (S.entryAt j) ∧ S.Cell (S.entryAt j)
  done : ∀ j, j < i → S.Cell (S.entryAt j) → S.Done s.mem L (S.entryAt j) (S.m0 (S.entryAt j)) ∧
    (S.FromPtr (S.m0 (S.entryAt j)) → ∃ q, s.toLimit ≤ q ∧ q < T ∧ s.mem q = ptr (S.entryAt j))
  todo : ∀ x, S.Cell x → (∀ j, j < i → x ≠ S.entryAt j) → s.mem x = S.m0 x

theorem remLoop_spec (hS : S.OK) {T k : Nat} (hR : S.RemOK T k) (D : Nat) (i : Nat) (hi : i ≤ k) :
    ∃ L, S.RemInv T i (forLoop i (fun i s => remStep D S.fs S.fl (S.fl + i) s) ⟨S.m0, S.t0, T⟩) L := by
  induction i with
  | zero =>
    exact ⟨[], inv_init hS, by simp [forLoop], le_refl _, fun q h1 h2 => absurd h2 (by simp only [forLoop] at h1; omega),
      fun j h => absurd h (Nat.not_lt_zero _), fun _ _ _ => rfl⟩
  | succ i ih =>
    obtain ⟨L, hL⟩ := ih (by omega)
    simp only [forLoop]
    generalize forLoop i (fun i s => remStep D S.fs S.fl (S.fl + i) s) ⟨S.m0, S.t0, T⟩ = s at hL
    have hri := hR.rem i (by omega)
    have hnt := hL.inv.next_le hS
    have hq : s.mem (S.fl + i) = S.m0 (S.fl + i) := hL.inv.frame _ (Or.inr (by omega)) (by omega) hri.1 hri.2.1
    unfold remStep
    simp only [hq]
    by_cases hin : S.fs ≤ addrOf (S.m0 (S.fl + i)) ∧ addrOf (S.m0 (S.fl + i)) < S.fl
    · rw [if_neg (not_not.2 hin)]
      have hnc : ¬ S.Cell (S.entryAt i) := by
        intro hc
        have := (hS.cell hc).1
        unfold entryAt at this
        omega
      refine ⟨L, hL.inv, by have := hL.lo; omega, hL.hi, ?_, ?_, ?_⟩
      · intro q h1 h2
        obtain ⟨j, hj, h⟩ := hL.pushed q h1 h2
        exact ⟨j, by omega, h⟩
      · intro j hj hc
        by_cases e : j = i
        · subst e; exact absurd hc hnc
        · exact hL.done j (by omega) hc
      · intro x hx hne
        exact hL.todo x hx (fun j hj => hne j (by omega))
    · rw [if_pos hin]
      have hc := hR.entry i (by omega) hin
      have hO : S.Orig L (S.entryAt i) (S.m0 (S.entryAt i)) := Or.inl ⟨hc, rfl⟩
      obtain ⟨L1, hI1, hD1, hS1, hF1⟩ := forward_spec hS D ⟨s.mem, s.next⟩ L _ _ hL.inv hO
      change S.Cell (S.entryAt i) at hc
      have hE : addrOf (S.m0 (S.fl + i)) = S.entryAt i := rfl
      rw [hE]
      generalize hr : forward S.fs S.fl D ⟨s.mem, s.next⟩ (S.entryAt i) = r at *
      -- facts about the entries processed before
      have hold : ∀ j, j < i → S.Cell (S.entryAt j) → S.Done r.mem L1 (S.entryAt j) (S.m0 (S.entryAt j)) :=
        fun j hj hcj => hS1.mono _ _ (Or.inl ⟨hcj, rfl⟩) (hL.done j hj hcj).1
      have hwrsame : ∀ q, S.Wr q → r.mem q = s.mem q := by
        intro q hq
        exact hF1 q (Or.inr hq) (fun e => (hS.cell hc).2.2 (e ▸ hq))
      have hpw : ∀ q, s.toLimit ≤ q → q < T → S.Wr q := by
        intro q h1 h2
        have := hL.lo
        exact (hR.wr q).2 (by omega)
      by_cases hch : s.mem (S.entryAt i) ≠ r.mem (S.entryAt i)
      · rw [if_pos hch]
        have hlo := hL.lo
        have hhi := hL.hi
        have hpos : 0 < s.toLimit := by have := hR.le; omega
        have hwr : S.Wr (s.toLimit - 1) := (hR.wr _).2 (by omega)
        obtain ⟨hI2, hS2, heq⟩ := inv_wr hS hI1 (v := ptr (S.entryAt i)) hwr
        refine ⟨L1, hI2, by simp only; omega, by simp only; omega, ?_, ?_, ?_⟩
        · intro q h1 h2
          simp only at h1 ⊢
          by_cases e : q = s.toLimit - 1
          · subst e; exact ⟨i, by omega, upd_same _ _ _, hc⟩
          · rw [upd_other e]
            obtain ⟨j, hj, h, h'⟩ := hL.pushed q (by omega) h2
            rw [hwrsame q (hpw q (by omega) h2)]
            exact ⟨j, by omega, h, h'⟩
        · intro j hj hcj
          by_cases e : j = i
          · subst e
            refine ⟨hS2.mono _ _ (Or.inl ⟨hcj, rfl⟩) hD1, fun _ => ⟨s.toLimit - 1, le_refl _, by omega, upd_same _ _ _⟩⟩
          · refine ⟨hS2.mono _ _ (Or.inl ⟨hcj, rfl⟩) (hold j (by omega) hcj), fun hfp => ?_⟩
            obtain ⟨q, h1, h2, h3⟩ := (hL.done j (by omega) hcj).2 hfp
            refine ⟨q, by simp only; omega, h2, ?_⟩
            simp only
            rw [upd_other (by omega), hwrsame q (hpw q h1 h2), h3]
        · intro x hx hne
          simp only
          rw [heq x (S.m0 x) (Or.inl ⟨hx, rfl⟩), hF1 x (Or.inl hx) (hne i (by omega))]
          exact hL.todo x hx (fun j hj => hne j (by omega))
      · rw [if_neg hch]
        have hch : s.mem (S.entryAt i) = r.mem (S.entryAt i) := not_not.1 hch
        refine ⟨L1, hI1, by have := hL.lo; simp only; omega, hL.hi, ?_, ?_, ?_⟩
        · intro q h1 h2
          simp only at h1 ⊢
          obtain ⟨j, hj, h, h'⟩ := hL.pushed q h1 h2
          rw [hwrsame q (hpw q h1 h2)]
          exact ⟨j, by omega, h, h'⟩
        · have hprev : ∀ j, j < i → S.Cell (S.entryAt j) → S.FromPtr (S.m0 (S.entryAt j)) →
              ∃ q, s.toLimit ≤ q ∧ q < T ∧ r.mem q = ptr (S.entryAt j) := by
            intro j hj hcj hfp
            obtain ⟨q, h1, h2, h3⟩ := (hL.done j hj hcj).2 hfp
            exact ⟨q, h1, h2, by rw [hwrsame q (hpw q h1 h2), h3]⟩
          intro j hj hcj
          by_cases e : j = i
          · subst e
            refine ⟨hD1, fun hfp => ?_⟩
            -- unchanged although it pointed into the from-space: it has been processed before
            by_cases hex : ∃ j', j' < j ∧ S.entryAt j = S.entryAt j'
            · obtain ⟨j', hj', e'⟩ := hex
              rw [e'] at hcj hfp ⊢
              exact hprev j' hj' hcj hfp
            · exfalso
              have h1 := hL.todo _ hcj (fun j' hj' e => hex ⟨j', hj', e⟩)
              rw [h1] at hch
              exact hD1.notFrom hS hI1 (hch ▸ hfp)
          · exact ⟨hold j (by omega) hcj, hprev j (by omega) hcj⟩
        · intro x hx hne
          simp only
          rw [hF1 x (Or.inl hx) (hne i (by omega))]
          exact hL.todo x hx (fun j hj => hne j (by omega))

/-- The cells of the stack frames. -/
def rootCells (fr : List Frame) (x : Nat) : Prop := ∃ f ∈ fr, f.root ≤ x ∧ x < f.next

theorem forwardRoots_spec (hS : S.OK) (D : Nat) (fr : List Frame) : ∀ (st : FS) L, S.Inv st.mem st.next L →
    (∀ x, rootCells fr x → S.Cell x) →
    ∃ L', S.Inv (forwardRoots D S.fs S.fl fr st).mem (forwardRoots D S.fs S.fl fr st).next L' ∧
      (∀ x, rootCells fr x → S.Done (forwardRoots D S.fs S.fl fr st).mem L' x (S.m0 x)) ∧
      S.Step L st.mem L' (forwardRoots D S.fs S.fl fr st).mem ∧
      (∀ x, S.Wr x → (forwardRoots D S.fs S.fl fr st).mem x = st.mem x) := by
  induction fr with
  | nil =>
    intro st L hI _
    exact ⟨L, hI, (fun x ⟨f, hf, _⟩ => by cases hf), Step.refl _ _, fun _ _ => rfl⟩
  | cons f rest ih =>
    intro st L hI hc
    have hcf : ∀ j, j < f.next - f.root → S.Cell (f.root + j) :=
      fun j hj => hc _ ⟨f, List.mem_cons_self, by omega, by omega⟩
    obtain ⟨L1, hI1, hD1, hS1, hF1⟩ := loop_spec (fun st p => forward S.fs S.fl D st p) (forward_spec hS D)
      (fun j => f.root + j) (fun j => S.m0 (f.root + j)) (f.next - f.root) st L hI
      (fun j hj => Or.inl ⟨hcf j hj, rfl⟩)
    simp only [forwardRoots]
    generalize forLoop (f.next - f.root) (fun j st => forward S.fs S.fl D st (f.root + j)) st = r at *
    obtain ⟨L2, hI2, hD2, hS2, hF2⟩ := ih r L1 hI1 (fun x ⟨g, hg, h⟩ => hc x ⟨g, List.mem_cons_of_mem _ hg, h⟩)
    refine ⟨L2, hI2, ?_, hS1.trans hS2, ?_⟩
    · rintro x ⟨g, hg, h1, h2⟩
      cases hg with
      | head =>
        have hx := hD1 (x - f.root) (by omega)
        rw [show f.root + (x - f.root) = x by omega] at hx
        refine hS2.mono _ _ (Or.inl ⟨?_, rfl⟩) hx
        have := hcf (x - f.root) (by omega)
        rwa [show f.root + (x - f.root) = x by omega] at this
      | tail _ hg => exact hD2 x ⟨g, hg, h1, h2⟩
    · intro x hx
      rw [hF2 x hx, hF1 x (Or.inr hx)]
      intro j hj e
      exact (hS.cell (hcf j hj)).2.2 (e ▸ hx)

theorem length_le_endOf (sz : Nat → Nat) (L : List Nat) : ∀ t, t + L.length ≤ endOf sz t L := by
  induction L with
  | nil => intro t; exact le_refl _
  | cons b L ih => intro t; have := ih (t + 1 + sz b); simp only [endOf, List.length_cons]; omega

/-- The Cheney loop: `L1` is the part already scanned. -/
theorem doScan_spec (hS : S.OK) (D : Nat) : ∀ (fuel : Nat) (L1 L2 : List Nat) (st : FS),
    S.Inv st.mem st.next (L1 ++ L2) → (S.fl - S.fs) + 1 ≤ fuel + L1.length →
    (∀ x w, S.Orig L1 x w → S.Done st.mem (L1 ++ L2) x w) →
    ∃ st' L', doScan D S.fs S.fl fuel (S.last L1) st = .ok st' ∧ S.Inv st'.mem st'.next L' ∧
      (∀ x w, S.Orig L' x w → S.Done st'.mem L' x w) ∧ (∀ x, S.Wr x → st'.mem x = st.mem x) ∧
      ∃ M, L' = L1 ++ L2 ++ M := by
  intro fuel
  induction fuel with
  | zero =>
    intro L1 L2 st hI hfuel _
    exfalso
    have h1 := last_le hS hI.nodup hI.objs
    have h2 := length_le_endOf S.sz (L1 ++ L2) S.t0
    have h3 := hS.usedLe
    unfold last at h1
    rw [List.length_append] at h2
    omega
  | succ fuel ih =>
    intro L1 L2 st hI hfuel hdone
    rw [doScan]
    cases L2 with
    | nil =>
      rw [List.append_nil] at hI hdone
      rw [if_neg (by rw [hI.next]; omega)]
      exact ⟨st, L1, rfl, hI, hdone, fun _ _ => rfl, [], by simp⟩
    | cons a L2 =>
      have hlt : S.last L1 < st.next := by
        rw [hI.next]
        unfold last
        rw [endOf_append]
        have := le_endOf S.sz L2 (endOf S.sz S.t0 L1 + 1 + S.sz a)
        simp only [endOf]; omega
      rw [if_pos hlt]
      have hnot : a ∉ L1 := by
        have := hI.nodup
        rw [List.nodup_append] at this
        intro h
        exact this.2.2 a h a List.mem_cons_self rfl
      have hmem : a ∈ L1 ++ a :: L2 := by simp
      have hpos : S.pos (L1 ++ a :: L2) a = S.last L1 + 1 := posOf_append_new _ _ _ _ hnot _
      have hhd : st.mem (S.last L1) = S.m0 (a - 1) := by
        have := hI.hdr a hmem
        rwa [hpos, Nat.add_sub_cancel] at this
      have hl1 : S.last (L1 ++ [a]) = S.last L1 + (1 + S.sz a) := by
        unfold last; rw [endOf_append]; simp only [endOf]; omega
      have happ : L1 ++ a :: L2 = (L1 ++ [a]) ++ L2 := by simp
      -- words of the scanned prefix
      have horig : ∀ x w, S.Orig (L1 ++ [a]) x w → S.Orig L1 x w ∨
          (S.scannable a ∧ ∃ i, i < S.sz a ∧ x = S.last L1 + (i + 1) ∧ w = S.m0 (a + i)) := by
        intro x w hx
        rcases hx with h | ⟨b, i, hb, hs, hi, hx, hw⟩
        · exact Or.inl (Or.inl h)
        · rw [List.mem_append] at hb
          rcases hb with hb | hb
          · exact Or.inl (Or.inr ⟨b, i, hb, hs, hi, by rw [hx, pos_append hb], hw⟩)
          · simp at hb
            subst hb
            right
            refine ⟨hs, i, hi, ?_, hw⟩
            have : S.pos (L1 ++ [b]) b = S.last L1 + 1 := posOf_append_new _ _ _ _ hnot _
            rw [hx, this]; omega
      simp only [hhd]
      change ∃ st' L', doScan D S.fs S.fl fuel (S.last L1 + (1 + S.sz a)) _ = _ ∧ _
      rw [← hl1]
      by_cases hns : noScan (tagOf (S.m0 (a - 1))) = true
      · rw [if_pos hns]
        rw [happ] at hI
        rw [happ]
        refine ih (L1 ++ [a]) L2 st hI (by simp only [List.length_append, List.length_cons, List.length_nil]; omega) ?_
        intro x w hx
        rcases horig x w hx with h | ⟨hs, _⟩
        · rw [happ] at hdone
          exact hdone x w h
        · unfold scannable at hs; rw [hs] at hns; cases hns
      · rw [if_neg hns]
        have hsc : S.scannable a := by unfold scannable; simpa using hns
        obtain ⟨L', hI', hD', hS', hF'⟩ := loop_spec (fun st p => forward S.fs S.fl D st p) (forward_spec hS D)
          (fun j => S.last L1 + (j + 1)) (fun j => S.m0 (a + j)) (S.sz a) st _ hI
          (fun j hj => Or.inr ⟨a, j, hmem, hsc, hj, by rw [hpos]; omega, rfl⟩)
        change ∃ st' L', doScan D S.fs S.fl fuel _ (forLoop (S.sz a) (fun j st => forward S.fs S.fl D st (S.last L1 + (j + 1))) st) = _ ∧ _
        generalize forLoop (S.sz a) (fun j st => forward S.fs S.fl D st (S.last L1 + (j + 1))) st = r at *
        obtain ⟨M, rfl⟩ := hS'.ext
        have e2 : L1 ++ a :: L2 ++ M = (L1 ++ [a]) ++ (L2 ++ M) := by simp
        rw [e2] at hI'
        obtain ⟨st', L'', h1, h2, h3, h4, M', h5⟩ := ih (L1 ++ [a]) (L2 ++ M) r hI'
          (by simp only [List.length_append, List.length_cons, List.length_nil]; omega) (by
            intro x w hx
            rw [← e2]
            rcases horig x w hx with h | ⟨hs, i, hi, hx', hw⟩
            · exact hS'.mono x w (h.append _) (hdone x w h)
            · subst hx'; subst hw; exact hD' i hi)
        refine ⟨st', L'', h1, h2, h3, ?_, M ++ M', by rw [h5]; simp⟩
        intro x hx
        rw [h4 x hx]
        apply hF' x (Or.inr hx)
        intro j hj e
        have hw := (hS.wr hx).2
        have hnt := hI.next_le hS
        have hn := hI.next
        have hb := pos_bounds (S := S) hmem
        rw [hpos] at hb
        have h0 : S.t0 ≤ S.last L1 := le_endOf _ _ _
        omega

/-- The result of collecting one generation. -/
structure Collected (S : Setup) (T k : Nat) (m' : Mem) (n T' : Nat) (L : List Nat) : Prop where
  inv : S.Inv m' n L
  done : ∀ x w, S.Orig L x w → S.Done m' L x w
  lo : T - k ≤ T'
  hi : T' ≤ T
  pushed : ∀ q, T' ≤ q → q < T → ∃ j, j < k ∧ m' q = ptr (S.entryAt j) ∧ S.Cell (S.entryAt j)
  complete : ∀ j, j < k → S.Cell (S.entryAt j) → S.FromPtr (S.m0 (S.entryAt j)) →
    ∃ q, T' ≤ q ∧ q < T ∧ m' q = ptr (S.entryAt j)

theorem doGeneration_spec (hS : S.OK) (D fuel : Nat) (frm dst : Space) (fr : List Frame)
    (e1 : frm.start = S.fs) (e2 : frm.limit = S.fl) (e3 : dst.next = S.t0)
    (hts : dst.start ≤ dst.next) (hR : S.RemOK dst.limit (frm.remLimit - frm.limit))
    (hfr : ∀ x, rootCells fr x → S.Cell x)
    (hcell : ∀ x, S.Cell x → rootCells fr x ∨ ∃ j, j < frm.remLimit - frm.limit ∧ x = S.entryAt j)
    (hfuel : S.fl - S.fs + 1 ≤ fuel) :
    ∃ m' n T' L, doGeneration D fuel S.m0 frm dst fr =
        .ok (m', { frm with next := frm.start, limit := frm.remLimit }, { dst with next := n, limit := T' }) ∧
      S.Collected dst.limit (frm.remLimit - frm.limit) m' n T' L := by
  have hroom := hS.room
  have hlim := hR.lim
  have hle := hR.le
  have hassert : frm.remLimit - frm.limit ≤ dst.limit - dst.start := by
    by_cases hz : S.fl - S.fs = 0 ∧ dst.limit - (frm.remLimit - frm.limit) < dst.next
    · omega
    · omega
  unfold doGeneration forwardRemset
  rw [if_pos hassert]
  simp only [Outcome.bind]
  obtain ⟨L1, hL1⟩ := remLoop_spec hS hR D (frm.remLimit - frm.limit) (le_refl _)
  rw [e1, e2, e3]
  rw [e2] at hL1
  generalize forLoop (frm.remLimit - S.fl) (fun i s => remStep D S.fs S.fl (S.fl + i) s) ⟨S.m0, S.t0, dst.limit⟩ = r at *
  rw [e2] at hcell hR
  obtain ⟨L2, hI2, hD2, hS2, hF2⟩ := forwardRoots_spec hS D fr ⟨r.mem, r.next⟩ L1 hL1.inv hfr
  generalize forwardRoots D S.fs S.fl fr ⟨r.mem, r.next⟩ = s at *
  have hcd : ∀ x, S.Cell x → S.Done s.mem L2 x (S.m0 x) := by
    intro x hx
    rcases hcell x hx with h | ⟨j, hj, h⟩
    · exact hD2 x h
    · subst h
      exact hS2.mono _ _ (Or.inl ⟨hx, rfl⟩) (hL1.done j hj hx).1
  obtain ⟨s', L', h1, h2, h3, h4, _⟩ := doScan_spec hS D fuel [] L2 s (by simpa using hI2) (by simpa using hfuel) (by
    intro x w hx
    rcases hx with ⟨hc, e⟩ | ⟨a, _, ha, _⟩
    · subst e; simpa using hcd x hc
    · cases ha)
  have e0 : S.last [] = S.t0 := rfl
  rw [e0] at h1
  rw [h1]
  have hwr : ∀ q, r.toLimit ≤ q → q < dst.limit → S.Wr q := by
    intro q a b
    have := hL1.lo
    exact (hR.wr q).2 (by omega)
  refine ⟨s'.mem, s'.next, r.toLimit, L', rfl, h2, h3, hL1.lo, hL1.hi, ?_, ?_⟩
  · intro q a b
    obtain ⟨j, hj, e, hc⟩ := hL1.pushed q a b
    exact ⟨j, hj, by rw [h4 q (hwr q a b), hF2 q (hwr q a b)]; exact e, hc⟩
  · intro j hj hc hf
    obtain ⟨q, a, b, e⟩ := (hL1.done j hj hc).2 hf
    exact ⟨q, a, b, by rw [h4 q (hwr q a b), hF2 q (hwr q a b)]; exact e⟩

end Setup
end GC
