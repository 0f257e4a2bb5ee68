import Verif.ANF.UncChain

/-!
# Uncurrying: variables of the result
-/

namespace ANF
namespace Unc

theorem append_bv (A B : Defs) : (A.append B).bv = A.bv ++ B.bv := by
  induction A using Defs.ind with
  | nil => rfl
  | cons f ft xs e A ih => simp [Defs.append, Defs.bv, ih]

theorem append_caseTags (A B : Defs) : (A.append B).caseTags = A.caseTags ++ B.caseTags := by
  induction A using Defs.ind with
  | nil => rfl
  | cons f ft xs e A ih => simp [Defs.append, Defs.caseTags, ih]

/-- `l'` contains `l` and, once each, the variables from `k` to `k'`. -/
def Adds (k k' : Nat) (l l' : List Var) : Prop := k ≤ k' ∧ ∀ x, l'.count x = l.count x + if k ≤ x ∧ x < k' then 1 else 0

theorem Adds.refl (k l) : Adds k k l l := ⟨le_rfl, fun x => by rw [if_neg (by vomega)]; rfl⟩
theorem Adds.cons {k k' l l'} (x : Var) (h : Adds k k' l l') : Adds k k' (x :: l) (x :: l') :=
  ⟨h.1, fun y => by rw [List.count_cons, List.count_cons, h.2 y]; omega⟩
theorem Adds.appendL {k k' l l'} (a : List Var) (h : Adds k k' l l') : Adds k k' (a ++ l) (a ++ l') :=
  ⟨h.1, fun y => by rw [List.count_append, List.count_append, h.2 y]; omega⟩
theorem Adds.append {k k' k'' l l' m m'} (h : Adds k k' l l') (h' : Adds k' k'' m m') : Adds k k'' (l ++ m) (l' ++ m') :=
  ⟨h.1.trans h'.1, fun y => by
    rw [List.count_append, List.count_append, h.2 y, h'.2 y]
    have h1 := h.1; have h2 := h'.1
    split <;> split <;> split <;> vomega⟩
theorem Adds.nodup {k k' l l'} (h : Adds k k' l l') (hn : l.Nodup) (hb : ∀ x ∈ l, x < k) : l'.Nodup := by
  rw [List.nodup_iff_count_le_one]
  intro x
  rw [h.2 x]
  have h1 := List.nodup_iff_count_le_one.mp hn x
  split
  · next hx =>
    have : List.count x l = 0 := List.count_eq_zero.mpr fun hm => absurd (hb x hm) (by vomega)
    omega
  · omega
theorem Adds.mem {k k' l l'} (h : Adds k k' l l') (x : Var) : x ∈ l' ↔ x ∈ l ∨ k ≤ x ∧ x < k' := by
  rw [← List.count_pos_iff, ← List.count_pos_iff, h.2 x]
  split <;> simp_all <;> vomega

theorem count_range' (n a x : Nat) : (List.range' n a).count x = if n ≤ x ∧ x < n + a then 1 else 0 := by
  split
  · next h => exact List.count_eq_one_of_mem List.nodup_range' (by rw [List.mem_range'_1]; exact h)
  · next h => exact List.count_eq_zero.mpr (by rw [List.mem_range'_1]; exact h)

mutual
theorem uncE_adds (cps : Bool) : ∀ (e : Exp) (s : St), Adds s.next (uncE cps e s).2.next e.bv (uncE cps e s).1.bv
  | .constr x t ys e, s => (uncE_adds cps e s).cons x
  | .case x bs, s => uncBs_adds cps bs s
  | .proj x t n y e, s => (uncE_adds cps e s).cons x
  | .letapp x f ft ys e, s => (uncE_adds cps e s).cons x
  | .fn B e, s => (uncD_adds cps B s).append (uncE_adds cps e _)
  | .app f ft ys, s => .refl _ _
  | .primVal x p e, s => (uncE_adds cps e s).cons x
  | .prim x p ys e, s => (uncE_adds cps e s).cons x
  | .halt x, s => .refl _ _
  termination_by e => (sizeOf e, 0)
theorem uncBs_adds (cps : Bool) : ∀ (bs : Brs) (s : St), Adds s.next (uncBs cps bs s).2.next bs.bv (uncBs cps bs s).1.bv
  | .nil, s => .refl _ _
  | .cons t e bs, s => (uncE_adds cps e s).append (uncBs_adds cps bs _)
  termination_by bs => (sizeOf bs, 0)
theorem uncD_adds (cps : Bool) : ∀ (B : Defs) (s : St), Adds s.next (uncD cps B s).2.next B.bv (uncD cps B s).1.bv
  | .nil, s => .refl _ _
  | .cons f ft xs e B, s => by
    have h1 := uncBody_adds cps f ft xs e s
    have h2 := uncD_adds cps B (uncBody cps f ft xs e s).2
    simp only [uncD, append_bv]
    have : (Defs.cons f ft xs e B).bv = (Defs.cons f ft xs e .nil).bv ++ B.bv := by simp [Defs.bv]
    rw [this]
    exact h1.append h2
  termination_by B => (sizeOf B, 0)
theorem uncBody_adds (cps : Bool) (f : Var) (ft : Tag) (xs : List Var) : ∀ (e : Exp) (s : St),
    Adds s.next (uncBody cps f ft xs e s).2.next (Defs.cons f ft xs e .nil).bv (uncBody cps f ft xs e s).1.bv
  | e, s => by
    rcases uncBody_spec cps f ft xs e s with ⟨g, gt, gv, ge, tail, pre, fv, rfl, hp, heq⟩ | heq
    · rw [heq]
      obtain ⟨rfl, _, hs⟩ := peel_some hp
      have htail : tail.bv = [] := by rcases hs with ⟨_, rfl⟩ | ⟨_, _, _, rfl, _⟩ <;> rfl
      have h := uncBody_adds cps (s.next + gv.length + fv.length) (fresh gv fv g s).2.2.2.1 (gv ++ fv) ge
        (fresh gv fv g s).2.2.2.2
      rw [fresh_next] at h
      have hle : s.next ≤ s.next + gv.length + fv.length + 1 := by
        exact Nat.le_add_right _ _ |>.trans (Nat.le_add_right _ _) |>.trans (Nat.le_add_right _ _)
      refine ⟨hle.trans h.1, fun x => ?_⟩
      have hx := h.2 x
      have hge := h.1
      simp only [Defs.bv, Exp.bv, htail, List.count_cons, List.count_append, List.append_nil, List.count_nil,
        count_range', beq_iff_eq] at hx ⊢
      rw [hx]
      have e1 : (if s.next ≤ x ∧ x < (uncBody cps (s.next + gv.length + fv.length) (fresh gv fv g s).2.2.2.1 (gv ++ fv) ge
          (fresh gv fv g s).2.2.2.2).2.next then 1 else 0) =
          (if s.next ≤ x ∧ x < s.next + gv.length then 1 else 0) +
          (if s.next + gv.length ≤ x ∧ x < s.next + gv.length + fv.length then 1 else 0) +
          (if s.next + gv.length + fv.length = x then 1 else 0) +
          (if s.next + gv.length + fv.length + 1 ≤ x ∧ x < (uncBody cps (s.next + gv.length + fv.length)
            (fresh gv fv g s).2.2.2.1 (gv ++ fv) ge (fresh gv fv g s).2.2.2.2).2.next then 1 else 0) := by
        generalize (uncBody cps (s.next + gv.length + fv.length) (fresh gv fv g s).2.2.2.1 (gv ++ fv) ge
          (fresh gv fv g s).2.2.2.2).2.next = K at hge ⊢
        split <;> split <;> split <;> split <;> split <;> vomega
      rw [e1]
      omega
    · rw [heq]
      simp only [Defs.bv, List.append_nil]
      exact ((uncE_adds cps e s).appendL xs).cons f
  termination_by e => (sizeOf e, 1)
  decreasing_by all_goals (try subst_vars); simp_wf; first | omega | skip
end

mutual
theorem uncE_caseTags (cps : Bool) : ∀ (e : Exp) (s : St), (uncE cps e s).1.caseTags = e.caseTags
  | .constr x t ys e, s => uncE_caseTags cps e s
  | .case x bs, s => uncBs_caseTags cps bs s
  | .proj x t n y e, s => uncE_caseTags cps e s
  | .letapp x f ft ys e, s => uncE_caseTags cps e s
  | .fn B e, s => by simp only [uncE, Exp.caseTags, uncD_caseTags cps B, uncE_caseTags cps e]
  | .app f ft ys, s => rfl
  | .primVal x p e, s => uncE_caseTags cps e s
  | .prim x p ys e, s => uncE_caseTags cps e s
  | .halt x, s => rfl
  termination_by e => (sizeOf e, 0)
theorem uncBs_caseTags (cps : Bool) : ∀ (bs : Brs) (s : St), (uncBs cps bs s).1.caseTags = bs.caseTags
  | .nil, s => rfl
  | .cons t e bs, s => by simp only [uncBs, Brs.caseTags, uncE_caseTags cps e, uncBs_caseTags cps bs]
  termination_by bs => (sizeOf bs, 0)
theorem uncD_caseTags (cps : Bool) : ∀ (B : Defs) (s : St), (uncD cps B s).1.caseTags = B.caseTags
  | .nil, s => rfl
  | .cons f ft xs e B, s => by
    simp only [uncD, append_caseTags, Defs.caseTags, uncBody_caseTags cps f ft xs e, uncD_caseTags cps B]
  termination_by B => (sizeOf B, 0)
theorem uncBody_caseTags (cps : Bool) (f : Var) (ft : Tag) (xs : List Var) : ∀ (e : Exp) (s : St),
    (uncBody cps f ft xs e s).1.caseTags = e.caseTags
  | e, s => by
    rcases uncBody_spec cps f ft xs e s with ⟨g, gt, gv, ge, tail, pre, fv, rfl, hp, heq⟩ | heq
    · rw [heq]
      have htail : tail.caseTags = [] := by rcases (peel_some hp).2.2 with ⟨_, rfl⟩ | ⟨_, _, _, rfl, _⟩ <;> rfl
      simp only [Defs.caseTags, Exp.caseTags, htail, List.append_nil, List.nil_append]
      exact uncBody_caseTags cps _ _ _ ge _
    · rw [heq]
      simp only [Defs.caseTags, List.append_nil]
      exact uncE_caseTags cps e s
  termination_by e => (sizeOf e, 1)
  decreasing_by all_goals (try subst_vars); simp_wf; first | omega | skip
end

mutual
theorem PE.fv {k} : ∀ {e e'}, PE k e e' → ∀ x ∈ e'.fv, x ∈ e.fv
  | _, _, .constr h => by
    intro x hx; simp only [Exp.fv, Finset.mem_union, Finset.mem_erase] at hx ⊢
    exact hx.imp_right fun hx => ⟨hx.1, h.fv x hx.2⟩
  | _, _, .case h => by
    intro x hx; simp only [Exp.fv, Finset.mem_insert] at hx ⊢
    exact hx.imp_right fun hx => h.fv x hx
  | _, _, .proj h => by
    intro x hx; simp only [Exp.fv, Finset.mem_insert, Finset.mem_erase] at hx ⊢
    exact hx.imp_right fun hx => ⟨hx.1, h.fv x hx.2⟩
  | _, _, .letapp h => by
    intro x hx; simp only [Exp.fv, Finset.mem_insert, Finset.mem_union, Finset.mem_erase] at hx ⊢
    exact hx.imp_right fun hx => hx.imp_right fun hx => ⟨hx.1, h.fv x hx.2⟩
  | _, _, .fn hd h => by
    intro x hx; simp only [Exp.fv, Finset.mem_sdiff, Finset.mem_union, List.mem_toFinset] at hx ⊢
    have hn : x ∉ _ := fun hn => hx.2 (hd.names_sub x hn)
    refine ⟨hx.1.imp (fun hx' => ?_) (fun hx' => h.fv x hx'), hn⟩
    exact (hd.fv x hx').resolve_right hx.2
  | _, _, .app => fun _ h => h
  | _, _, .primVal h => by
    intro x hx; simp only [Exp.fv, Finset.mem_erase] at hx ⊢
    exact ⟨hx.1, h.fv x hx.2⟩
  | _, _, .prim h => by
    intro x hx; simp only [Exp.fv, Finset.mem_union, Finset.mem_erase] at hx ⊢
    exact hx.imp_right fun hx => ⟨hx.1, h.fv x hx.2⟩
  | _, _, .halt => fun _ h => h
theorem PB.fv {k} : ∀ {bs bs'}, PB k bs bs' → ∀ x ∈ bs'.fv, x ∈ bs.fv
  | _, _, .nil => fun _ h => h
  | _, _, .cons h hb => by
    intro x hx; simp only [Brs.fv, Finset.mem_union] at hx ⊢
    exact hx.imp (h.fv x) (hb.fv x)
theorem PD.names_sub {k} : ∀ {B B'}, PD k B B' → ∀ x ∈ B.names, x ∈ B'.names
  | _, _, .nil => fun _ h => h
  | _, _, .cons _ hd => by
    intro x hx; simp only [Defs.names, List.mem_cons] at hx ⊢
    exact hx.imp_right (hd.names_sub x)
  | _, _, .unc _ hd _ _ _ _ _ _ _ _ _ => by
    intro x hx; simp only [Defs.names, List.mem_cons] at hx ⊢
    exact hx.imp_right fun hx => .inr (hd.names_sub x hx)
theorem PD.fv {k} : ∀ {B B'}, PD k B B' → ∀ x ∈ B'.fvRaw, x ∈ B.fvRaw ∨ x ∈ B'.names
  | _, _, .nil => fun _ h => .inl h
  | _, _, .cons h hd => by
    intro x hx
    simp only [Defs.fvRaw, Defs.names, Finset.mem_union, Finset.mem_sdiff, List.mem_toFinset, List.mem_cons] at hx ⊢
    rcases hx with hx | hx
    · exact .inl (.inl ⟨h.fv x hx.1, hx.2⟩)
    · rcases hd.fv x hx with h | h
      · exact .inl (.inr h)
      · exact .inr (.inr h)
  | _, _, @PD.unc _ f ft pre fv fv1 g gt gv gv1 ge ge' tail f1 ft1 B B' h hd h1 h2 h3 h4 h5 h6 h7 h8 h9 => by
    intro x hx
    simp only [Defs.fvRaw, Defs.names, Exp.fv, Finset.mem_union, Finset.mem_sdiff, List.mem_toFinset, List.mem_cons,
      List.mem_append, Finset.mem_insert, List.not_mem_nil, or_false, Finset.notMem_empty] at hx ⊢
    rcases hx with hx | hx | hx
    · have htail : ∀ y ∈ tail.fv, y = g ∨ y ∈ pre := by
        rcases h9 with ⟨_, rfl⟩ | ⟨q, qt, rfl, rfl, _⟩
        · intro y hy; simp [Exp.fv] at hy; exact .inl hy
        · intro y hy; simp [Exp.fv] at hy; simp; tauto
      have ht := htail x
      obtain ⟨⟨hx, hg⟩, hp⟩ := hx
      right
      rcases hx with hx | hx
      · rcases hx.1 with h | h | h
        · exact .inr (.inl h)
        · exact absurd h hx.2
        · exact absurd (.inr h) hp
      · rcases ht hx with h | h
        · exact absurd h hg
        · exact absurd (.inl h) hp
    · have hx1 := h.fv x hx.1
      have hg : x ≠ g := by rintro rfl; exact h8 hx1
      have hp : x ∉ pre := by
        rcases h9 with ⟨rfl, _⟩ | ⟨q, qt, rfl, _, hq⟩
        · simp
        · simp only [List.mem_singleton]; rintro rfl; exact hq hx1
      have h1 : x ∉ gv := fun h => hx.2 (.inl h)
      have h2 : x ∉ fv := fun h => hx.2 (.inr h)
      exact .inl (.inl ⟨⟨.inl ⟨hx1, h1⟩, hg⟩, fun h => h.elim hp h2⟩)
    · rcases hd.fv x hx with h | h
      · exact .inl (.inr h)
      · exact .inr (.inr (.inr h))
end

theorem chain_fv {k e k' e'} (h : ChainE k e k' e') : ∀ x ∈ e'.fv, x ∈ e.fv := by
  induction h with
  | refl => exact fun _ h => h
  | step _ r _ _ ih => exact fun x hx => r.fv x (ih x hx)

end Unc
end ANF
