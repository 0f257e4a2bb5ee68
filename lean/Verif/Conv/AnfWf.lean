import Verif.Conv.Top
import Verif.ANF.CcSim

/-!
# The output of ANF conversion is closed and has distinct, fresh binders
-/

namespace Conv

open Src (Dcon)
open ANF (Var Tag)

/-- Variables bound along the spine of a context: what its hole can see. -/
def Ctx.spine : Ctx → List Var
  | .hole => []
  | .constr x _ _ C => x :: C.spine
  | .proj x _ _ _ C => x :: C.spine
  | .letapp x _ _ _ C => x :: C.spine
  | .primVal x _ C => x :: C.spine
  | .prim x _ _ C => x :: C.spine
  | .fn B C => B.names ++ C.spine

/-- All binders of a context. -/
def Ctx.bv : Ctx → List Var
  | .hole => []
  | .constr x _ _ C => x :: C.bv
  | .proj x _ _ _ C => x :: C.bv
  | .letapp x _ _ _ C => x :: C.bv
  | .primVal x _ C => x :: C.bv
  | .prim x _ _ C => x :: C.bv
  | .fn B C => B.bv ++ C.bv

theorem Ctx.bv_fill (C : Ctx) (e : ANF.Exp) : (C.fill e).bv = C.bv ++ e.bv := by
  induction C with
  | hole => rfl
  | _ => simp_all [Ctx.fill, Ctx.bv, ANF.Exp.bv]

theorem Ctx.bv_comp (C D : Ctx) : (C.comp D).bv = C.bv ++ D.bv := by
  induction C with
  | hole => rfl
  | _ => simp_all [Ctx.comp, Ctx.bv]

theorem Ctx.spine_comp (C D : Ctx) : (C.comp D).spine = C.spine ++ D.spine := by
  induction C with
  | hole => rfl
  | _ => simp_all [Ctx.comp, Ctx.spine]

/-- A list of binders drawn without repetition from the fresh variables `k, …, k'-1`. -/
structure Fresh (l : List Var) (k k' : Nat) : Prop where
  nodup : l.Nodup
  range : ∀ x ∈ l, k ≤ x ∧ x < k'

theorem Fresh.append {l l' k k₁ k'} (h : Fresh l k k₁) (h' : Fresh l' k₁ k') (hk : k ≤ k₁) (hk' : k₁ ≤ k') :
    Fresh (l ++ l') k k' := by
  refine ⟨List.nodup_append.2 ⟨h.nodup, h'.nodup, ?_⟩, ?_⟩
  · intro a ha b hb hab; subst hab
    have := h.range a ha; have := h'.range a hb; vomega
  · intro x hx
    rcases List.mem_append.1 hx with hx | hx
    · have := h.range x hx; vomega
    · have := h'.range x hx; vomega

theorem Fresh.perm {l l' k k'} (h : Fresh l k k') (hp : l.Perm l') : Fresh l' k k' :=
  ⟨hp.nodup_iff.1 h.nodup, fun x hx => h.range x (hp.mem_iff.2 hx)⟩

theorem Fresh.weaken {l k k₁ k₂ k'} (h : Fresh l k₁ k₂) (hk : k ≤ k₁) (hk' : k₂ ≤ k') : Fresh l k k' :=
  ⟨h.nodup, fun x hx => by have := h.range x hx; vomega⟩

theorem Fresh.nil {k k'} : Fresh [] k k' := ⟨List.nodup_nil, fun _ h => by cases h⟩

theorem Fresh.one {k : Nat} : Fresh [k] k (k + 1) := ⟨by simp, fun x hx => by simp at hx; vomega⟩

theorem Fresh.cons {l k k'} (h : Fresh l (k + 1) k') (hk : k + 1 ≤ k') : Fresh (k :: l) k k' :=
  Fresh.append (l := [k]) .one h (by vomega) hk

theorem Fresh.snoc {l k k'} (h : Fresh l k k') (hk : k ≤ k') : Fresh (k' :: l) k (k' + 1) :=
  (Fresh.append h .one hk (by vomega)).perm (List.perm_append_singleton _ _)

theorem Fresh.range' (k n : Nat) : Fresh (List.range' k n) k (k + n) :=
  ⟨List.nodup_range', fun x hx => by simp [List.mem_range'] at hx; vomega⟩

/-- Around any term, the context binds everything but `Γ`. -/
def Scoped (C : Ctx) (Γ : Finset Var) : Prop :=
  ∀ t : ANF.Exp, (C.fill t).fv ⊆ Γ ∪ (t.fv \ C.spine.toFinset)

theorem Scoped.mono {C Γ Γ'} (h : Scoped C Γ) (hs : Γ ⊆ Γ') : Scoped C Γ' := by
  intro t y hy
  have := h t hy
  simp only [Finset.mem_union] at this ⊢
  exact this.imp (fun h => hs h) id

theorem Scoped.comp {C D Γ} (h : Scoped C Γ) (h' : Scoped D (Γ ∪ C.spine.toFinset)) : Scoped (C.comp D) Γ := by
  intro t y hy
  rw [Ctx.fill_comp] at hy
  have h1 := h _ hy
  simp only [Finset.mem_union, Finset.mem_sdiff] at h1
  rcases h1 with h1 | ⟨h1, h2⟩
  · simp [h1]
  · have h3 := h' _ h1
    simp only [Finset.mem_union, Finset.mem_sdiff] at h3
    rcases h3 with (h3 | h3) | ⟨h3, h4⟩
    · simp [h3]
    · exact absurd h3 h2
    · simp only [Finset.mem_union, Finset.mem_sdiff, Ctx.spine_comp, List.toFinset_append]
      exact .inr ⟨h3, by simp only [not_or]; exact ⟨h2, h4⟩⟩

theorem Scoped.halt {C Γ x} (h : Scoped C Γ) (hx : x ∈ Γ ∪ C.spine.toFinset) : (C.fill (.halt x)).fv ⊆ Γ := by
  intro y hy
  have := h _ hy
  simp only [ANF.Exp.fv, Finset.mem_union, Finset.mem_sdiff, Finset.mem_singleton] at this hx
  rcases this with h | ⟨rfl, h⟩
  · exact h
  · exact hx.resolve_right h

theorem Scoped.hole {Γ} : Scoped .hole Γ := by
  intro t y hy; simp only [Ctx.fill, Ctx.spine] at hy ⊢; simp [hy]

theorem Scoped.fn {B : ANF.Defs} {Γ} (h : B.fv ⊆ Γ) : Scoped (.fn B .hole) Γ := by
  intro t y hy
  simp only [Ctx.fill, Ctx.spine, ANF.Exp.fv, Finset.mem_union, Finset.mem_sdiff, List.append_nil] at hy ⊢
  rcases hy with ⟨hy | hy, hn⟩
  · exact .inl (h (by simp [ANF.Defs.fv, hy] at hn ⊢; exact hn))
  · exact .inr ⟨hy, hn⟩

theorem Scoped.letapp {x f ft ys} {Γ : Finset Var} (hf : f ∈ Γ) (hy : ∀ y ∈ ys, y ∈ Γ) :
    Scoped (.letapp x f ft ys .hole) Γ := by
  intro t y h
  simp only [Ctx.fill, Ctx.spine, ANF.Exp.fv, Finset.mem_union, Finset.mem_sdiff, Finset.mem_insert, Finset.mem_erase,
    List.mem_toFinset, List.mem_singleton] at h ⊢
  rcases h with rfl | h | ⟨h, h'⟩
  · exact .inl hf
  · exact .inl (hy y h)
  · exact .inr ⟨h', h⟩

theorem Scoped.constr {x t ys} {Γ : Finset Var} (hy : ∀ y ∈ ys, y ∈ Γ) : Scoped (.constr x t ys .hole) Γ := by
  intro t y h
  simp only [Ctx.fill, Ctx.spine, ANF.Exp.fv, Finset.mem_union, Finset.mem_sdiff, Finset.mem_erase,
    List.mem_toFinset, List.mem_singleton] at h ⊢
  rcases h with h | ⟨h, h'⟩
  · exact .inl (hy y h)
  · exact .inr ⟨h', h⟩

theorem Scoped.prim {x p ys} {Γ : Finset Var} (hy : ∀ y ∈ ys, y ∈ Γ) : Scoped (.prim x p ys .hole) Γ := by
  intro t y h
  simp only [Ctx.fill, Ctx.spine, ANF.Exp.fv, Finset.mem_union, Finset.mem_sdiff, Finset.mem_erase,
    List.mem_toFinset, List.mem_singleton] at h ⊢
  rcases h with h | ⟨h, h'⟩
  · exact .inl (hy y h)
  · exact .inr ⟨h', h⟩

theorem Scoped.primVal {x p Γ} : Scoped (.primVal x p .hole) Γ := by
  intro t y h
  simp only [Ctx.fill, Ctx.spine, ANF.Exp.fv, Finset.mem_union, Finset.mem_sdiff, Finset.mem_erase,
    List.mem_toFinset, List.mem_singleton] at h ⊢
  exact .inr ⟨h.2, h.1⟩

theorem ctxBindProj_bv (t r) : ∀ (vars : List Var) n, (ctxBindProj t r vars n).bv = vars
  | [], _ => rfl
  | v :: vars, n => by simp [ctxBindProj, Ctx.bv, ctxBindProj_bv t r vars]

theorem ctxBindProj_spine (t r) : ∀ (vars : List Var) n, (ctxBindProj t r vars n).spine = vars
  | [], _ => rfl
  | v :: vars, n => by simp [ctxBindProj, Ctx.spine, ctxBindProj_spine t r vars]

theorem ctxBindProj_scoped (t) {r Γ} (hr : r ∈ Γ) : ∀ (vars : List Var) n, Scoped (ctxBindProj t r vars n) Γ
  | [], _ => .hole
  | v :: vars, n => by
    intro t' y h
    simp only [ctxBindProj, Ctx.fill, Ctx.spine, ANF.Exp.fv, Finset.mem_insert, Finset.mem_erase] at h
    rcases h with rfl | ⟨h, h'⟩
    · simp [hr]
    · have := ctxBindProj_scoped t hr vars (n - 1) t' h'
      simp only [Finset.mem_union, Finset.mem_sdiff] at this
      simp only [ctxBindProj, Ctx.spine, Finset.mem_union, Finset.mem_sdiff, List.toFinset_cons, Finset.mem_insert, not_or]
      exact this.imp id (fun ⟨a, b⟩ => ⟨a, h, b⟩)

/-- A function bundle with one function. -/
theorem single_fv {f : Var} {ft x e Γ} (h : ANF.Exp.fv e ⊆ insert x Γ) : (ANF.Defs.cons f ft [x] e .nil).fv ⊆ Γ := by
  intro y hy
  simp only [ANF.Defs.fv, ANF.Defs.fvRaw, Finset.mem_sdiff, Finset.mem_union, List.toFinset_cons, List.toFinset_nil,
    Finset.mem_insert, Finset.notMem_empty, or_false] at hy
  have := h hy.1.1
  rw [Finset.mem_insert] at this
  exact this.resolve_left hy.1.2

variable {P : Params}

/-- What holds of the context and variable returned by the conversion. -/
structure ConvOk (vn : List Var) (k : Nat) (x : Var) (C : Ctx) (k' : Nat) : Prop where
  fresh : Fresh C.bv k k'
  scope : Scoped C vn.toFinset
  var : x ∈ vn.toFinset ∪ C.spine.toFinset
  le : k ≤ k'

theorem ConvOk.bv {vn k x C k'} (h : ConvOk vn k x C k') : Fresh (C.fill (.halt x)).bv k k' := by
  rw [Ctx.bv_fill]; simpa [ANF.Exp.bv] using h.fresh

theorem ConvOk.fv {vn k x C k'} (h : ConvOk vn k x C k') : (C.fill (.halt x)).fv ⊆ vn.toFinset := h.scope.halt h.var

theorem convPrim_wf {p : Nat} : ∀ (n : Nat) (args : List Var) (k : Nat),
    ConvOk args k (convPrim P p n args k).1 (convPrim P p n args k).2.1 (convPrim P p n args k).2.2
  | 0, args, k => ⟨.one, Scoped.prim (by simp), by simp [convPrim, Ctx.spine], by simp [convPrim]⟩
  | n + 1, args, k => by
    have a := convPrim_wf (p := p) n (k :: args) (k + 2)
    have ha := a.le
    refine ⟨?_, Scoped.fn (single_fv (by simpa using a.fv)), by simp [convPrim, Ctx.spine, ANF.Defs.names],
      Nat.le_trans (by vomega : k ≤ k + 2) ha⟩
    simp only [convPrim, Ctx.bv, ANF.Defs.bv, List.append_nil, List.singleton_append]
    exact (Fresh.cons (Fresh.cons a.bv (by vomega)) (by vomega)).perm (List.Perm.swap _ _ _)

mutual
theorem conv_wf : ∀ (e : Src.Exp) {vn k x C k'}, conv P e vn k = some (x, C, k') → e.wfp P.arity vn.length → ConvOk vn k x C k'
  | .var i, vn, k, x, C, k', h, hw => by
    simp only [conv] at h
    split at h <;> simp at h
    obtain ⟨rfl, rfl, rfl⟩ := h
    rename_i v hv
    exact ⟨.nil, .hole, by simp [List.mem_of_getElem? hv], Nat.le_refl _⟩
  | .app e₁ e₂, vn, k, x, C, k', h, hw => by
    simp only [Src.Exp.wfp] at hw
    simp only [conv] at h
    split at h <;> try simp at h
    rename_i x₁ C₁ k₁ h₁
    split at h <;> simp at h
    rename_i x₂ C₂ k₂ h₂
    obtain ⟨rfl, rfl, rfl⟩ := h
    have a := conv_wf e₁ h₁ hw.1
    have b := conv_wf e₂ h₂ hw.2
    have ha := a.le; have hb := b.le
    refine ⟨?_, ?_, by simp [Ctx.spine_comp, Ctx.spine], by vomega⟩
    · simp only [Ctx.bv_comp, Ctx.bv]
      exact a.fresh.append (b.fresh.append .one hb (by vomega)) ha (by vomega)
    · refine a.scope.comp (Scoped.comp (b.scope.mono Finset.subset_union_left) (Scoped.letapp ?_ ?_))
      · have := a.var; simp only [Finset.mem_union] at this ⊢; exact .inl this
      · intro y hy; simp only [List.mem_singleton] at hy; subst hy
        have := b.var; simp only [Finset.mem_union] at this ⊢
        exact this.elim (fun h => .inl (.inl h)) .inr
  | .lam e, vn, k, x, C, k', h, hw => by
    simp only [Src.Exp.wfp] at hw
    simp only [conv] at h
    split at h <;> simp at h
    rename_i r C₁ k₁ h₁
    obtain ⟨rfl, rfl, rfl⟩ := h
    have a := conv_wf e h₁ (by simpa [Nat.add_comm] using hw)
    have ha := a.le
    refine ⟨?_, Scoped.fn (single_fv (by simpa using a.fv)), by simp [Ctx.spine, ANF.Defs.names], by vomega⟩
    simp only [Ctx.bv, ANF.Defs.bv, List.append_nil, List.singleton_append]
    exact (Fresh.cons (Fresh.cons a.bv (by vomega)) (by vomega)).perm (List.Perm.swap _ _ _)
  | .letin e₁ e₂, vn, k, x, C, k', h, hw => by
    simp only [Src.Exp.wfp] at hw
    simp only [conv] at h
    split at h <;> try simp at h
    rename_i x₁ C₁ k₁ h₁
    split at h <;> simp at h
    rename_i x₂ C₂ k₂ h₂
    obtain ⟨rfl, rfl, rfl⟩ := h
    have a := conv_wf e₁ h₁ hw.1
    have b := conv_wf e₂ h₂ (by simpa [Nat.add_comm] using hw.2)
    have ha := a.le; have hb := b.le
    have hsub : (x₁ :: vn).toFinset ⊆ vn.toFinset ∪ C₁.spine.toFinset := by
      rw [List.toFinset_cons]
      exact Finset.insert_subset a.var Finset.subset_union_left
    refine ⟨by rw [Ctx.bv_comp]; exact a.fresh.append b.fresh ha hb, a.scope.comp (b.scope.mono hsub), ?_, by vomega⟩
    have := b.var
    rw [Ctx.spine_comp, List.toFinset_append, ← Finset.union_assoc]
    exact Finset.union_subset_union_left hsub this
  | .con d es, vn, k, x, C, k', h, hw => by
    simp only [Src.Exp.wfp] at hw
    simp only [conv] at h
    split at h <;> simp at h
    rename_i ys C₁ k₁ h₁
    obtain ⟨rfl, rfl, rfl⟩ := h
    have a := convs_wf es h₁ hw
    have ha := a.2.2.2
    refine ⟨?_, a.2.1.comp (Scoped.constr a.2.2.1), by simp [Ctx.spine_comp, Ctx.spine], by vomega⟩
    simp only [Ctx.bv_comp, Ctx.bv]
    exact (Fresh.cons a.1 ha).perm (List.perm_append_singleton _ _).symm
  | .fix fs i, vn, k, x, C, k', h, hw => by
    simp only [Src.Exp.wfp] at hw
    simp only [conv, addFixNames_spec] at h
    split at h <;> simp at h
    rename_i y B k₁ h₁
    obtain ⟨rfl, rfl, rfl⟩ := h
    have a := convF_wf fs h₁ (by simp) (by simpa using hw.2)
    have ha := a.2.2.2
    have hnames := (convF_names fs h₁).1
    refine ⟨?_, Scoped.fn ?_, ?_, by vomega⟩
    · simp only [Ctx.bv, List.append_nil]
      obtain ⟨l, hl, hp⟩ := a.1
      exact ((Fresh.range' k fs.len).append hl (by vomega) ha).perm hp.symm
    · intro z hz
      simp only [ANF.Defs.fv, Finset.mem_sdiff] at hz
      have := a.2.1 hz.1
      rw [hnames] at hz
      simp only [List.toFinset_append, Finset.mem_union, List.toFinset_reverse] at this
      exact this.resolve_left hz.2
    · rw [Ctx.spine, hnames]
      simp only [Finset.mem_union, List.toFinset_append]
      refine .inr (.inl ?_)
      rw [List.mem_toFinset]
      exact a.2.2.1 hw.1
  | .mtch e bs, vn, k, x, C, k', h, hw => by
    simp only [Src.Exp.wfp] at hw
    simp only [conv] at h
    split at h <;> try simp at h
    rename_i x₁ C₁ k₁ h₁
    split at h <;> simp at h
    rename_i pats k₂ h₂
    obtain ⟨rfl, rfl, rfl⟩ := h
    have a := conv_wf e h₁ hw.1
    have b := convB_wf bs h₂ hw.2
    have ha := a.le; have hb := b.2.2
    refine ⟨?_, ?_, by simp [Ctx.spine_comp, Ctx.spine, ANF.Defs.names], by vomega⟩
    · simp only [Ctx.bv_comp, Ctx.bv, ANF.Defs.bv, ANF.Exp.bv, List.append_nil, List.singleton_append]
      have h1 : Fresh (k :: (k + 1) :: (C₁.bv ++ (pats.bv ++ [k₂]))) k (k₂ + 1) :=
        Fresh.cons (Fresh.cons (a.fresh.append (b.1.append .one hb (by vomega)) ha (by vomega)) (by vomega)) (by vomega)
      refine h1.perm ?_
      simp only [List.cons_append]
      refine .cons _ (.cons _ ?_)
      rw [← List.append_assoc, ← List.append_assoc]
      exact List.Perm.append_right _ List.perm_append_comm
    · have hB : (ANF.Defs.cons k P.funTag [k + 1] (.case (k + 1) pats) .nil).fv ⊆ vn.toFinset := by
        refine single_fv ?_
        simp only [ANF.Exp.fv]
        refine Finset.insert_subset (by simp) ?_
        exact b.2.1
      have : (Ctx.fn (ANF.Defs.cons k P.funTag [k + 1] (.case (k + 1) pats) .nil)
          (C₁.comp (.letapp k₂ k P.funTag [x₁] .hole))) =
          (Ctx.fn (ANF.Defs.cons k P.funTag [k + 1] (.case (k + 1) pats) .nil) .hole).comp
            (C₁.comp (.letapp k₂ k P.funTag [x₁] .hole)) := rfl
      rw [this]
      refine Scoped.comp (Scoped.fn hB) (Scoped.comp (a.scope.mono Finset.subset_union_left) (Scoped.letapp ?_ ?_))
      · simp [Ctx.spine, ANF.Defs.names]
      · intro y hy; simp only [List.mem_singleton] at hy; subst hy
        have := a.var; simp only [Finset.mem_union] at this ⊢
        exact this.elim (fun h => .inl (.inl h)) .inr
  | .prf, vn, k, x, C, k', h, hw => by
    simp only [conv, Option.some.injEq, Prod.mk.injEq] at h
    obtain ⟨rfl, rfl, rfl⟩ := h
    exact ⟨.one, Scoped.constr (by simp), by simp [Ctx.spine], by vomega⟩
  | .pval p, vn, k, x, C, k', h, hw => by
    simp only [conv, Option.some.injEq, Prod.mk.injEq] at h
    obtain ⟨rfl, rfl, rfl⟩ := h
    exact ⟨.one, Scoped.primVal, by simp [Ctx.spine], by vomega⟩
  | .prim p, vn, k, x, C, k', h, hw => by
    simp only [conv] at h
    split at h <;> simp at h
    rename_i n _
    have a := convPrim_wf (P := P) (p := p) n [] k
    rw [h] at a
    refine ⟨a.fresh, a.scope.mono (by simp), ?_, a.le⟩
    have := a.var
    simpa using Or.inr (by simpa using this)
theorem convs_wf : ∀ (es : Src.Exps) {vn k ys C k'}, convs P es vn k = some (ys, C, k') → es.wfp P.arity vn.length →
    Fresh C.bv k k' ∧ Scoped C vn.toFinset ∧ (∀ y ∈ ys, y ∈ vn.toFinset ∪ C.spine.toFinset) ∧ k ≤ k'
  | .nil, vn, k, ys, C, k', h, hw => by
    simp only [convs, Option.some.injEq, Prod.mk.injEq] at h
    obtain ⟨rfl, rfl, rfl⟩ := h
    exact ⟨.nil, .hole, by simp, Nat.le_refl _⟩
  | .cons e es, vn, k, ys, C, k', h, hw => by
    simp only [Src.Exps.wfp] at hw
    simp only [convs] at h
    split at h <;> try simp at h
    rename_i x₁ C₁ k₁ h₁
    split at h <;> simp at h
    rename_i x₂ C₂ k₂ h₂
    obtain ⟨rfl, rfl, rfl⟩ := h
    have a := conv_wf e h₁ hw.1
    obtain ⟨b1, b2, b3, hb⟩ := convs_wf es h₂ hw.2
    have ha := a.le
    refine ⟨by rw [Ctx.bv_comp]; exact a.fresh.append b1 ha hb, a.scope.comp (b2.mono Finset.subset_union_left), ?_, by vomega⟩
    intro y hy
    simp only [Ctx.spine_comp, List.toFinset_append, Finset.mem_union]
    rcases List.mem_cons.1 hy with rfl | hy
    · have := a.var; simp only [Finset.mem_union] at this
      exact this.elim .inl (fun h => .inr (.inl h))
    · have := b3 y hy; simp only [Finset.mem_union] at this
      exact this.elim .inl (fun h => .inr (.inr h))
theorem convF_wf : ∀ (fs : Src.Fns) {names i vn k x B k'}, convF P fs names i vn k = some (x, B, k') →
    names.length = fs.len → fs.wfp P.arity vn.length →
    (∃ l, Fresh l k k' ∧ B.bv.Perm (names ++ l)) ∧ B.fvRaw ⊆ vn.toFinset ∧ (i < fs.len → x ∈ names) ∧ k ≤ k'
  | .nil, names, i, vn, k, x, B, k', h, hl, hw => by
    cases names <;> simp [convF] at h
    obtain ⟨rfl, rfl, rfl⟩ := h
    exact ⟨⟨[], .nil, by simp [ANF.Defs.bv]⟩, by simp [ANF.Defs.fvRaw], by simp [Src.Fns.len], Nat.le_refl _⟩
  | .cons (.lam e) fs, f :: names, i, vn, k, x, B, k', h, hl, hw => by
    simp only [Src.Fns.wfp, Src.Exp.wfp] at hw
    simp only [convF] at h
    split at h <;> try simp at h
    rename_i r C k₁ h₁
    split at h <;> simp at h
    rename_i fi B' k₂ h₂
    obtain ⟨rfl, rfl, rfl⟩ := h
    have a := conv_wf e h₁ (by simpa [Nat.add_comm] using hw.1)
    obtain ⟨⟨l, b1, b1'⟩, b2, b3, hb⟩ := convF_wf fs h₂ (by simpa [Src.Fns.len] using hl) hw.2.2
    have ha := a.le
    refine ⟨⟨k :: ((C.fill (.halt r)).bv ++ l), Fresh.cons (a.bv.append b1 ha hb) (by vomega), ?_⟩, ?_, fun hi => ?_, by vomega⟩
    · simp only [ANF.Defs.bv, List.cons_append, List.nil_append]
      refine .cons _ ?_
      have h1 : (k :: ((C.fill (.halt r)).bv ++ B'.bv)).Perm (k :: ((C.fill (.halt r)).bv ++ (names ++ l))) :=
        .cons _ (List.Perm.append_left _ b1')
      refine h1.trans ?_
      have h2 : (names ++ k :: ((C.fill (.halt r)).bv ++ l)).Perm (k :: (names ++ ((C.fill (.halt r)).bv ++ l))) :=
        List.perm_middle
      refine List.Perm.trans (.cons _ ?_) h2.symm
      rw [← List.append_assoc, ← List.append_assoc]
      exact List.Perm.append_right _ List.perm_append_comm
    · intro z hz
      simp only [ANF.Defs.fvRaw, Finset.mem_union, Finset.mem_sdiff] at hz
      rcases hz with ⟨hz, hn⟩ | hz
      · have := a.fv hz
        simp only [List.toFinset_cons, Finset.mem_insert, List.toFinset_nil, Finset.notMem_empty, or_false] at this hn
        exact this.resolve_left hn
      · exact b2 hz
    · split
      · simp
      · exact List.mem_cons_of_mem _ (b3 (by simp [Src.Fns.len] at hi; omega))
  | .cons e fs, [], i, vn, k, x, B, k', h, hl, hw => by simp [Src.Fns.len] at hl
  | .cons (.var _) _, _ :: _, _, _, _, _, _, _, h, _, _ => by simp [convF] at h
  | .cons (.app _ _) _, _ :: _, _, _, _, _, _, _, h, _, _ => by simp [convF] at h
  | .cons (.con _ _) _, _ :: _, _, _, _, _, _, _, h, _, _ => by simp [convF] at h
  | .cons (.mtch _ _) _, _ :: _, _, _, _, _, _, _, h, _, _ => by simp [convF] at h
  | .cons (.letin _ _) _, _ :: _, _, _, _, _, _, _, h, _, _ => by simp [convF] at h
  | .cons (.fix _ _) _, _ :: _, _, _, _, _, _, _, h, _, _ => by simp [convF] at h
  | .cons (.prf) _, _ :: _, _, _, _, _, _, _, h, _, _ => by simp [convF] at h
  | .cons (.pval _) _, _ :: _, _, _, _, _, _, _, h, _, _ => by simp [convF] at h
  | .cons (.prim _) _, _ :: _, _, _, _, _, _, _, h, _, _ => by simp [convF] at h
theorem convB_wf : ∀ (bs : Src.Brs) {y vn k pats k'}, convB P bs y vn k = some (pats, k') → bs.wfp P.arity vn.length →
    Fresh pats.bv k k' ∧ pats.fv ⊆ insert y vn.toFinset ∧ k ≤ k'
  | .nil, y, vn, k, pats, k', h, hw => by
    simp only [convB, Option.some.injEq, Prod.mk.injEq] at h
    obtain ⟨rfl, rfl⟩ := h
    exact ⟨.nil, by simp [ANF.Brs.fv], Nat.le_refl _⟩
  | .cons d n e bs, y, vn, k, pats, k', h, hw => by
    simp only [Src.Brs.wfp] at hw
    simp only [convB, freshList_spec] at h
    split at h <;> try simp at h
    rename_i ps k₁ h₁
    split at h <;> simp at h
    rename_i r C k₂ h₂
    obtain ⟨rfl, rfl⟩ := h
    obtain ⟨a1, a2, ha⟩ := convB_wf bs h₁ hw.2
    have b := conv_wf e h₂ (by simpa using hw.1)
    have hb := b.le
    refine ⟨?_, ?_, by vomega⟩
    · simp only [ANF.Brs.bv, Ctx.bv_fill, ctxBindProj_bv]
      have h3 : Fresh (List.range' k₁ n ++ (C.fill (.halt r)).bv) k₁ k₂ :=
        (Fresh.range' k₁ n).append b.bv (by vomega) hb
      rw [Ctx.bv_fill] at h3
      exact (a1.append h3 ha (by vomega)).perm List.perm_append_comm
    · simp only [ANF.Brs.fv]
      refine Finset.union_subset ?_ a2
      intro z hz
      have := ctxBindProj_scoped (P.tag d) (Γ := {y}) (Finset.mem_singleton_self y) (List.range' k₁ n) _ _ hz
      simp only [Finset.mem_union, Finset.mem_singleton, Finset.mem_sdiff, ctxBindProj_spine] at this
      rw [Finset.mem_insert]
      rcases this with h | ⟨h, hn⟩
      · exact .inl h
      · have := b.fv h
        simp only [List.toFinset_append, Finset.mem_union] at this
        exact .inr (this.resolve_left hn)
end

/-! ## The tags matched on -/

/-- The tags in the case expressions of a context. -/
def Ctx.caseTags : Ctx → List Tag
  | .hole => []
  | .constr _ _ _ C => C.caseTags
  | .proj _ _ _ _ C => C.caseTags
  | .letapp _ _ _ _ C => C.caseTags
  | .primVal _ _ C => C.caseTags
  | .prim _ _ _ C => C.caseTags
  | .fn B C => B.caseTags ++ C.caseTags

theorem Ctx.caseTags_fill (C : Ctx) (e : ANF.Exp) : (C.fill e).caseTags = C.caseTags ++ e.caseTags := by
  induction C with
  | hole => rfl
  | _ => simp_all [Ctx.fill, Ctx.caseTags, ANF.Exp.caseTags]

theorem Ctx.caseTags_comp (C D : Ctx) : (C.comp D).caseTags = C.caseTags ++ D.caseTags := by
  induction C with
  | hole => rfl
  | _ => simp_all [Ctx.comp, Ctx.caseTags]

theorem ctxBindProj_caseTags (t r) : ∀ (vars : List Var) n, (ctxBindProj t r vars n).caseTags = []
  | [], _ => rfl
  | v :: vars, n => by simp [ctxBindProj, Ctx.caseTags, ctxBindProj_caseTags t r vars]

mutual
/-- The constructors in the branches of all matches satisfy `Q`. -/
def brsE (Q : Dcon → Prop) : Src.Exp → Prop
  | .var _ => True
  | .lam e => brsE Q e
  | .app e₁ e₂ => brsE Q e₁ ∧ brsE Q e₂
  | .con _ es => brsEs Q es
  | .mtch e bs => brsE Q e ∧ brsB Q bs
  | .letin e₁ e₂ => brsE Q e₁ ∧ brsE Q e₂
  | .fix fs _ => brsF Q fs
  | .prf => True
  | .pval _ => True
  | .prim _ => True
/-- The same for argument lists. -/
def brsEs (Q : Dcon → Prop) : Src.Exps → Prop
  | .nil => True
  | .cons e es => brsE Q e ∧ brsEs Q es
/-- The same for recursive functions. -/
def brsF (Q : Dcon → Prop) : Src.Fns → Prop
  | .nil => True
  | .cons e es => brsE Q e ∧ brsF Q es
/-- The same for branches. -/
def brsB (Q : Dcon → Prop) : Src.Brs → Prop
  | .nil => True
  | .cons d _ e bs => Q d ∧ brsE Q e ∧ brsB Q bs
end

mutual
theorem Typed.brs {T : Types} : ∀ {e}, Typed T e → brsE (fun d => ∃ n, T.Declared d n) e
  | .var _, _ => trivial
  | .lam e, h => Typed.brs (e := e) h
  | .app e₁ e₂, h => ⟨Typed.brs h.1, Typed.brs h.2⟩
  | .con d es, h => TypedEs.brs h.2
  | .mtch e bs, h => by obtain ⟨i, hi⟩ := h.2.1; exact ⟨Typed.brs h.1, TypedB.brs hi h.2.2⟩
  | .letin e₁ e₂, h => ⟨Typed.brs h.1, Typed.brs h.2⟩
  | .fix fs _, h => TypedF.brs (fs := fs) h
  | .prf, _ => trivial
  | .pval _, _ => trivial
  | .prim _, _ => trivial
theorem TypedEs.brs {T : Types} : ∀ {es}, TypedEs T es → brsEs (fun d => ∃ n, T.Declared d n) es
  | .nil, _ => trivial
  | .cons e es, h => ⟨Typed.brs h.1, TypedEs.brs h.2⟩
theorem TypedF.brs {T : Types} : ∀ {fs}, TypedF T fs → brsF (fun d => ∃ n, T.Declared d n) fs
  | .nil, _ => trivial
  | .cons e es, h => ⟨Typed.brs h.1, TypedF.brs h.2⟩
theorem TypedB.brs {T : Types} {i} : ∀ {bs}, T.Branches i bs → TypedB T bs → brsB (fun d => ∃ n, T.Declared d n) bs
  | .nil, _, _ => trivial
  | .cons d n e bs, hb, h => ⟨⟨n, hb.2.1⟩, Typed.brs h.1, TypedB.brs hb.2.2 h.2⟩
end

/-- All tags in a list belong to constructors satisfying `Q`. -/
def TagsOf (P : Params) (Q : Dcon → Prop) (ts : List Tag) : Prop := ∀ t ∈ ts, ∃ d, Q d ∧ t = P.tag d

theorem TagsOf.append {P Q ts ts'} (h : TagsOf P Q ts) (h' : TagsOf P Q ts') : TagsOf P Q (ts ++ ts') := by
  intro t ht; rcases List.mem_append.1 ht with ht | ht
  · exact h t ht
  · exact h' t ht

theorem TagsOf.nil {P Q} : TagsOf P Q [] := fun _ h => by cases h

variable {Q : Dcon → Prop}

theorem convPrim_caseTags (p : Tag) : ∀ n args k, (convPrim P p n args k).2.1.caseTags = []
  | 0, args, k => rfl
  | n + 1, args, k => by
    simp [convPrim, Ctx.caseTags, ANF.Defs.caseTags, Ctx.caseTags_fill, ANF.Exp.caseTags, convPrim_caseTags p n]

mutual
theorem conv_tags : ∀ (e : Src.Exp) {vn k x C k'}, conv P e vn k = some (x, C, k') → brsE Q e → TagsOf P Q C.caseTags
  | .var i, vn, k, x, C, k', h, hw => by
    simp only [conv] at h
    split at h <;> simp at h
    obtain ⟨rfl, rfl, rfl⟩ := h
    exact .nil
  | .app e₁ e₂, vn, k, x, C, k', h, hw => by
    simp only [conv] at h
    split at h <;> try simp at h
    rename_i x₁ C₁ k₁ h₁
    split at h <;> simp at h
    rename_i x₂ C₂ k₂ h₂
    obtain ⟨rfl, rfl, rfl⟩ := h
    simp only [Ctx.caseTags_comp]
    exact (conv_tags e₁ h₁ hw.1).append ((conv_tags e₂ h₂ hw.2).append .nil)
  | .lam e, vn, k, x, C, k', h, hw => by
    simp only [conv] at h
    split at h <;> simp at h
    rename_i r C₁ k₁ h₁
    obtain ⟨rfl, rfl, rfl⟩ := h
    have := conv_tags e h₁ hw
    simpa [Ctx.caseTags, ANF.Defs.caseTags, Ctx.caseTags_fill, ANF.Exp.caseTags] using this
  | .letin e₁ e₂, vn, k, x, C, k', h, hw => by
    simp only [conv] at h
    split at h <;> try simp at h
    rename_i x₁ C₁ k₁ h₁
    split at h <;> simp at h
    rename_i x₂ C₂ k₂ h₂
    obtain ⟨rfl, rfl, rfl⟩ := h
    simp only [Ctx.caseTags_comp]
    exact (conv_tags e₁ h₁ hw.1).append (conv_tags e₂ h₂ hw.2)
  | .con d es, vn, k, x, C, k', h, hw => by
    simp only [conv] at h
    split at h <;> simp at h
    rename_i ys C₁ k₁ h₁
    obtain ⟨rfl, rfl, rfl⟩ := h
    simp only [Ctx.caseTags_comp]
    exact (convs_tags es h₁ hw).append .nil
  | .fix fs i, vn, k, x, C, k', h, hw => by
    simp only [conv, addFixNames_spec] at h
    split at h <;> simp at h
    rename_i y B k₁ h₁
    obtain ⟨rfl, rfl, rfl⟩ := h
    have := convF_tags fs h₁ hw
    simpa [Ctx.caseTags] using this
  | .mtch e bs, vn, k, x, C, k', h, hw => by
    simp only [conv] at h
    split at h <;> try simp at h
    rename_i x₁ C₁ k₁ h₁
    split at h <;> simp at h
    rename_i pats k₂ h₂
    obtain ⟨rfl, rfl, rfl⟩ := h
    have := (convB_tags' bs h₂ hw.2).append (conv_tags e h₁ hw.1)
    simpa [Ctx.caseTags_comp, Ctx.caseTags, ANF.Defs.caseTags, ANF.Exp.caseTags] using this
  | .prf, vn, k, x, C, k', h, hw => by
    simp only [conv, Option.some.injEq, Prod.mk.injEq] at h
    obtain ⟨rfl, rfl, rfl⟩ := h
    exact .nil
  | .pval p, vn, k, x, C, k', h, hw => by
    simp only [conv, Option.some.injEq, Prod.mk.injEq] at h
    obtain ⟨rfl, rfl, rfl⟩ := h
    exact .nil
  | .prim p, vn, k, x, C, k', h, hw => by
    simp only [conv] at h
    split at h <;> simp at h
    rename_i n hn
    have := convPrim_caseTags (P := P) p n [] k
    rw [h] at this
    rw [this]; exact .nil
theorem convs_tags : ∀ (es : Src.Exps) {vn k ys C k'}, convs P es vn k = some (ys, C, k') → brsEs Q es → TagsOf P Q C.caseTags
  | .nil, vn, k, ys, C, k', h, hw => by
    simp only [convs, Option.some.injEq, Prod.mk.injEq] at h
    obtain ⟨rfl, rfl, rfl⟩ := h
    exact .nil
  | .cons e es, vn, k, ys, C, k', h, hw => by
    simp only [convs] at h
    split at h <;> try simp at h
    rename_i x₁ C₁ k₁ h₁
    split at h <;> simp at h
    rename_i x₂ C₂ k₂ h₂
    obtain ⟨rfl, rfl, rfl⟩ := h
    simp only [Ctx.caseTags_comp]
    exact (conv_tags e h₁ hw.1).append (convs_tags es h₂ hw.2)
theorem convF_tags : ∀ (fs : Src.Fns) {names i vn k x B k'}, convF P fs names i vn k = some (x, B, k') →
    brsF Q fs → TagsOf P Q B.caseTags
  | .nil, names, i, vn, k, x, B, k', h, hw => by
    cases names <;> simp [convF] at h
    obtain ⟨rfl, rfl, rfl⟩ := h
    exact .nil
  | .cons (.lam e) fs, f :: names, i, vn, k, x, B, k', h, hw => by
    simp only [convF] at h
    split at h <;> try simp at h
    rename_i r C k₁ h₁
    split at h <;> simp at h
    rename_i fi B' k₂ h₂
    obtain ⟨rfl, rfl, rfl⟩ := h
    have := (conv_tags e h₁ hw.1).append (convF_tags fs h₂ hw.2)
    simpa [ANF.Defs.caseTags, Ctx.caseTags_fill, ANF.Exp.caseTags] using this
  | .cons e fs, [], i, vn, k, x, B, k', h, hw => by cases e <;> simp [convF] at h
  | .cons (.var _) _, _ :: _, _, _, _, _, _, _, h, _ => by simp [convF] at h
  | .cons (.app _ _) _, _ :: _, _, _, _, _, _, _, h, _ => by simp [convF] at h
  | .cons (.con _ _) _, _ :: _, _, _, _, _, _, _, h, _ => by simp [convF] at h
  | .cons (.mtch _ _) _, _ :: _, _, _, _, _, _, _, h, _ => by simp [convF] at h
  | .cons (.letin _ _) _, _ :: _, _, _, _, _, _, _, h, _ => by simp [convF] at h
  | .cons (.fix _ _) _, _ :: _, _, _, _, _, _, _, h, _ => by simp [convF] at h
  | .cons (.prf) _, _ :: _, _, _, _, _, _, _, h, _ => by simp [convF] at h
  | .cons (.pval _) _, _ :: _, _, _, _, _, _, _, h, _ => by simp [convF] at h
  | .cons (.prim _) _, _ :: _, _, _, _, _, _, _, h, _ => by simp [convF] at h
theorem convB_tags' : ∀ (bs : Src.Brs) {y vn k pats k'}, convB P bs y vn k = some (pats, k') → brsB Q bs →
    TagsOf P Q pats.caseTags
  | .nil, y, vn, k, pats, k', h, hw => by
    simp only [convB, Option.some.injEq, Prod.mk.injEq] at h
    obtain ⟨rfl, rfl⟩ := h
    exact .nil
  | .cons d n e bs, y, vn, k, pats, k', h, hw => by
    simp only [convB, freshList_spec] at h
    split at h <;> try simp at h
    rename_i ps k₁ h₁
    split at h <;> simp at h
    rename_i r C k₂ h₂
    obtain ⟨rfl, rfl⟩ := h
    have := (conv_tags e h₂ hw.2.1).append (convB_tags' bs h₁ hw.2.2)
    simp only [ANF.Brs.caseTags, Ctx.caseTags_fill, ctxBindProj_caseTags, ANF.Exp.caseTags, List.append_nil, List.nil_append]
    intro t ht
    rcases List.mem_cons.1 ht with rfl | ht
    · exact ⟨d, hw.1, rfl⟩
    · exact this t ht
end

end Conv
