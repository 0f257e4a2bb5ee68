import Verif.ANF.ShrSim

/-!
# Shrink reduction: occurrences, size and termination

The occurrences that the census of the pass counts, the known functions that are still to be inlined, the measure of
`contract` and its effect on binders and size.
-/

namespace ANF
namespace Shr
open Ll (put)
open Inl (Ctx inlineLet sets)

/-- The number of elements of a list that a renaming maps to `y`. -/
def cn (σ : Var → Var) : List Var → Var → Nat
  | [], _ => 0
  | z :: l, y => (if σ z = y then 1 else 0) + cn σ l y

@[simp] theorem cn_nil {σ y} : cn σ [] y = 0 := rfl
@[simp] theorem cn_cons {σ z l y} : cn σ (z :: l) y = (if σ z = y then 1 else 0) + cn σ l y := rfl
@[simp] theorem cn_append {σ y} : ∀ {l l' : List Var}, cn σ (l ++ l') y = cn σ l y + cn σ l' y
  | [], _ => by simp
  | _ :: l, l' => by simp [cn_append (l := l), Nat.add_assoc]

theorem cn_pos {σ y} : ∀ {l : List Var}, 0 < cn σ l y ↔ ∃ z ∈ l, σ z = y
  | [] => by simp
  | z :: l => by
    simp only [cn_cons, List.mem_cons, exists_eq_or_imp]
    rw [← cn_pos (l := l)]
    split <;> simp_all

theorem cn_mem {y} {l : List Var} : 0 < cn id l y ↔ y ∈ l := by simp [cn_pos]

theorem cn_zero {y} {l : List Var} : cn id l y = 0 ↔ y ∉ l := by rw [← cn_mem]; omega

theorem cn_map {σ τ : Var → Var} {y} : ∀ {l : List Var}, cn τ (l.map σ) y = cn (fun z => τ (σ z)) l y
  | [] => rfl
  | _ :: l => by simp [cn_map (l := l)]

theorem cn_congr {σ τ : Var → Var} {y} : ∀ {l : List Var}, (∀ z ∈ l, σ z = τ z) → cn σ l y = cn τ l y
  | [], _ => rfl
  | z :: l, h => by rw [cn_cons, cn_cons, h z (by simp), cn_congr fun w hw => h w (by simp [hw])]

theorem nodup_cn : ∀ {l : List Var}, l.Nodup ↔ ∀ w, cn id l w ≤ 1
  | [] => by simp
  | z :: l => by
    rw [List.nodup_cons, nodup_cn (l := l), ← cn_mem]
    constructor
    · rintro ⟨h1, h2⟩ w
      have := h2 w
      simp only [cn_cons, id]
      split
      · next h => subst h; omega
      · omega
    · intro h
      refine ⟨?_, fun w => ?_⟩
      · have := h z; simp at this; omega
      · have := h w; simp at this; omega

theorem Sublist_cn {l l' : List Var} (h : l.Sublist l') (σ w) : cn σ l w ≤ cn σ l' w := by
  induction h with
  | slnil => simp
  | cons a _ ih => simp; omega
  | cons_cons a _ ih => simp; omega

mutual
/-- The occurrences of variables in a term, other than binders. -/
def uses : Exp → List Var
  | .constr _ _ ys e => ys ++ uses e
  | .primVal _ _ e => uses e
  | .prim _ _ ys e => ys ++ uses e
  | .case v bs => v :: usesB bs
  | .proj _ _ _ y e => y :: uses e
  | .letapp _ f _ ys e => f :: (ys ++ uses e)
  | .fn B e => usesD B ++ uses e
  | .app f _ ys => f :: ys
  | .halt v => [v]
/-- The occurrences in branches. -/
def usesB : Brs → List Var
  | .nil => []
  | .cons _ e bs => uses e ++ usesB bs
/-- The occurrences in a bundle. -/
def usesD : Defs → List Var
  | .nil => []
  | .cons _ _ _ e B => uses e ++ usesD B
end

mutual
theorem uses_fv : ∀ (e : Exp) (y : Var), y ∈ e.fv → y ∈ uses e
  | .constr x t ys e, y => by
    have := uses_fv e y; simp only [Exp.fv, uses, Finset.mem_union, List.mem_toFinset, Finset.mem_erase, List.mem_append]; tauto
  | .primVal x p e, y => by have := uses_fv e y; simp only [Exp.fv, uses, Finset.mem_erase]; tauto
  | .prim x p ys e, y => by
    have := uses_fv e y; simp only [Exp.fv, uses, Finset.mem_union, List.mem_toFinset, Finset.mem_erase, List.mem_append]; tauto
  | .case v bs, y => by have := usesB_fv bs y; simp only [Exp.fv, uses, Finset.mem_insert, List.mem_cons]; tauto
  | .proj x t i z e, y => by
    have := uses_fv e y; simp only [Exp.fv, uses, Finset.mem_insert, Finset.mem_erase, List.mem_cons]; tauto
  | .letapp x f t ys e, y => by
    have := uses_fv e y
    simp only [Exp.fv, uses, Finset.mem_insert, Finset.mem_union, List.mem_toFinset, Finset.mem_erase, List.mem_cons,
      List.mem_append]; tauto
  | .fn B e, y => by
    have := uses_fv e y; have := usesD_fv B y
    simp only [Exp.fv, uses, Finset.mem_sdiff, Finset.mem_union, List.mem_append]; tauto
  | .app f t ys, y => by simp [Exp.fv, uses]
  | .halt v, y => by simp [Exp.fv, uses]
theorem usesB_fv : ∀ (bs : Brs) (y : Var), y ∈ bs.fv → y ∈ usesB bs
  | .nil, y => by simp [Brs.fv]
  | .cons t e bs, y => by
    have := uses_fv e y; have := usesB_fv bs y; simp only [Brs.fv, usesB, Finset.mem_union, List.mem_append]; tauto
theorem usesD_fv : ∀ (B : Defs) (y : Var), y ∈ B.fvRaw → y ∈ usesD B
  | .nil, y => by simp [Defs.fvRaw]
  | .cons f t xs e B, y => by
    have := uses_fv e y; have := usesD_fv B y
    simp only [Defs.fvRaw, usesD, Finset.mem_union, Finset.mem_sdiff, List.mem_append]; tauto
end

mutual
theorem uses_scope : ∀ (e : Exp) (y : Var), y ∈ uses e → y ∈ e.fv ∨ y ∈ e.bv
  | .constr x t ys e, y => by
    have := uses_scope e y
    simp only [Exp.fv, Exp.bv, uses, Finset.mem_union, List.mem_toFinset, Finset.mem_erase, List.mem_append, List.mem_cons]; tauto
  | .primVal x p e, y => by
    have := uses_scope e y; simp only [Exp.fv, Exp.bv, uses, Finset.mem_erase, List.mem_cons]; tauto
  | .prim x p ys e, y => by
    have := uses_scope e y
    simp only [Exp.fv, Exp.bv, uses, Finset.mem_union, List.mem_toFinset, Finset.mem_erase, List.mem_append, List.mem_cons]; tauto
  | .case v bs, y => by
    have := usesB_scope bs y; simp only [Exp.fv, Exp.bv, uses, Finset.mem_insert, List.mem_cons]; tauto
  | .proj x t i z e, y => by
    have := uses_scope e y; simp only [Exp.fv, Exp.bv, uses, Finset.mem_insert, Finset.mem_erase, List.mem_cons]; tauto
  | .letapp x f t ys e, y => by
    have := uses_scope e y
    simp only [Exp.fv, Exp.bv, uses, Finset.mem_insert, Finset.mem_union, List.mem_toFinset, Finset.mem_erase, List.mem_cons,
      List.mem_append]; tauto
  | .fn B e, y => by
    have := uses_scope e y; have := usesD_scope B y
    have hn : y ∈ B.names → y ∈ B.bv := fun h => (names_bv B).subset h
    simp only [Exp.fv, Exp.bv, uses, Finset.mem_sdiff, Finset.mem_union, List.mem_append, List.mem_toFinset]; tauto
  | .app f t ys, y => by simp only [Exp.fv, uses, Finset.mem_insert, List.mem_toFinset, List.mem_cons]; tauto
  | .halt v, y => by simp only [Exp.fv, uses, Finset.mem_singleton, List.mem_singleton]; tauto
theorem usesB_scope : ∀ (bs : Brs) (y : Var), y ∈ usesB bs → y ∈ bs.fv ∨ y ∈ bs.bv
  | .nil, y => by simp [usesB]
  | .cons t e bs, y => by
    have := uses_scope e y; have := usesB_scope bs y
    simp only [Brs.fv, Brs.bv, usesB, Finset.mem_union, List.mem_append]; tauto
theorem usesD_scope : ∀ (B : Defs) (y : Var), y ∈ usesD B → y ∈ B.fvRaw ∨ y ∈ B.bv
  | .nil, y => by simp [usesD]
  | .cons f t xs e B, y => by
    have := uses_scope e y; have := usesD_scope B y
    simp only [Defs.fvRaw, Defs.bv, usesD, Finset.mem_union, Finset.mem_sdiff, List.mem_append, List.mem_cons,
      List.mem_toFinset]; tauto
end

theorem censusL_dec {σ} : ∀ {ys : List Var} {c : Count} {y}, censusL σ (· - 1) ys c y = c y - cn σ ys y
  | [], c, y => by simp [censusL]
  | z :: ys, c, y => by
    rw [censusL, censusL_dec, cn_cons]
    by_cases h : σ z = y
    · subst h; simp only [Inl.put_self, if_true]; omega
    · rw [Inl.put_other (Ne.symm h), if_neg h]; omega

theorem censusL_inc {σ} : ∀ {ys : List Var} {c : Count} {y}, censusL σ (· + 1) ys c y = c y + cn σ ys y
  | [], c, y => by simp [censusL]
  | z :: ys, c, y => by
    rw [censusL, censusL_inc, cn_cons]
    by_cases h : σ z = y
    · subst h; simp only [Inl.put_self, if_true]; omega
    · rw [Inl.put_other (Ne.symm h), if_neg h]; omega

mutual
theorem census_dec {σ} : ∀ {e : Exp} {c : Count} {y}, census σ (· - 1) e c y = c y - cn σ (uses e) y
  | .constr _ _ ys e, c, y => by rw [census, census_dec, censusL_dec, uses, cn_append]; omega
  | .primVal _ _ e, c, y => by rw [census, census_dec, uses]
  | .prim _ _ ys e, c, y => by rw [census, census_dec, censusL_dec, uses, cn_append]; omega
  | .case v bs, c, y => by rw [census, censusB_dec, censusL_dec, uses]; simp only [cn_cons, cn_nil]; omega
  | .proj _ _ _ z e, c, y => by rw [census, census_dec, censusL_dec, uses]; simp only [cn_cons, cn_nil]; omega
  | .letapp _ f _ ys e, c, y => by
    rw [census, census_dec, censusL_dec, uses]; simp only [cn_cons, cn_append]; omega
  | .fn B e, c, y => by rw [census, census_dec, censusD_dec, uses, cn_append]; omega
  | .app f _ ys, c, y => by rw [census, censusL_dec, uses]
  | .halt v, c, y => by rw [census, censusL_dec, uses]
theorem censusB_dec {σ} : ∀ {bs : Brs} {c : Count} {y}, censusB σ (· - 1) bs c y = c y - cn σ (usesB bs) y
  | .nil, c, y => by simp [censusB, usesB]
  | .cons _ e bs, c, y => by rw [censusB, census_dec, censusB_dec, usesB, cn_append]; omega
theorem censusD_dec {σ} : ∀ {B : Defs} {c : Count} {y}, censusD σ (· - 1) B c y = c y - cn σ (usesD B) y
  | .nil, c, y => by simp [censusD, usesD]
  | .cons _ _ _ e B, c, y => by rw [censusD, censusD_dec, census_dec, usesD, cn_append]; omega
end

mutual
theorem census_inc {σ} : ∀ {e : Exp} {c : Count} {y}, census σ (· + 1) e c y = c y + cn σ (uses e) y
  | .constr _ _ ys e, c, y => by rw [census, census_inc, censusL_inc, uses, cn_append]; omega
  | .primVal _ _ e, c, y => by rw [census, census_inc, uses]
  | .prim _ _ ys e, c, y => by rw [census, census_inc, censusL_inc, uses, cn_append]; omega
  | .case v bs, c, y => by rw [census, censusB_inc, censusL_inc, uses]; simp only [cn_cons, cn_nil]; omega
  | .proj _ _ _ z e, c, y => by rw [census, census_inc, censusL_inc, uses]; simp only [cn_cons, cn_nil]; omega
  | .letapp _ f _ ys e, c, y => by
    rw [census, census_inc, censusL_inc, uses]; simp only [cn_cons, cn_append]; omega
  | .fn B e, c, y => by rw [census, census_inc, censusD_inc, uses, cn_append]; omega
  | .app f _ ys, c, y => by rw [census, censusL_inc, uses]
  | .halt v, c, y => by rw [census, censusL_inc, uses]
theorem censusB_inc {σ} : ∀ {bs : Brs} {c : Count} {y}, censusB σ (· + 1) bs c y = c y + cn σ (usesB bs) y
  | .nil, c, y => by simp [censusB, usesB]
  | .cons _ e bs, c, y => by rw [censusB, census_inc, censusB_inc, usesB, cn_append]; omega
theorem censusD_inc {σ} : ∀ {B : Defs} {c : Count} {y}, censusD σ (· + 1) B c y = c y + cn σ (usesD B) y
  | .nil, c, y => by simp [censusD, usesD]
  | .cons _ _ _ e B, c, y => by rw [censusD, censusD_inc, census_inc, usesD, cn_append]; omega
end

theorem decE_eq {σ e c y} : decE σ e c y = c y - cn σ (uses e) y := census_dec
theorem decL_eq {σ ys c y} : decL σ ys c y = c y - cn σ ys y := censusL_dec
theorem initCensus_eq {e y} : initCensus e y = cn id (uses e) y := by rw [initCensus, census_inc]; omega

theorem decAll_eq {σ} : ∀ {bs : Brs} {c : Count} {y}, decAll σ bs c y = c y - cn σ (usesB bs) y
  | .nil, c, y => by simp [decAll, usesB]
  | .cons _ e bs, c, y => by rw [decAll, decE_eq, decAll_eq, usesB, cn_append]; omega

theorem decCase_le {σ t} : ∀ {bs : Brs} {c : Count} {y}, decCase σ t bs c y ≤ c y
  | .nil, c, y => by simp [decCase]
  | .cons k e bs, c, y => by
    have := decCase_le (σ := σ) (t := t) (bs := bs) (c := c) (y := y)
    rw [decCase]
    split
    · rw [decAll_eq]; omega
    · rw [decE_eq]; omega

theorem decCase_ge {σ t} : ∀ {bs : Brs} {c : Count} {y e}, findTag t bs = some e →
    c y + cn σ (uses e) y ≤ decCase σ t bs c y + cn σ (usesB bs) y
  | .nil, c, y, e, h => by simp [findTag] at h
  | .cons k e' bs, c, y, e, h => by
    rw [findTag] at h
    rw [decCase]
    split at h
    · next hk => cases h; rw [if_pos hk, decAll_eq, usesB, cn_append]; omega
    · next hk =>
      have := decCase_ge (σ := σ) (c := c) (y := y) h
      rw [if_neg hk, decE_eq, usesB, cn_append]; omega

/-! ## Known functions that are not inlined yet -/

/-- The occurrences in their bodies. -/
def pu (im : Var → Bool) : Sub → List Var
  | [] => []
  | (_, .con _ _) :: s => pu im s
  | (f, .fn _ _ e) :: s => if im f then pu im s else uses e ++ pu im s

/-- Their parameters and binders. -/
def pb (im : Var → Bool) : Sub → List Var
  | [] => []
  | (_, .con _ _) :: s => pb im s
  | (f, .fn _ xs e) :: s => if im f then pb im s else (xs ++ e.bv) ++ pb im s

/-- A bundle as known functions. -/
def subs : Defs → Sub
  | .nil => []
  | .cons f t xs e B => (f, .fn t xs e) :: subs B

theorem pu_append {im} : ∀ {s s' : Sub}, pu im (s ++ s') = pu im s ++ pu im s'
  | [], s' => rfl
  | (_, .con _ _) :: s, s' => by simp [pu, pu_append (s := s)]
  | (f, .fn _ _ e) :: s, s' => by simp only [List.cons_append, pu, pu_append (s := s)]; split <;> simp

theorem pb_append {im} : ∀ {s s' : Sub}, pb im (s ++ s') = pb im s ++ pb im s'
  | [], s' => rfl
  | (_, .con _ _) :: s, s' => by simp [pb, pb_append (s := s)]
  | (f, .fn _ _ e) :: s, s' => by simp only [List.cons_append, pb, pb_append (s := s)]; split <;> simp

theorem subSize_append {im} : ∀ {s s' : Sub}, subSize im (s ++ s') = subSize im s + subSize im s'
  | [], s' => by simp [subSize]
  | (_, .con _ _) :: s, s' => by simp [subSize, subSize_append (s := s)]
  | (f, .fn _ _ e) :: s, s' => by simp only [List.cons_append, subSize, subSize_append (s := s)]; omega

/-- More functions are inlined. -/
def Mono (im im' : Var → Bool) : Prop := ∀ f, im f = true → im' f = true

theorem Mono.refl (im) : Mono im im := fun _ h => h
theorem Mono.trans {a b c} (h : Mono a b) (h' : Mono b c) : Mono a c := fun f hf => h' f (h f hf)
theorem Mono.put (im : Var → Bool) (f) : Mono im (put im f true) := by
  intro g hg
  by_cases h : g = f
  · subst h; exact Inl.put_self
  · rw [Inl.put_other h]; exact hg

theorem Mono.neg {im im'} (h : Mono im im') {f} (hf : im' f = false) : im f = false := by
  cases hi : im f with
  | false => rfl
  | true => rw [h f hi] at hf; cases hf

theorem Mono.pu {im im'} (h : Mono im im') {σ y} : ∀ {s : Sub}, cn σ (pu im' s) y ≤ cn σ (pu im s) y
  | [] => by simp [Shr.pu]
  | (_, .con _ _) :: s => by simpa [Shr.pu] using h.pu (s := s)
  | (f, .fn _ _ e) :: s => by
    have ih := h.pu (σ := σ) (y := y) (s := s)
    simp only [Shr.pu]
    have := h f
    split <;> split <;> simp_all <;> omega

theorem Mono.pb {im im'} (h : Mono im im') {σ y} : ∀ {s : Sub}, cn σ (pb im' s) y ≤ cn σ (pb im s) y
  | [] => by simp [Shr.pb]
  | (_, .con _ _) :: s => by simpa [Shr.pb] using h.pb (s := s)
  | (f, .fn _ _ e) :: s => by
    have ih := h.pb (σ := σ) (y := y) (s := s)
    simp only [Shr.pb]
    have := h f
    split <;> split <;> simp_all <;> omega

theorem Mono.size {im im'} (h : Mono im im') : ∀ {s : Sub}, subSize im' s ≤ subSize im s
  | [] => by simp [subSize]
  | (_, .con _ _) :: s => by simpa [subSize] using h.size (s := s)
  | (f, .fn _ _ e) :: s => by
    have ih := h.size (s := s)
    simp only [subSize]
    have := h f
    split <;> split <;> simp_all <;> omega

theorem pull_u {im : Var → Bool} {f t xs m σ y} (hf : im f = false) : ∀ {s : Sub}, (f, .fn t xs m) ∈ s →
    cn σ (uses m) y + cn σ (pu (put im f true) s) y ≤ cn σ (pu im s) y
  | [], h => by simp at h
  | (g, v) :: s, h => by
    have hm := (Mono.put im f).pu (σ := σ) (y := y) (s := s)
    simp only [List.mem_cons, Prod.mk.injEq] at h
    rcases h with ⟨rfl, rfl⟩ | h
    · simp only [pu, Inl.put_self, hf, if_true]; simp; omega
    · have ih := pull_u (im := im) (σ := σ) (y := y) hf h
      have hm1 := (Mono.put im f) g
      cases v with
      | con => exact ih
      | fn t' xs' e' => simp only [pu]; split <;> split <;> simp_all <;> omega

theorem pull_b {im : Var → Bool} {f t xs m σ y} (hf : im f = false) : ∀ {s : Sub}, (f, .fn t xs m) ∈ s →
    cn σ xs y + cn σ m.bv y + cn σ (pb (put im f true) s) y ≤ cn σ (pb im s) y
  | [], h => by simp at h
  | (g, v) :: s, h => by
    have hm := (Mono.put im f).pb (σ := σ) (y := y) (s := s)
    simp only [List.mem_cons, Prod.mk.injEq] at h
    rcases h with ⟨rfl, rfl⟩ | h
    · simp only [pb, Inl.put_self, hf, if_true]; simp; omega
    · have ih := pull_b (im := im) (σ := σ) (y := y) hf h
      have hm1 := (Mono.put im f) g
      cases v with
      | con => exact ih
      | fn t' xs' e' => simp only [pb]; split <;> split <;> simp_all <;> omega

theorem pull_size {im : Var → Bool} {f t xs m} (hf : im f = false) : ∀ {s : Sub}, (f, .fn t xs m) ∈ s →
    tsize m + subSize (put im f true) s ≤ subSize im s
  | [], h => by simp at h
  | (g, v) :: s, h => by
    have hm := (Mono.put im f).size (s := s)
    simp only [List.mem_cons, Prod.mk.injEq] at h
    rcases h with ⟨rfl, rfl⟩ | h
    · simp only [subSize, Inl.put_self, hf, if_true]; simp; omega
    · have ih := pull_size (im := im) hf h
      have hm1 := (Mono.put im f) g
      cases v with
      | con => exact ih
      | fn t' xs' e' => simp only [subSize]; split <;> split <;> simp_all <;> omega

theorem mem_pu {im : Var → Bool} {z} : ∀ {s : Sub}, z ∈ pu im s →
    ∃ f t xs m, (f, .fn t xs m) ∈ s ∧ im f = false ∧ z ∈ uses m
  | [], h => by simp [pu] at h
  | (g, .con _ _) :: s, h => by
    obtain ⟨f, t, xs, m, h1, h2⟩ := mem_pu (s := s) h
    exact ⟨f, t, xs, m, by simp [h1], h2⟩
  | (g, .fn t' xs' m') :: s, h => by
    simp only [pu] at h
    split at h
    · obtain ⟨f, t, xs, m, h1, h2⟩ := mem_pu (s := s) h
      exact ⟨f, t, xs, m, by simp [h1], h2⟩
    · rcases List.mem_append.mp h with h | h
      · exact ⟨g, t', xs', m', by simp, by simpa using ‹¬ im g = true›, h⟩
      · obtain ⟨f, t, xs, m, h1, h2⟩ := mem_pu (s := s) h
        exact ⟨f, t, xs, m, by simp [h1], h2⟩

theorem get_mem {x v} : ∀ {s : Sub}, Sub.get x s = some v → (x, v) ∈ s
  | [], h => by simp [Sub.get] at h
  | (y, w) :: s, h => by
    simp only [Sub.get] at h
    split at h
    · next he => subst he; cases h; simp
    · simp [get_mem h]

theorem inlinable_some {c s im f' t n xs m} (h : inlinable c s im f' t n = some (xs, m)) :
    c f' = 1 ∧ Sub.get f' s = some (.fn t xs m) ∧ n = xs.length ∧ im f' = false := by
  simp only [inlinable] at h
  split at h
  · split at h
    · split at h
      · next h3 => cases h; obtain ⟨rfl, h4, h5⟩ := h3; exact ⟨by assumption, by assumption, h4, h5⟩
      · cases h
    · cases h
  · cases h

/-! ## Size and binders -/

mutual
theorem ren_size (δ : Var → Var) : ∀ e : Exp, tsize (ren δ e) = tsize e
  | .constr _ _ _ e => by simp [ren, tsize, ren_size δ e]
  | .primVal _ _ e => by simp [ren, tsize, ren_size δ e]
  | .prim _ _ _ e => by simp [ren, tsize, ren_size δ e]
  | .proj _ _ _ _ e => by simp [ren, tsize, ren_size δ e]
  | .letapp _ _ _ _ e => by simp [ren, tsize, ren_size δ e]
  | .case _ bs => by simp [ren, tsize, renB_size δ bs]
  | .fn B e => by simp [ren, tsize, ren_size δ e, renD_size δ B]
  | .app _ _ _ => by simp [ren, tsize]
  | .halt _ => by simp [ren, tsize]
theorem renB_size (δ : Var → Var) : ∀ bs : Brs, tsizeB (renB δ bs) = tsizeB bs
  | .nil => rfl
  | .cons _ e bs => by simp [renB, tsizeB, ren_size δ e, renB_size δ bs]
theorem renD_size (δ : Var → Var) : ∀ B : Defs, tsizeD (renD δ B) = tsizeD B
  | .nil => rfl
  | .cons _ _ _ e B => by simp [renD, tsizeD, ren_size δ e, renD_size δ B]
end

theorem plug_size {k : Exp} : ∀ {m : Exp} {x C z}, inlineLet m x = some (C, z) → tsize (C.plug k) ≤ tsize m + tsize k
  | .constr y t ys e, x, C, z, h => by
    simp only [inlineLet, Option.map_eq_some_iff, Prod.mk.injEq] at h
    obtain ⟨⟨C', z'⟩, h, rfl, rfl⟩ := h
    have := plug_size (k := k) h; simp only [Ctx.plug, tsize]; omega
  | .case _ _, _, _, _, h => by simp [inlineLet] at h
  | .proj y t i w e, x, C, z, h => by
    simp only [inlineLet, Option.map_eq_some_iff, Prod.mk.injEq] at h
    obtain ⟨⟨C', z'⟩, h, rfl, rfl⟩ := h
    have := plug_size (k := k) h; simp only [Ctx.plug, tsize]; omega
  | .letapp y f t ys e, x, C, z, h => by
    simp only [inlineLet, Option.map_eq_some_iff, Prod.mk.injEq] at h
    obtain ⟨⟨C', z'⟩, h, rfl, rfl⟩ := h
    have := plug_size (k := k) h; simp only [Ctx.plug, tsize]; omega
  | .fn B e, x, C, z, h => by
    simp only [inlineLet, Option.map_eq_some_iff, Prod.mk.injEq] at h
    obtain ⟨⟨C', z'⟩, h, rfl, rfl⟩ := h
    have := plug_size (k := k) h; simp only [Ctx.plug, tsize]; omega
  | .app f t ys, x, C, z, h => by
    simp only [inlineLet, Option.some.injEq, Prod.mk.injEq] at h
    obtain ⟨rfl, rfl⟩ := h
    simp [Ctx.plug, tsize]
  | .primVal y p e, x, C, z, h => by
    simp only [inlineLet, Option.map_eq_some_iff, Prod.mk.injEq] at h
    obtain ⟨⟨C', z'⟩, h, rfl, rfl⟩ := h
    have := plug_size (k := k) h; simp only [Ctx.plug, tsize]; omega
  | .prim y p ys e, x, C, z, h => by
    simp only [inlineLet, Option.map_eq_some_iff, Prod.mk.injEq] at h
    obtain ⟨⟨C', z'⟩, h, rfl, rfl⟩ := h
    have := plug_size (k := k) h; simp only [Ctx.plug, tsize]; omega
  | .halt y, x, C, z, h => by
    simp only [inlineLet, Option.some.injEq, Prod.mk.injEq] at h
    obtain ⟨rfl, rfl⟩ := h
    simp [Ctx.plug]

theorem findTag_size : ∀ {bs : Brs} {t e}, findTag t bs = some e → tsize e ≤ tsizeB bs
  | .nil, _, _, h => by simp [findTag] at h
  | .cons _ e bs, t, _, h => by
    rw [findTag] at h
    split at h
    · cases h; simp [tsizeB]
    · have := findTag_size h; simp only [tsizeB]; omega

/-- What a result costs: no binder is duplicated and the size does not grow. -/
structure Mass (bs : List Var) (n : Nat) (s : Sub) (im : Var → Bool) (bs' : List Var) (n' : Nat) (im' : Var → Bool) : Prop where
  mono : Mono im im'
  bvs : ∀ w, cn id bs' w + cn id (pb im' s) w ≤ cn id bs w + cn id (pb im s) w
  size : n' + subSize im' s ≤ n + subSize im s

/-- A result of `rec` has the `Mass` of its argument. -/
def Massive (rec : Rec) : Prop := ∀ σ c e s im r, rec σ c e s im = some r →
  Mass e.bv (tsize e) s im r.out.bv (tsize r.out) r.im

theorem conCases_mass {rec : Rec} (hr : Massive rec) {σ s} : ∀ {bs c im q}, conCases rec σ s c im bs = some q →
    Mass bs.bv (tsizeB bs) s im q.out.bv (tsizeB q.out) q.im
  | .nil, c, im, q, h => by cases h; exact ⟨.refl _, fun _ => le_rfl, le_rfl⟩
  | .cons t e bs, c, im, q, h => by
    simp only [conCases] at h
    split at h
    · cases h
    · next r hr1 =>
      split at h
      · cases h
      · next q' hq =>
        cases h
        have h1 := hr _ _ _ _ _ _ hr1
        have h2 := conCases_mass hr hq
        refine ⟨h1.mono.trans h2.mono, fun w => ?_, ?_⟩
        · have := h1.bvs w; have := h2.bvs w
          simp only [Brs.bv, cn_append]; omega
        · have := h1.size; have := h2.size
          simp only [tsizeB]; omega

theorem preFun_sub {σ s} : ∀ {B : Defs} {c}, (preFun σ c s B).2.2 = subs (preFun σ c s B).1 ++ s
  | .nil, c => rfl
  | .cons f t xs e B, c => by
    simp only [preFun]
    split
    · exact preFun_sub
    · simp [subs, preFun_sub (B := B)]

theorem preFun_size {σ s} : ∀ {B : Defs} {c}, tsizeD (preFun σ c s B).1 ≤ tsizeD B
  | .nil, c => le_rfl
  | .cons f t xs e B, c => by
    simp only [preFun]
    split
    · have := preFun_size (σ := σ) (s := s) (B := B) (c := decE σ e c); simp only [tsizeD]; omega
    · have := preFun_size (σ := σ) (s := s) (B := B) (c := c); simp only [tsizeD]; omega

theorem preFun_bv {σ s} : ∀ {B : Defs} {c}, (preFun σ c s B).1.bv.Sublist B.bv
  | .nil, c => .slnil
  | .cons f t xs e B, c => by
    simp only [preFun]
    split
    · refine .cons _ (.trans preFun_bv ?_)
      exact (List.sublist_append_right _ _).trans (List.sublist_append_right _ _)
    · simp only [Defs.bv]
      exact .cons_cons _ (.append (.refl _) (.append (.refl _) preFun_bv))

theorem subs_size {im} : ∀ {B : Defs}, B.names.length + 1 + subSize im (subs B) ≤ tsizeD B
  | .nil => by simp [subs, subSize, tsizeD, Defs.names]
  | .cons f t xs e B => by
    have := subs_size (im := im) (B := B)
    simp only [subs, subSize, tsizeD, Defs.names, List.length_cons]; split <;> omega

theorem subs_bv {im w} : ∀ {B : Defs}, cn id B.names w + cn id (pb im (subs B)) w ≤ cn id B.bv w
  | .nil => by simp [subs, pb, Defs.bv, Defs.names]
  | .cons f t xs e B => by
    have := subs_bv (im := im) (w := w) (B := B)
    by_cases hf : im f = true <;> simp [subs, pb, Defs.bv, Defs.names, hf] <;> omega

theorem postFun_mass {rec : Rec} (hr : Massive rec) {σ s} : ∀ {B c im q}, postFun rec σ s c im B = some q →
    Mass (B.names ++ pb im (subs B)) (B.names.length + 1 + subSize im (subs B)) s im q.out.bv (tsizeD q.out) q.im
  | .nil, c, im, q, h => by
    cases h; exact ⟨.refl _, fun _ => by simp [Defs.bv, Defs.names, subs, pb], by simp [Defs.names, tsizeD]⟩
  | .cons f t xs e B, c, im, q, h => by
    simp only [postFun] at h
    simp only [Defs.names, subs, pb, subSize]
    split at h
    · next hf =>
      have h1 := postFun_mass hr h
      refine ⟨h1.mono, fun w => ?_, ?_⟩
      · have := h1.bvs w; rw [if_pos hf]; simp only [cn_append, List.cons_append, cn_cons] at this ⊢; omega
      · have := h1.size; rw [if_pos hf]; simp only [List.length_cons]; omega
    · next hf =>
      rw [if_neg hf, if_neg hf]
      split at h
      · have h1 := postFun_mass hr h
        refine ⟨h1.mono, fun w => ?_, ?_⟩
        · have := h1.bvs w; simp only [cn_append, List.cons_append, cn_cons] at this ⊢; omega
        · have := h1.size; simp only [List.length_cons]; omega
      · split at h
        · cases h
        · next r hr1 =>
          split at h
          · cases h
          · next q' hq =>
            cases h
            have h1 := hr _ _ _ _ _ _ hr1
            have h2 := postFun_mass hr hq
            refine ⟨h1.mono.trans h2.mono, fun w => ?_, ?_⟩
            · have := h1.bvs w; have := h2.bvs w
              have := h1.mono.pb (σ := id) (y := w) (s := subs B)
              simp only [Defs.bv, cn_append, List.cons_append, cn_cons] at *; omega
            · have := h1.size; have := h2.size
              have := h1.mono.size (s := subs B)
              simp only [tsizeD, List.length_cons]; omega

theorem mkFn_bv {B e w} : cn id (mkFn B e).bv w = cn id B.bv w + cn id e.bv w := by
  cases B <;> simp [mkFn, Exp.bv, Defs.bv, Nat.add_assoc]

theorem mkFn_size {B e} : tsize (mkFn B e) ≤ 1 + tsizeD B + tsize e := by
  cases B <;> simp [mkFn, tsize]

theorem incr_out {α : Option (Out Exp)} {r} (h : α.map Out.incr = some r) :
    ∃ r₀, α = some r₀ ∧ r.out = r₀.out ∧ r.count = r₀.count ∧ r.im = r₀.im := by
  obtain ⟨r₀, h1, rfl⟩ := Option.map_eq_some_iff.mp h
  exact ⟨r₀, h1, rfl, rfl, rfl⟩

theorem contract_massive : ∀ n, Massive (contract n)
  | 0 => fun _ _ _ _ _ _ h => by cases h
  | n + 1 => by
    have ih := contract_massive n
    intro σ c e s im r h
    cases e with
    | halt v => cases h; exact ⟨.refl _, fun _ => le_rfl, le_rfl⟩
    | constr x t ys e =>
      simp only [contract] at h
      split at h
      · obtain ⟨r₀, h1, h2, _, h3⟩ := incr_out h
        have := ih _ _ _ _ _ _ h1
        rw [h2, h3]
        refine ⟨this.mono, fun w => ?_, ?_⟩
        · have := this.bvs w; simp only [Exp.bv, cn_cons]; omega
        · have := this.size; simp only [tsize]; omega
      · obtain ⟨r₀, h1, rfl⟩ := Option.map_eq_some_iff.mp h
        have := ih _ _ _ _ _ _ h1
        split
        · refine ⟨this.mono, fun w => ?_, ?_⟩
          · have := this.bvs w; simp only [Exp.bv, cn_cons, pb] at this ⊢; omega
          · have := this.size; simp only [tsize, subSize] at this ⊢; omega
        · refine ⟨this.mono, fun w => ?_, ?_⟩
          · have := this.bvs w; simp only [Exp.bv, cn_cons, pb] at this ⊢; omega
          · have := this.size; simp only [tsize, subSize] at this ⊢; omega
    | proj v t i y e =>
      simp only [contract] at h
      split at h
      · obtain ⟨r₀, h1, h2, _, h3⟩ := incr_out h
        have := ih _ _ _ _ _ _ h1
        rw [h2, h3]
        refine ⟨this.mono, fun w => ?_, ?_⟩
        · have := this.bvs w; simp only [Exp.bv, cn_cons]; omega
        · have := this.size; simp only [tsize]; omega
      · have keep : ∀ r, (contract n σ c e s im).map (fun r : Out Exp =>
            if r.count v = 0 then (⟨r.out, r.steps + 1, decL σ [y] r.count, r.im⟩ : Out Exp)
            else ⟨.proj v t i (σ y) r.out, r.steps, r.count, r.im⟩) = some r →
            Mass (Exp.proj v t i y e).bv (tsize (Exp.proj v t i y e)) s im r.out.bv (tsize r.out) r.im := by
          intro r h
          obtain ⟨r₀, h1, rfl⟩ := Option.map_eq_some_iff.mp h
          have := ih _ _ _ _ _ _ h1
          split
          · refine ⟨this.mono, fun w => ?_, ?_⟩
            · have := this.bvs w; simp only [Exp.bv, cn_cons] at this ⊢; omega
            · have := this.size; simp only [tsize] at this ⊢; omega
          · refine ⟨this.mono, fun w => ?_, ?_⟩
            · have := this.bvs w; simp only [Exp.bv, cn_cons] at this ⊢; omega
            · have := this.size; simp only [tsize] at this ⊢; omega
        split at h
        · split at h
          · obtain ⟨r₀, h1, h2, _, h3⟩ := incr_out h
            have := ih _ _ _ _ _ _ h1
            rw [h2, h3]
            refine ⟨this.mono, fun w => ?_, ?_⟩
            · have := this.bvs w; simp only [Exp.bv, cn_cons]; omega
            · have := this.size; simp only [tsize]; omega
          · exact keep r h
        · exact keep r h
    | letapp x f t ys e =>
      simp only [contract] at h
      have keep : ∀ r, (contract n σ c e s im).map (fun r : Out Exp =>
          (⟨.letapp x (σ f) t (ys.map σ) r.out, r.steps, r.count, r.im⟩ : Out Exp)) = some r →
          Mass (Exp.letapp x f t ys e).bv (tsize (Exp.letapp x f t ys e)) s im r.out.bv (tsize r.out) r.im := by
        intro r h
        obtain ⟨r₀, h1, rfl⟩ := Option.map_eq_some_iff.mp h
        have := ih _ _ _ _ _ _ h1
        refine ⟨this.mono, fun w => ?_, ?_⟩
        · have := this.bvs w; simp only [Exp.bv, cn_cons] at this ⊢; omega
        · have := this.size; simp only [tsize] at this ⊢; omega
      split at h
      · next xs m hi =>
        obtain ⟨_, hg, _, hf⟩ := inlinable_some hi
        split at h
        · next C x' hC =>
          obtain ⟨r₀, h1, h2, _, h3⟩ := incr_out h
          have := ih _ _ _ _ _ _ h1
          rw [h2, h3]
          obtain ⟨l, hl1, hl2, _⟩ := Inl.inlineLet_bv (ren (put id x x') e) hC
          refine ⟨(Mono.put _ _).trans this.mono, fun w => ?_, ?_⟩
          · have := this.bvs w
            have := pull_b (σ := id) (y := w) hf (get_mem hg)
            rw [hl1, ren_bv] at *
            rcases hl2 with rfl | rfl <;> simp only [Exp.bv, cn_cons, cn_append, cn_nil] at * <;> omega
          · have := this.size
            have := pull_size hf (get_mem hg)
            have := plug_size (k := ren (put id x x') e) hC
            rw [ren_size] at this
            simp only [tsize]; omega
        · exact keep r h
      · exact keep r h
    | primVal x p e =>
      simp only [contract] at h
      obtain ⟨r₀, h1, rfl⟩ := Option.map_eq_some_iff.mp h
      have := ih _ _ _ _ _ _ h1
      refine ⟨this.mono, fun w => ?_, ?_⟩
      · have := this.bvs w; simp only [Exp.bv, cn_cons] at this ⊢; omega
      · have := this.size; simp only [tsize] at this ⊢; omega
    | prim x p ys e =>
      simp only [contract] at h
      obtain ⟨r₀, h1, rfl⟩ := Option.map_eq_some_iff.mp h
      have := ih _ _ _ _ _ _ h1
      refine ⟨this.mono, fun w => ?_, ?_⟩
      · have := this.bvs w; simp only [Exp.bv, cn_cons] at this ⊢; omega
      · have := this.size; simp only [tsize] at this ⊢; omega
    | case v bs =>
      simp only [contract] at h
      have keep : ∀ r, (conCases (contract n) σ s c im bs).map (fun r : Out Brs =>
          (⟨.case (σ v) r.out, r.steps, r.count, r.im⟩ : Out Exp)) = some r →
          Mass (Exp.case v bs).bv (tsize (Exp.case v bs)) s im r.out.bv (tsize r.out) r.im := by
        intro r h
        obtain ⟨r₀, h1, rfl⟩ := Option.map_eq_some_iff.mp h
        have := conCases_mass ih h1
        refine ⟨this.mono, this.bvs, ?_⟩
        have := this.size; simp only [tsize]; omega
      split at h
      · split at h
        · next k hk =>
          obtain ⟨r₀, h1, h2, _, h3⟩ := incr_out h
          have := ih _ _ _ _ _ _ h1
          rw [h2, h3]
          refine ⟨this.mono, fun w => ?_, ?_⟩
          · have := this.bvs w; have := Sublist_cn (findTag_bv hk) id w
            simp only [Exp.bv]; omega
          · have := this.size; have := findTag_size hk
            simp only [tsize]; omega
        · exact keep r h
      · exact keep r h
    | fn B e =>
      simp only [contract] at h
      split at h
      · cases h
      · next r₁ hr1 =>
        split at h
        · cases h
        · next q hq =>
          cases h
          have h1 := ih _ _ _ _ _ _ hr1
          have h2 := postFun_mass ih hq
          rw [preFun_sub] at h1
          refine ⟨h1.mono.trans h2.mono, fun w => ?_, ?_⟩
          · have := h1.bvs w; have := h2.bvs w
            have := Sublist_cn (preFun_bv (σ := σ) (s := s) (B := B) (c := c)) id w
            have := subs_bv (im := im) (w := w) (B := (preFun σ c s B).1)
            dsimp only
            rw [mkFn_bv]
            simp only [Exp.bv, cn_append, pb_append] at *; omega
          · have := h1.size; have := h2.size
            have := preFun_size (σ := σ) (s := s) (B := B) (c := c)
            have := subs_size (im := im) (B := (preFun σ c s B).1)
            have := mkFn_size (B := q.out) (e := r₁.out)
            simp only [tsize, subSize_append] at *; omega
    | app f t ys =>
      simp only [contract] at h
      split at h
      · next xs m hi =>
        obtain ⟨_, hg, _, hf⟩ := inlinable_some hi
        obtain ⟨r₀, h1, h2, _, h3⟩ := incr_out h
        have := ih _ _ _ _ _ _ h1
        rw [h2, h3]
        refine ⟨(Mono.put _ _).trans this.mono, fun w => ?_, ?_⟩
        · have := this.bvs w
          have := pull_b (σ := id) (y := w) hf (get_mem hg)
          simp only [Exp.bv, cn_nil] at *; omega
        · have := this.size
          have := pull_size hf (get_mem hg)
          simp only [tsize]; omega
      · cases h; exact ⟨.refl _, fun _ => le_rfl, le_rfl⟩

/-! ## Termination -/

/-- `rec` is defined below the measure. -/
def Tot (rec : Rec) (n : Nat) : Prop := ∀ σ c e s im, tsize e + subSize im s < n → ∃ r, rec σ c e s im = some r

theorem conCases_tot {rec : Rec} {n} (hm : Massive rec) (ht : Tot rec n) {σ s} : ∀ {bs c im},
    tsizeB bs + subSize im s < n → ∃ q, conCases rec σ s c im bs = some q
  | .nil, c, im, _ => ⟨_, rfl⟩
  | .cons t e bs, c, im, h => by
    simp only [tsizeB] at h
    obtain ⟨r, hr⟩ := ht σ c e s im (by omega)
    have := (hm _ _ _ _ _ _ hr).mono.size (s := s)
    obtain ⟨q, hq⟩ := conCases_tot hm ht (σ := σ) (c := r.count) (im := r.im) (bs := bs) (s := s) (by omega)
    exact ⟨_, by simp only [conCases, hr, hq]; rfl⟩

theorem postFun_tot {rec : Rec} {n} (hm : Massive rec) (ht : Tot rec n) {σ s} : ∀ {B c im},
    tsizeD B + subSize im s < n → ∃ q, postFun rec σ s c im B = some q
  | .nil, c, im, _ => ⟨_, rfl⟩
  | .cons f t xs e B, c, im, h => by
    simp only [tsizeD] at h
    simp only [postFun]
    split
    · exact postFun_tot hm ht (by omega)
    · split
      · exact postFun_tot hm ht (by omega)
      · obtain ⟨r, hr⟩ := ht σ c e s im (by omega)
        have := (hm _ _ _ _ _ _ hr).mono.size (s := s)
        obtain ⟨q, hq⟩ := postFun_tot hm ht (σ := σ) (c := r.count) (im := r.im) (B := B) (s := s) (by omega)
        exact ⟨_, by simp only [hr, hq]; rfl⟩

theorem map_some {α β} {a : Option α} {f : α → β} (h : ∃ r, a = some r) : ∃ r, a.map f = some r := by
  obtain ⟨r, rfl⟩ := h; exact ⟨_, rfl⟩

/-- The measure of the source is enough fuel. -/
theorem contract_total : ∀ n, Tot (contract n) n
  | 0 => fun _ _ _ _ _ h => by omega
  | n + 1 => by
    have ih := contract_total n
    have hm := contract_massive n
    intro σ c e s im h
    cases e with
    | halt v => exact ⟨_, rfl⟩
    | constr x t ys e =>
      simp only [tsize] at h
      simp only [contract]
      split
      · exact map_some (ih _ _ _ _ _ (by omega))
      · exact map_some (ih _ _ _ _ _ (by simp only [subSize]; omega))
    | proj v t i y e =>
      simp only [tsize] at h
      simp only [contract]
      split
      · exact map_some (ih _ _ _ _ _ (by omega))
      · split
        · split
          · exact map_some (ih _ _ _ _ _ (by omega))
          · exact map_some (ih _ _ _ _ _ (by omega))
        · exact map_some (ih _ _ _ _ _ (by omega))
    | letapp x f t ys e =>
      simp only [tsize] at h
      simp only [contract]
      split
      · next xs m hi =>
        obtain ⟨_, hg, _, hf⟩ := inlinable_some hi
        have := pull_size hf (get_mem hg)
        split
        · next C x' hC =>
          have := plug_size (k := ren (put id x x') e) hC
          rw [ren_size] at this
          exact map_some (ih _ _ _ _ _ (by omega))
        · exact map_some (ih _ _ _ _ _ (by omega))
      · exact map_some (ih _ _ _ _ _ (by omega))
    | primVal x p e =>
      simp only [tsize] at h
      simp only [contract]
      exact map_some (ih _ _ _ _ _ (by omega))
    | prim x p ys e =>
      simp only [tsize] at h
      simp only [contract]
      exact map_some (ih _ _ _ _ _ (by omega))
    | case v bs =>
      simp only [tsize] at h
      simp only [contract]
      split
      · split
        · next k hk =>
          have := findTag_size hk
          exact map_some (ih _ _ _ _ _ (by omega))
        · exact map_some (conCases_tot hm ih (by omega))
      · exact map_some (conCases_tot hm ih (by omega))
    | fn B e =>
      simp only [tsize] at h
      simp only [contract]
      have h1 := preFun_size (σ := σ) (s := s) (B := B) (c := c)
      have h2 := subs_size (im := im) (B := (preFun σ c s B).1)
      obtain ⟨r, hr⟩ := ih σ (preFun σ c s B).2.1 e (preFun σ c s B).2.2 im (by
        rw [preFun_sub, subSize_append]; omega)
      have h3 := (hm _ _ _ _ _ _ hr).mono.size (s := s)
      obtain ⟨q, hq⟩ := postFun_tot hm ih (σ := σ) (c := r.count) (im := r.im) (B := (preFun σ c s B).1) (s := s) (by omega)
      exact ⟨_, by simp only [hr, hq]; rfl⟩
    | app f t ys =>
      simp only [tsize] at h
      simp only [contract]
      split
      · next xs m hi =>
        obtain ⟨_, hg, _, hf⟩ := inlinable_some hi
        have := pull_size hf (get_mem hg)
        exact map_some (ih _ _ _ _ _ (by omega))
      · exact ⟨_, rfl⟩

end Shr
end ANF
