import Verif.CGen.TextGood

/-! # Programs whose identifiers are all above those of the compiler and of the C functions -/

namespace CGen.Text

open ANF

mutual
/-- The numbers in a program fit in words; its constants are integers. -/
def SizeE : Exp → Prop
  | .constr _ _ vs e => vs.length < 2 ^ 62 ∧ SizeE e
  | .case _ bs => SizeBs bs
  | .proj _ _ n _ e => n < 2 ^ 63 ∧ SizeE e
  | .letapp _ _ _ _ e => maxAllocsE e < 2 ^ 63 ∧ e.fv.card < 2 ^ 62 ∧ SizeE e
  | .fn B e => SizeB B ∧ maxAllocsE e < 2 ^ 63 ∧ SizeE e
  | .app _ _ _ => True
  | .primVal _ p e => (∃ n, p = .int n ∧ n < 2 ^ 63) ∧ SizeE e
  | .prim _ _ _ e => maxAllocsE e < 2 ^ 63 ∧ e.fv.card < 2 ^ 62 ∧ SizeE e
  | .halt _ => True
/-- The same for branches. -/
def SizeBs : Brs → Prop
  | .nil => True
  | .cons _ e bs => SizeE e ∧ SizeBs bs
/-- The same for functions. -/
def SizeB : Defs → Prop
  | .nil => True
  | .cons _ _ _ e B => maxAllocsE e < 2 ^ 63 ∧ e.fv.card < 2 ^ 62 ∧ SizeE e ∧ SizeB B
end

mutual
/-- The primitives of a program. -/
def primsE : Exp → List Tag
  | .constr _ _ _ e => primsE e
  | .case _ bs => primsBs bs
  | .proj _ _ _ _ e => primsE e
  | .letapp _ _ _ _ e => primsE e
  | .fn B e => primsB B ++ primsE e
  | .app _ _ _ => []
  | .primVal _ _ e => primsE e
  | .prim _ p _ e => p :: primsE e
  | .halt _ => []
/-- The same for branches. -/
def primsBs : Brs → List Tag
  | .nil => []
  | .cons _ e bs => primsE e ++ primsBs bs
/-- The same for functions. -/
def primsB : Defs → List Tag
  | .nil => []
  | .cons _ _ _ e B => primsE e ++ primsB B
end

variable {prims : Tag → Option Bool} {P : Var → Prop}

theorem of_erase {x : Var} {F : Finset Var} (hx : P x) (h : ∀ y ∈ F.erase x, P y) : ∀ y ∈ F, P y := fun y hy => by
  by_cases e : y = x
  · exact e ▸ hx
  · exact h y (Finset.mem_erase.2 ⟨e, hy⟩)

theorem of_sdiff {xs : List Var} {F : Finset Var} (hx : ∀ x ∈ xs, P x) (h : ∀ y ∈ F \ xs.toFinset, P y) : ∀ y ∈ F, P y := fun y hy => by
  by_cases e : y ∈ xs
  · exact hx y e
  · exact h y (Finset.mem_sdiff.2 ⟨hy, by simpa using e⟩)

theorem names_bound : ∀ (B : Defs), ∀ f ∈ B.names, f ∈ B.bv
  | .nil, f, h => by simp [Defs.names] at h
  | .cons g t xs e B, f, h => by
    simp only [Defs.names, List.mem_cons] at h
    simp only [Defs.bv, List.mem_cons, List.mem_append]
    rcases h with h | h
    · exact .inl h
    · exact .inr (.inr (.inr (names_bound B f h)))

mutual
theorem fits_of (hP : ∀ x, P x → vOk prims x) : ∀ (e : Exp), (∀ x ∈ e.fv, P x) → (∀ x ∈ e.bv, P x) → (∀ p ∈ primsE e, fOk p) → SizeE e →
    FitsE prims e
  | .constr x t vs e, h1, h2, hp, h3 => by
    have hx := h2 x (by simp [Exp.bv])
    refine ⟨hP _ hx, fun v hv => hP _ (h1 v (by simp [Exp.fv, hv])), h3.1, fits_of hP e ?_ ?_ hp h3.2⟩
    · exact of_erase hx fun y hy => h1 y (by rw [Exp.fv]; exact Finset.mem_union_right _ hy)
    · exact fun y hy => h2 y (by simp [Exp.bv, hy])
  | .case x bs, h1, h2, hp, h3 => by
    refine ⟨hP _ (h1 x (by simp [Exp.fv])), fitsBs_of hP bs ?_ h2 hp h3⟩
    exact fun y hy => h1 y (by rw [Exp.fv]; exact Finset.mem_insert_of_mem hy)
  | .proj x t n v e, h1, h2, hp, h3 => by
    have hx := h2 x (by simp [Exp.bv])
    refine ⟨hP _ hx, hP _ (h1 v (by simp [Exp.fv])), h3.1, fits_of hP e ?_ ?_ hp h3.2⟩
    · exact of_erase hx fun y hy => h1 y (by rw [Exp.fv]; exact Finset.mem_insert_of_mem hy)
    · exact fun y hy => h2 y (by simp [Exp.bv, hy])
  | .letapp x f t vs e, h1, h2, hp, h3 => by
    have hx := h2 x (by simp [Exp.bv])
    refine ⟨hP _ hx, hP _ (h1 f (by simp [Exp.fv])), fun v hv => hP _ (h1 v (by simp [Exp.fv, hv])), h3.1, h3.2.1, fits_of hP e ?_ ?_ hp h3.2.2⟩
    · exact of_erase hx fun y hy => h1 y (by rw [Exp.fv]; exact Finset.mem_insert_of_mem (Finset.mem_union_right _ hy))
    · exact fun y hy => h2 y (by simp [Exp.bv, hy])
  | .fn B e, h1, h2, hp, h3 => by
    have hn : ∀ f ∈ B.names, P f := fun f hf => h2 f (by rw [Exp.bv]; exact List.mem_append_left _ (names_bound B f hf))
    rw [Exp.fv] at h1
    have h4 := of_sdiff hn h1
    refine ⟨fitsB_of hP B (fun y hy => h4 y (Finset.mem_union_left _ hy)) (fun y hy => h2 y (by simp [Exp.bv, hy]))
      (fun p hq => hp p (by simp [primsE, hq])) h3.1, h3.2.1, fits_of hP e (fun y hy => h4 y (Finset.mem_union_right _ hy))
      (fun y hy => h2 y (by simp [Exp.bv, hy])) (fun p hq => hp p (by simp [primsE, hq])) h3.2.2⟩
  | .app f t vs, h1, h2, hp, h3 => ⟨hP _ (h1 f (by simp [Exp.fv])), fun v hv => hP _ (h1 v (by simp [Exp.fv, hv]))⟩
  | .primVal x p e, h1, h2, hp, h3 => by
    have hx := h2 x (by simp [Exp.bv])
    refine ⟨hP _ hx, h3.1, fits_of hP e ?_ ?_ hp h3.2⟩
    · exact of_erase hx h1
    · exact fun y hy => h2 y (by simp [Exp.bv, hy])
  | .prim x p vs e, h1, h2, hp, h3 => by
    have hx := h2 x (by simp [Exp.bv])
    refine ⟨hP _ hx, hp p (by simp [primsE]), fun v hv => hP _ (h1 v (by simp [Exp.fv, hv])), h3.1, h3.2.1, fits_of hP e ?_ ?_ ?_ h3.2.2⟩
    · exact of_erase hx fun y hy => h1 y (by rw [Exp.fv]; exact Finset.mem_union_right _ hy)
    · exact fun y hy => h2 y (by simp [Exp.bv, hy])
    · exact fun q hq => hp q (by simp [primsE, hq])
  | .halt x, h1, h2, hp, h3 => hP _ (h1 x (by simp [Exp.fv]))
theorem fitsBs_of (hP : ∀ x, P x → vOk prims x) : ∀ (bs : Brs), (∀ x ∈ bs.fv, P x) → (∀ x ∈ bs.bv, P x) → (∀ p ∈ primsBs bs, fOk p) →
    SizeBs bs → FitsBs prims bs
  | .nil, h1, h2, hp, h3 => trivial
  | .cons t e bs, h1, h2, hp, h3 => by
    rw [Brs.fv] at h1
    rw [Brs.bv] at h2
    rw [primsBs] at hp
    exact ⟨fits_of hP e (fun y hy => h1 y (Finset.mem_union_left _ hy)) (fun y hy => h2 y (List.mem_append_left _ hy))
        (fun q hq => hp q (List.mem_append_left _ hq)) h3.1,
      fitsBs_of hP bs (fun y hy => h1 y (Finset.mem_union_right _ hy)) (fun y hy => h2 y (List.mem_append_right _ hy))
        (fun q hq => hp q (List.mem_append_right _ hq)) h3.2⟩
theorem fitsB_of (hP : ∀ x, P x → vOk prims x) : ∀ (B : Defs), (∀ x ∈ B.fvRaw, P x) → (∀ x ∈ B.bv, P x) → (∀ p ∈ primsB B, fOk p) →
    SizeB B → FitsB prims B
  | .nil, h1, h2, hp, h3 => trivial
  | .cons f t xs e B, h1, h2, hp, h3 => by
    rw [Defs.fvRaw] at h1
    rw [primsB] at hp
    have hxs : ∀ x ∈ xs, P x := fun x hx => h2 x (by simp [Defs.bv, hx])
    exact ⟨hP _ (h2 f (by simp [Defs.bv])), fun v hv => hP _ (hxs v hv), h3.1, h3.2.1,
      fits_of hP e (of_sdiff hxs fun y hy => h1 y (Finset.mem_union_left _ hy)) (fun y hy => h2 y (by simp [Defs.bv, hy]))
        (fun q hq => hp q (List.mem_append_left _ hq)) h3.2.2.1,
      fitsB_of hP B (fun y hy => h1 y (Finset.mem_union_right _ hy)) (fun y hy => h2 y (by simp [Defs.bv, hy]))
        (fun q hq => hp q (List.mem_append_right _ hq)) h3.2.2.2⟩
end

end CGen.Text
