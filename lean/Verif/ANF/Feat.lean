import Verif.ANF.ShrWf
import Verif.ANF.UncBind
import Verif.ANF.LlBind
import Verif.ANF.CcWf
import Verif.ANF.HoistLemmas
import Verif.ANF.DpeSim

/-!
# What the instructions of a term look like

`Exp.All P e`: every instruction of `e` satisfies `P`, which sees the tags and the numbers of operands but not the variables.
Each transformation keeps such properties, up to the instructions it adds.
-/

namespace ANF
open Inl (Ctx inlineLet)
open Ll (put)

/-- What a property of the shape of instructions can see. -/
inductive Feat
  /-- a constructor with this tag and number of arguments -/
  | con (t : Tag) (n : Nat)
  /-- a branch for this tag -/
  | br (t : Tag)
  /-- a call, or a function, with this tag and number of arguments -/
  | call (t : Tag) (n : Nat)
  /-- a call whose result is used by the code after it -/
  | letcall
  /-- a literal -/
  | val (p : PVal)
  /-- a primitive operation -/
  | prim (p : Tag) (n : Nat)
  /-- a function definition -/
  | bundle

mutual
/-- Every instruction of a term satisfies `P`. -/
def Exp.All (P : Feat → Prop) : Exp → Prop
  | .constr _ t ys e => P (.con t ys.length) ∧ e.All P
  | .case _ bs => bs.All P
  | .proj _ _ _ _ e => e.All P
  | .letapp _ _ t ys e => (P (.call t ys.length) ∧ P .letcall) ∧ e.All P
  | .fn B e => P .bundle ∧ B.All P ∧ e.All P
  | .app _ t ys => P (.call t ys.length)
  | .primVal _ p e => P (.val p) ∧ e.All P
  | .prim _ p ys e => P (.prim p ys.length) ∧ e.All P
  | .halt _ => True
/-- The same for branches. -/
def Brs.All (P : Feat → Prop) : Brs → Prop
  | .nil => True
  | .cons t e bs => P (.br t) ∧ e.All P ∧ bs.All P
/-- The same for bundles. -/
def Defs.All (P : Feat → Prop) : Defs → Prop
  | .nil => True
  | .cons _ t xs e B => P (.call t xs.length) ∧ e.All P ∧ B.All P
end

mutual
theorem Exp.All.mono {P Q : Feat → Prop} (h : ∀ f, P f → Q f) : ∀ {e : Exp}, e.All P → e.All Q
  | .constr _ _ _ _, he => ⟨h _ he.1, Exp.All.mono h he.2⟩
  | .case _ _, he => Brs.All.mono h (by simpa only [Exp.All] using he)
  | .proj _ _ _ _ e, he => by simp only [Exp.All] at he ⊢; exact Exp.All.mono h he
  | .letapp _ _ _ _ _, he => ⟨⟨h _ he.1.1, h _ he.1.2⟩, Exp.All.mono h he.2⟩
  | .fn _ _, he => ⟨h _ he.1, Defs.All.mono h he.2.1, Exp.All.mono h he.2.2⟩
  | .app _ _ _, he => by simp only [Exp.All] at he ⊢; exact h _ he
  | .primVal _ _ _, he => ⟨h _ he.1, Exp.All.mono h he.2⟩
  | .prim _ _ _ _, he => ⟨h _ he.1, Exp.All.mono h he.2⟩
  | .halt _, _ => trivial
theorem Brs.All.mono {P Q : Feat → Prop} (h : ∀ f, P f → Q f) : ∀ {bs : Brs}, bs.All P → bs.All Q
  | .nil, _ => trivial
  | .cons _ _ _, hb => ⟨h _ hb.1, Exp.All.mono h hb.2.1, Brs.All.mono h hb.2.2⟩
theorem Defs.All.mono {P Q : Feat → Prop} (h : ∀ f, P f → Q f) : ∀ {B : Defs}, B.All P → B.All Q
  | .nil, _ => trivial
  | .cons _ _ _ _ _, hb => ⟨h _ hb.1, Exp.All.mono h hb.2.1, Defs.All.mono h hb.2.2⟩
end

mutual
theorem Exp.All.and {P Q : Feat → Prop} : ∀ {e : Exp}, e.All P → e.All Q → e.All fun f => P f ∧ Q f
  | .constr _ _ _ _, he, hq => ⟨⟨he.1, hq.1⟩, Exp.All.and he.2 hq.2⟩
  | .case _ bs, he, hq => by simp only [Exp.All] at he hq ⊢; exact Brs.All.and he hq
  | .proj _ _ _ _ e, he, hq => by simp only [Exp.All] at he hq ⊢; exact Exp.All.and he hq
  | .letapp _ _ _ _ _, he, hq => ⟨⟨⟨he.1.1, hq.1.1⟩, he.1.2, hq.1.2⟩, Exp.All.and he.2 hq.2⟩
  | .fn _ _, he, hq => ⟨⟨he.1, hq.1⟩, Defs.All.and he.2.1 hq.2.1, Exp.All.and he.2.2 hq.2.2⟩
  | .app _ _ _, he, hq => by simp only [Exp.All] at he hq ⊢; exact ⟨he, hq⟩
  | .primVal _ _ _, he, hq => ⟨⟨he.1, hq.1⟩, Exp.All.and he.2 hq.2⟩
  | .prim _ _ _ _, he, hq => ⟨⟨he.1, hq.1⟩, Exp.All.and he.2 hq.2⟩
  | .halt _, _, _ => trivial
theorem Brs.All.and {P Q : Feat → Prop} : ∀ {bs : Brs}, bs.All P → bs.All Q → bs.All fun f => P f ∧ Q f
  | .nil, _, _ => trivial
  | .cons _ _ _, hb, hq => ⟨⟨hb.1, hq.1⟩, Exp.All.and hb.2.1 hq.2.1, Brs.All.and hb.2.2 hq.2.2⟩
theorem Defs.All.and {P Q : Feat → Prop} : ∀ {B : Defs}, B.All P → B.All Q → B.All fun f => P f ∧ Q f
  | .nil, _, _ => trivial
  | .cons _ _ _ _ _, hb, hq => ⟨⟨hb.1, hq.1⟩, Exp.All.and hb.2.1 hq.2.1, Defs.All.and hb.2.2 hq.2.2⟩
end

theorem Defs.All.find {P : Feat → Prop} : ∀ {B : Defs} {f t xs e}, B.All P → findDef f B = some (t, xs, e) →
    P (.call t xs.length) ∧ e.All P
  | .cons g gt ys e' B, f, t, xs, e, h, hf => by
    simp only [findDef] at hf
    split at hf
    · cases hf; exact ⟨h.1, h.2.1⟩
    · exact h.2.2.find hf

theorem Brs.All.find {P : Feat → Prop} : ∀ {bs : Brs} {t e}, bs.All P → findTag t bs = some e → e.All P
  | .cons t' e' bs, t, e, h, hf => by
    simp only [findTag] at hf
    split at hf
    · cases hf; exact h.2.1
    · exact h.2.2.find hf

theorem Brs.All.nth {P : Feat → Prop} : ∀ {bs : Brs} {i t e}, bs.All P → Shr.nth bs i = some (t, e) → P (.br t) ∧ e.All P
  | .cons t' e' bs, 0, t, e, h, hf => by cases hf; exact ⟨h.1, h.2.1⟩
  | .cons t' e' bs, i + 1, t, e, h, hf => Brs.All.nth (bs := bs) h.2.2 hf

theorem Brs.all_of_nth {P : Feat → Prop} : ∀ {bs : Brs}, (∀ (i : Nat) t e, Shr.nth bs i = some (t, e) → P (.br t) ∧ e.All P) → bs.All P
  | .nil, _ => trivial
  | .cons t e bs, h => ⟨(h 0 t e rfl).1, (h 0 t e rfl).2, Brs.all_of_nth fun i => h (i + 1)⟩

theorem Defs.all_of_find {P : Feat → Prop} : ∀ {B : Defs}, B.names.Nodup →
    (∀ f t xs e, findDef f B = some (t, xs, e) → P (.call t xs.length) ∧ e.All P) → B.All P
  | .nil, _, _ => trivial
  | .cons f t xs e B, hn, h => by
    simp only [Defs.names, List.nodup_cons] at hn
    have h0 := h f t xs e (by simp [findDef])
    refine ⟨h0.1, h0.2, Defs.all_of_find hn.2 fun g t' xs' e' hg => h g t' xs' e' ?_⟩
    rw [findDef, if_neg (by rintro rfl; exact hn.1 (findDef_mem hg))]; exact hg

theorem Defs.all_append {P : Feat → Prop} : ∀ {A B : Defs}, (A.append B).All P ↔ A.All P ∧ B.All P
  | .nil, B => by simp [Defs.append, Defs.All]
  | .cons f t xs e A, B => by simp [Defs.append, Defs.All, Defs.all_append (A := A), and_assoc]

/-! ## Tags matched on -/

mutual
theorem Exp.all_tags {P : Feat → Prop} : ∀ {e : Exp}, e.All P → ∀ t ∈ e.caseTags, P (.br t)
  | .constr _ _ _ e, he => Exp.all_tags (e := e) he.2
  | .case _ bs, he => by simp only [Exp.All] at he; exact Brs.all_tags (bs := bs) he
  | .proj _ _ _ _ e, he => by simp only [Exp.All] at he; exact Exp.all_tags (e := e) he
  | .letapp _ _ _ _ e, he => Exp.all_tags (e := e) he.2
  | .fn B e, he => by
    intro t ht
    simp only [Exp.caseTags, List.mem_append] at ht
    exact ht.elim (Defs.all_tags he.2.1 t) (Exp.all_tags he.2.2 t)
  | .app _ _ _, _ => by simp [Exp.caseTags]
  | .primVal _ _ e, he => Exp.all_tags (e := e) he.2
  | .prim _ _ _ e, he => Exp.all_tags (e := e) he.2
  | .halt _, _ => by simp [Exp.caseTags]
theorem Brs.all_tags {P : Feat → Prop} : ∀ {bs : Brs}, bs.All P → ∀ t ∈ bs.caseTags, P (.br t)
  | .nil, _ => by simp [Brs.caseTags]
  | .cons u e bs, hb => by
    intro t ht
    simp only [Brs.caseTags, List.mem_cons, List.mem_append] at ht
    rcases ht with rfl | ht | ht
    · exact hb.1
    · exact Exp.all_tags hb.2.1 t ht
    · exact Brs.all_tags hb.2.2 t ht
theorem Defs.all_tags {P : Feat → Prop} : ∀ {B : Defs}, B.All P → ∀ t ∈ B.caseTags, P (.br t)
  | .nil, _ => by simp [Defs.caseTags]
  | .cons _ _ _ e B, hb => by
    intro t ht
    simp only [Defs.caseTags, List.mem_append] at ht
    exact ht.elim (Exp.all_tags hb.2.1 t) (Defs.all_tags hb.2.2 t)
end

/-! ## Function definitions -/

/-- Anything but a function definition. -/
def NotBundle (f : Feat) : Prop := f ≠ .bundle

mutual
theorem Exp.noFn_iff : ∀ {e : Exp}, e.NoFn ↔ e.All NotBundle
  | .constr _ _ _ e => by simp only [Exp.NoFn, Exp.All, Exp.noFn_iff (e := e)]; simp [NotBundle]
  | .case _ bs => by simp only [Exp.NoFn, Exp.All]; exact Brs.noFn_iff
  | .proj _ _ _ _ e => by simp only [Exp.NoFn, Exp.All]; exact Exp.noFn_iff
  | .letapp _ _ _ _ e => by simp only [Exp.NoFn, Exp.All, Exp.noFn_iff (e := e)]; simp [NotBundle]
  | .fn B e => by simp [Exp.NoFn, Exp.All, NotBundle]
  | .app _ _ _ => by simp [Exp.NoFn, Exp.All, NotBundle]
  | .primVal _ _ e => by simp only [Exp.NoFn, Exp.All, Exp.noFn_iff (e := e)]; simp [NotBundle]
  | .prim _ _ _ e => by simp only [Exp.NoFn, Exp.All, Exp.noFn_iff (e := e)]; simp [NotBundle]
  | .halt _ => by simp [Exp.NoFn, Exp.All]
theorem Brs.noFn_iff : ∀ {bs : Brs}, bs.NoFn ↔ bs.All NotBundle
  | .nil => by simp [Brs.NoFn, Brs.All]
  | .cons _ e bs => by simp only [Brs.NoFn, Brs.All, Exp.noFn_iff (e := e), Brs.noFn_iff (bs := bs)]; simp [NotBundle]
end

theorem Defs.noFn_iff : ∀ {B : Defs}, B.NoFn ↔ B.All NotBundle
  | .nil => by simp [Defs.NoFn, Defs.All]
  | .cons _ _ _ e B => by simp only [Defs.NoFn, Defs.All, Exp.noFn_iff (e := e), Defs.noFn_iff (B := B)]; simp [NotBundle]

theorem Exp.NoFn.hoisted : ∀ {e : Exp}, e.NoFn → Hoisted e
  | .constr _ _ _ _, h => h
  | .case _ _, h => h
  | .proj _ _ _ _ _, h => h
  | .letapp _ _ _ _ _, h => h
  | .fn _ _, h => h.elim
  | .app _ _ _, h => h
  | .primVal _ _ _, h => h
  | .prim _ _ _ _, h => h
  | .halt _, h => h

theorem Hoisted.noFn : ∀ {e : Exp}, Hoisted e → (∀ B k, e ≠ .fn B k) → e.NoFn
  | .constr _ _ _ _, h, _ => h
  | .case _ _, h, _ => h
  | .proj _ _ _ _ _, h, _ => h
  | .letapp _ _ _ _ _, h, _ => h
  | .fn _ _, _, hn => (hn _ _ rfl).elim
  | .app _ _ _, h, _ => h
  | .primVal _ _ _, h, _ => h
  | .prim _ _ _ _, h, _ => h
  | .halt _, h, _ => h

/-! ## Inlining -/

theorem inlineLet_all {P : Feat → Prop} (hl : P .letcall) : ∀ {e : Exp} {x C r} {k : Exp}, inlineLet e x = some (C, r) → e.All P → k.All P → (C.plug k).All P
  | .constr y t ys e, x, C, r, k, h, he, hk => by
    simp only [inlineLet, Option.map_eq_some_iff, Prod.mk.injEq] at h
    obtain ⟨⟨C', r'⟩, h, rfl, rfl⟩ := h
    exact ⟨he.1, inlineLet_all hl (e := e) h he.2 hk⟩
  | .case _ _, _, _, _, _, h, _, _ => by simp [inlineLet] at h
  | .proj y t i z e, x, C, r, k, h, he, hk => by
    simp only [inlineLet, Option.map_eq_some_iff, Prod.mk.injEq] at h
    obtain ⟨⟨C', r'⟩, h, rfl, rfl⟩ := h
    simp only [Exp.All] at he
    have := inlineLet_all hl (e := e) h he hk
    simpa only [Ctx.plug, Exp.All] using this
  | .letapp y f t ys e, x, C, r, k, h, he, hk => by
    simp only [inlineLet, Option.map_eq_some_iff, Prod.mk.injEq] at h
    obtain ⟨⟨C', r'⟩, h, rfl, rfl⟩ := h
    exact ⟨he.1, inlineLet_all hl (e := e) h he.2 hk⟩
  | .fn B e, x, C, r, k, h, he, hk => by
    simp only [inlineLet, Option.map_eq_some_iff, Prod.mk.injEq] at h
    obtain ⟨⟨C', r'⟩, h, rfl, rfl⟩ := h
    exact ⟨he.1, he.2.1, inlineLet_all hl (e := e) h he.2.2 hk⟩
  | .app f t ys, x, C, r, k, h, he, hk => by
    simp only [inlineLet, Option.some.injEq, Prod.mk.injEq] at h
    obtain ⟨rfl, rfl⟩ := h
    simp only [Exp.All] at he
    exact ⟨⟨he, hl⟩, hk⟩
  | .primVal y p e, x, C, r, k, h, he, hk => by
    simp only [inlineLet, Option.map_eq_some_iff, Prod.mk.injEq] at h
    obtain ⟨⟨C', r'⟩, h, rfl, rfl⟩ := h
    exact ⟨he.1, inlineLet_all hl (e := e) h he.2 hk⟩
  | .prim y p ys e, x, C, r, k, h, he, hk => by
    simp only [inlineLet, Option.map_eq_some_iff, Prod.mk.injEq] at h
    obtain ⟨⟨C', r'⟩, h, rfl, rfl⟩ := h
    exact ⟨he.1, inlineLet_all hl (e := e) h he.2 hk⟩
  | .halt y, x, C, r, k, h, he, hk => by
    simp only [inlineLet, Option.some.injEq, Prod.mk.injEq] at h
    obtain ⟨rfl, rfl⟩ := h
    exact hk

namespace Inl

/-- The bodies of the known functions satisfy `P`. -/
def FmAll (fm : FM) (P : Feat → Prop) : Prop := ∀ k t xs b, fm k = some (t, xs, b) → b.All P

theorem FmAll.rem {fm f P} (h : FmAll fm P) : FmAll (put fm f none) P := fun k t xs b hk => h k t xs b (rem_some hk).2

mutual
theorem RE.all {P : Feat → Prop} {d : Nat} {n : Var} {fm : FM} {σ : Var → Var} {e e' : Exp} : RE d n fm σ e e' → FmAll fm P →
    e.All P → e'.All P
  | .constr _ he, hf, h => ⟨by rw [List.length_map]; exact h.1, he.all hf h.2⟩
  | .case hb, hf, h => by simp only [Exp.All] at h ⊢; exact hb.all hf h
  | .proj _ he, hf, h => by simp only [Exp.All] at h ⊢; exact he.all hf h
  | .letapp _ he, hf, h => ⟨by rw [List.length_map]; exact h.1, he.all hf h.2⟩
  | .letinl h1 _ _ h4 h5 _ _ h8, hf, h => inlineLet_all h.1.2 h5 (h4.all hf.rem (hf _ _ _ _ h1)) (h8.all hf h.2)
  | .fn (B := B) _ _ _ _ h5 h6, hf, h => by
    have hf' : FmAll (addDefs B fm) P := by
      intro k t xs b hk
      rcases addDefs_some hk with hk | ⟨_, hk⟩
      · exact (h.2.1.find hk).2
      · exact hf k t xs b hk
    exact ⟨h.1, h5.all hf' h.2.1, h6.all hf' h.2.2⟩
  | .app, _, h => by simp only [Exp.All, List.length_map] at h ⊢; exact h
  | .appinl h1 _ h3, hf, _ => h3.all hf.rem (hf _ _ _ _ h1)
  | .primVal _ he, hf, h => ⟨h.1, he.all hf h.2⟩
  | .prim _ he, hf, h => ⟨by rw [List.length_map]; exact h.1, he.all hf h.2⟩
  | .halt, _, _ => trivial
theorem RB.all {P : Feat → Prop} {d : Nat} {n : Var} {fm : FM} {σ : Var → Var} {bs bs' : Brs} : RB d n fm σ bs bs' → FmAll fm P →
    bs.All P → bs'.All P
  | .nil, _, _ => trivial
  | .cons h1 h2, hf, h => ⟨h.1, h1.all hf h.2.1, h2.all hf h.2.2⟩
theorem RD.all {P : Feat → Prop} {d : Nat} {n : Var} {fm : FM} {σ : Var → Var} {B B' : Defs} : RD d n fm σ B B' → FmAll fm P →
    B.All P → B'.All P
  | .nil, _, _ => trivial
  | .cons h1 _ _ _ h5 h6, hf, h => ⟨by rw [h1]; exact h.1, h5.all hf.rem h.2.1, h6.all hf h.2.2⟩
end

theorem FmAll.none {P : Feat → Prop} : FmAll (fun _ => none) P := by intro _ _ _ _ h; cases h

/-- Inlining keeps a program hoisted. -/
theorem RE.hoisted {d : Nat} {n : Var} {σ : Var → Var} {e e' : Exp} (h : RE d n (fun _ => .none) σ e e') (he : Hoisted e) : Hoisted e' := by
  by_cases hf : ∃ B k, e = .fn B k
  · obtain ⟨B, k, rfl⟩ := hf
    cases h with
    | fn _ _ _ _ h5 h6 =>
      have hB := Defs.noFn_iff.mp he.1
      have hf' : FmAll (addDefs B (fun _ => .none)) NotBundle := by
        intro k t xs b hk
        rcases addDefs_some hk with hk | ⟨_, hk⟩
        · exact (hB.find hk).2
        · cases hk
      exact ⟨Defs.noFn_iff.mpr (h5.all hf' hB), Exp.noFn_iff.mpr (h6.all hf' (Exp.noFn_iff.mp he.2))⟩
  · exact (Exp.noFn_iff.mpr (h.all FmAll.none (Exp.noFn_iff.mp (he.noFn fun B k hk => hf ⟨B, k, hk⟩)))).hoisted

end Inl

/-! ## Shrinking -/

namespace Shr

mutual
theorem renaming_all {P : Feat → Prop} {σ} : ∀ {e : Exp}, (ren σ e).All P ↔ e.All P
  | .constr x t ys e => by simp only [ren, Exp.All, renaming_all (e := e), List.length_map]
  | .case v bs => by simp only [ren, Exp.All, renB_all (bs := bs)]
  | .proj x t i y e => by simp only [ren, Exp.All, renaming_all (e := e)]
  | .letapp x f t ys e => by simp only [ren, Exp.All, renaming_all (e := e), List.length_map]
  | .fn B e => by simp only [ren, Exp.All, renaming_all (e := e), renD_all (B := B)]
  | .app f t ys => by simp only [ren, Exp.All, List.length_map]
  | .primVal x p e => by simp only [ren, Exp.All, renaming_all (e := e)]
  | .prim x p ys e => by simp only [ren, Exp.All, renaming_all (e := e), List.length_map]
  | .halt x => by simp only [ren, Exp.All]
theorem renB_all {P : Feat → Prop} {σ} : ∀ {bs : Brs}, (renB σ bs).All P ↔ bs.All P
  | .nil => Iff.rfl
  | .cons t e bs => by simp only [renB, Brs.All, renaming_all (e := e), renB_all (bs := bs)]
theorem renD_all {P : Feat → Prop} {σ} : ∀ {B : Defs}, (renD σ B).All P ↔ B.All P
  | .nil => Iff.rfl
  | .cons f t xs e B => by simp only [renD, Defs.All, renaming_all (e := e), renD_all (B := B)]
end

/-- The bodies of the known functions satisfy `P`. -/
def FactsAll (Γ : Facts) (P : Feat → Prop) : Prop := ∀ k t xs m τ, Γ k = some (.fn t xs m τ) → m.All P

theorem FactsAll.con {Γ : Facts} {P x t zs} (h : FactsAll Γ P) : FactsAll (put Γ x (some (.con t zs))) P := by
  intro k t xs m τ hk
  by_cases hkx : k = x
  · subst hkx; rw [Inl.put_self] at hk; cases hk
  · rw [Inl.put_other hkx] at hk; exact h _ _ _ _ _ hk

theorem FactsAll.weak {Γ Γ' : Facts} {P} (h : FactsAll Γ P) (hΓ : ∀ y a, Γ' y = some a → ∃ a', Γ y = some a' ∧ a'.Same a) : FactsAll Γ' P := by
  intro k t xs m τ hk
  obtain ⟨a', h3, h4⟩ := hΓ _ _ hk
  cases a' with
  | con t zs => exact h4.elim
  | fn t xs m τ => obtain ⟨rfl, rfl, rfl, _⟩ := h4; exact h _ _ _ _ _ h3

theorem FactsAll.fn {Γ Γ' : Facts} {P B σ} (h : FactsAll Γ P) (hB : B.All P)
    (hΓ : ∀ y a, Γ' y = some a → Γ y = some a ∨ ∃ t xs m, findDef y B = some (t, xs, m) ∧ a = .fn t xs m σ) : FactsAll Γ' P := by
  intro k t xs m τ hk
  rcases hΓ _ _ hk with h1 | ⟨t', xs', m', h1, h2⟩
  · exact h _ _ _ _ _ h1
  · cases h2; exact (hB.find h1).2

theorem mkFn_nodup {B : Defs} {e : Exp} (hnd : (mkFn B e).bv.Nodup) : (B.bv ++ e.bv).Nodup := by
  rw [nodup_cn] at hnd ⊢
  intro w; have := hnd w; rw [mkFn_bv] at this; rw [cn_append]; exact this

theorem SE.all {d Γ σ e e'} (h : SE d Γ σ e e') : e'.bv.Nodup → ∀ {P : Feat → Prop}, FactsAll Γ P → e.All P → e'.All P := by
  induction h with
  | weak hd hΓ h ih => intro hn P hT; exact ih hn (hT.weak hΓ)
  | halt => intro _ _ _ _; trivial
  | constr hx hy h ih =>
    intro hn P hT he
    simp only [Exp.bv, List.nodup_cons] at hn
    exact ⟨by rw [List.length_map]; exact he.1, ih hn.2 hT.con he.2⟩
  | constrDead hx hy hdead h ih => intro hn P hT he; exact ih hn hT.con he.2
  | proj hx h ih =>
    intro hn P hT he
    simp only [Exp.bv, List.nodup_cons] at hn
    simp only [Exp.All] at he ⊢
    exact ih hn.2 hT he
  | projDead hx hdead h ih => intro hn P hT he; simp only [Exp.All] at he; exact ih hn hT he
  | projFold hk hz h ih => intro hn P hT he; simp only [Exp.All] at he; exact ih hn hT he
  | letapp hx h ih =>
    intro hn P hT he
    simp only [Exp.bv, List.nodup_cons] at hn
    exact ⟨by rw [List.length_map]; exact he.1, ih hn.2 hT he.2⟩
  | letinl hk hxs hlen hC hin hout hrest hx hz h ih =>
    intro hn P hT he
    exact ih hn hT (inlineLet_all he.1.2 hC (hT _ _ _ _ _ hk) (renaming_all.mpr he.2))
  | primVal hx h ih =>
    intro hn P hT he
    simp only [Exp.bv, List.nodup_cons] at hn
    exact ⟨he.1, ih hn.2 hT he.2⟩
  | prim hx h ih =>
    intro hn P hT he
    simp only [Exp.bv, List.nodup_cons] at hn
    exact ⟨by rw [List.length_map]; exact he.1, ih hn.2 hT he.2⟩
  | case ht h ih =>
    intro hn P hT he
    simp only [Exp.All] at he ⊢
    refine Brs.all_of_nth fun i t e' h1 => ?_
    obtain ⟨e, h3⟩ := nth_zip ht h1
    exact ⟨(he.nth h3).1, ih i t e t e' h3 h1 ((nth_bv h1).nodup hn) hT (he.nth h3).2⟩
  | caseFold hk hf h ih => intro hn P hT he; simp only [Exp.All] at he; exact ih hn hT (he.find hf)
  | @fn d Γ Γ' σ B B' e e' hn hσ hΓ hs hp hb hd1 hd2 h ihb ihe =>
    intro hnd P hT he
    have hnd' := mkFn_nodup hnd
    have hBn := (List.nodup_append.mp hnd').1
    have hEn := (List.nodup_append.mp hnd').2.1
    have h1 : e'.All P := ihe hEn (hT.fn he.2.1 hΓ) he.2.2
    have h2 : B'.All P := by
      refine Defs.all_of_find ((names_bv B').nodup hBn) fun f t xs m' h2 => ?_
      obtain ⟨m, h5⟩ := hs f t xs m' h2
      have h6 : m'.bv.Nodup := ((List.sublist_append_right _ _).trans (findDef_bv h2)).nodup hBn
      exact ⟨(he.2.1.find h5).1, ihb f t xs m t xs m' h5 h2 h6 hT (he.2.1.find h5).2⟩
    cases B' with
    | nil => exact h1
    | cons => exact ⟨he.1, h2, h1⟩
  | app => intro _ P _ he; simp only [Exp.All, List.length_map] at he ⊢; exact he
  | appinl hk hxs hlen hin hout h ih => intro hn P hT he; exact ih hn hT (hT _ _ _ _ _ hk)

theorem SE.hoisted' {d Γ σ e e'} (h : SE d Γ σ e e') : ∀ B k, e = .fn B k → e'.bv.Nodup → FactsAll Γ NotBundle → Hoisted e → Hoisted e' := by
  induction h with
  | weak hd hΓ h ih => intro B k hk hn hT; exact ih B k hk hn (hT.weak hΓ)
  | @fn d Γ Γ' σ B B' e e' hn hσ hΓ hs hp hb hd1 hd2 h ihb ihe =>
    intro _ _ _ hnd hT he
    have hnd' := mkFn_nodup hnd
    have hBn := (List.nodup_append.mp hnd').1
    have hEn := (List.nodup_append.mp hnd').2.1
    have hB := Defs.noFn_iff.mp he.1
    have h1 : e'.NoFn := Exp.noFn_iff.mpr (h.all hEn (hT.fn hB hΓ) (Exp.noFn_iff.mp he.2))
    have h2 : B'.NoFn := by
      refine Defs.noFn_iff.mpr (Defs.all_of_find ((names_bv B').nodup hBn) fun f t xs m' h2 => ?_)
      obtain ⟨m, h5⟩ := hs f t xs m' h2
      have h6 : m'.bv.Nodup := ((List.sublist_append_right _ _).trans (findDef_bv h2)).nodup hBn
      exact ⟨(hB.find h5).1, (hb f t xs m t xs m' h5 h2).all h6 hT (hB.find h5).2⟩
    cases B' with
    | nil => exact h1.hoisted
    | cons => exact ⟨h2, h1⟩
  | _ => intro B k hk; cases hk

/-- Shrinking keeps a program hoisted. -/
theorem SE.hoisted {d Γ σ e e'} (h : SE d Γ σ e e') (hn : e'.bv.Nodup) (hT : FactsAll Γ NotBundle) (he : Hoisted e) : Hoisted e' := by
  by_cases hf : ∃ B k, e = .fn B k
  · obtain ⟨B, k, hk⟩ := hf
    exact h.hoisted' B k hk hn hT he
  · exact (Exp.noFn_iff.mpr (h.all hn hT (Exp.noFn_iff.mp (he.noFn fun B k hk => hf ⟨B, k, hk⟩)))).hoisted

end Shr

end ANF
