import Verif.ANF.Feat2
import Verif.Conv.Props
import Verif.Conv.CpsProps

/-!
# What the instructions of converted programs look like
-/

namespace Conv

open Src (Dcon)
open ANF (Var Tag Feat)

mutual
/-- Constructor applications satisfy `C`, the constructors of branches `R`, literals `V` and primitive operations `W`. -/
def SAll (C : Dcon → Nat → Prop) (R : Dcon → Prop) (V : ANF.PVal → Prop) (W : Nat → Prop) : Src.Exp → Prop
  | .var _ => True
  | .lam e => SAll C R V W e
  | .app e₁ e₂ => SAll C R V W e₁ ∧ SAll C R V W e₂
  | .con d es => C d es.len ∧ SAllEs C R V W es
  | .mtch e bs => SAll C R V W e ∧ SAllB C R V W bs
  | .letin e₁ e₂ => SAll C R V W e₁ ∧ SAll C R V W e₂
  | .fix fs _ => SAllF C R V W fs
  | .prf => True
  | .pval p => V p
  | .prim p => W p
/-- The same for argument lists. -/
def SAllEs (C : Dcon → Nat → Prop) (R : Dcon → Prop) (V : ANF.PVal → Prop) (W : Nat → Prop) : Src.Exps → Prop
  | .nil => True
  | .cons e es => SAll C R V W e ∧ SAllEs C R V W es
/-- The same for recursive functions. -/
def SAllF (C : Dcon → Nat → Prop) (R : Dcon → Prop) (V : ANF.PVal → Prop) (W : Nat → Prop) : Src.Fns → Prop
  | .nil => True
  | .cons e es => SAll C R V W e ∧ SAllF C R V W es
/-- The same for branches. -/
def SAllB (C : Dcon → Nat → Prop) (R : Dcon → Prop) (V : ANF.PVal → Prop) (W : Nat → Prop) : Src.Brs → Prop
  | .nil => True
  | .cons d _ e bs => R d ∧ SAll C R V W e ∧ SAllB C R V W bs
end

/-- What the instructions made by the conversions satisfy. -/
structure Carries (P : Params) (C : Dcon → Nat → Prop) (R : Dcon → Prop) (V : ANF.PVal → Prop) (W : Nat → Prop) (Q : Feat → Prop) : Prop where
  con : ∀ d n, C d n → Q (.con (P.tag d) n)
  dflt : Q (.con P.defaultTag 0)
  br : ∀ d, R d → Q (.br (P.tag d))
  val : ∀ p, V p → Q (.val p)
  prim : ∀ p n, W p → P.arity p = some n → Q (.prim p n)
  call : ∀ n, Q (.call P.funTag n)
  kon : ∀ n, Q (.call P.konTag n)
  bundle : Q .bundle

/-- The same for code in direct style, which has calls in the middle of functions. -/
structure CarriesD (P : Params) (C : Dcon → Nat → Prop) (R : Dcon → Prop) (V : ANF.PVal → Prop) (W : Nat → Prop) (Q : Feat → Prop) : Prop extends
    Carries P C R V W Q where
  letcall : Q .letcall

/-- Code in front of a term. -/
def Ctx.All (Q : Feat → Prop) (C : Ctx) : Prop := ∀ e : ANF.Exp, e.All Q → (C.fill e).All Q

theorem Ctx.All.comp {Q C D} (hC : Ctx.All Q C) (hD : Ctx.All Q D) : Ctx.All Q (C.comp D) := by
  intro e he
  rw [fill_comp]; exact hC _ (hD _ he)

theorem Ctx.All.hole {Q} : Ctx.All Q .hole := fun _ h => h

theorem ctxBindProj_all {Q t r} : ∀ (vars : List Var) (n : Nat), Ctx.All Q (ctxBindProj t r vars n)
  | [], _ => .hole
  | v :: vars, n => fun e he => by
    simp only [ctxBindProj, Ctx.fill, ANF.Exp.All]
    exact ctxBindProj_all vars (n - 1) e he

section
variable {P : Params} {C : Dcon → Nat → Prop} {R : Dcon → Prop} {V : ANF.PVal → Prop} {W : Nat → Prop} {Q : Feat → Prop}

theorem convPrim_all (hQ : CarriesD P C R V W Q) (p : Tag) : W p → ∀ (n : Nat) (args : List Var) (k : Nat),
    P.arity p = some (n + args.length) → Ctx.All Q (convPrim P p n args k).2.1
  | hw, 0, args, k, ha => fun e he => ⟨hQ.prim _ _ hw (by simpa using ha), he⟩
  | hw, n + 1, args, k, ha => fun e he =>
    ⟨hQ.bundle, ⟨hQ.call _, convPrim_all hQ p hw n (k :: args) (k + 2) (by rw [ha, List.length_cons, Nat.add_right_comm]; rfl) _ trivial, trivial⟩, he⟩

mutual
theorem conv_all (hQ : CarriesD P C R V W Q) : ∀ (e : Src.Exp) {vn k x D k'}, conv P e vn k = some (x, D, k') → SAll C R V W e → D.All Q
  | .var i, vn, k, x, D, k', h, hw => by
    simp only [conv] at h
    split at h <;> simp at h
    obtain ⟨rfl, rfl, rfl⟩ := h
    exact .hole
  | .app e₁ e₂, vn, k, x, D, k', h, hw => by
    simp only [conv] at h
    split at h <;> try simp at h
    rename_i x₁ C₁ k₁ h₁
    split at h <;> simp at h
    rename_i x₂ C₂ k₂ h₂
    obtain ⟨rfl, rfl, rfl⟩ := h
    exact (conv_all hQ e₁ h₁ hw.1).comp ((conv_all hQ e₂ h₂ hw.2).comp fun e he => ⟨⟨hQ.call _, hQ.letcall⟩, he⟩)
  | .lam e, vn, k, x, D, k', h, hw => by
    simp only [conv] at h
    split at h <;> simp at h
    rename_i r C₁ k₁ h₁
    obtain ⟨rfl, rfl, rfl⟩ := h
    exact fun e' he => ⟨hQ.bundle, ⟨hQ.call _, conv_all hQ e h₁ hw _ trivial, trivial⟩, he⟩
  | .letin e₁ e₂, vn, k, x, D, k', h, hw => by
    simp only [conv] at h
    split at h <;> try simp at h
    rename_i x₁ C₁ k₁ h₁
    split at h <;> simp at h
    rename_i x₂ C₂ k₂ h₂
    obtain ⟨rfl, rfl, rfl⟩ := h
    exact (conv_all hQ e₁ h₁ hw.1).comp (conv_all hQ e₂ h₂ hw.2)
  | .con d es, vn, k, x, D, k', h, hw => by
    simp only [conv] at h
    split at h <;> simp at h
    rename_i ys C₁ k₁ h₁
    obtain ⟨rfl, rfl, rfl⟩ := h
    have := convs_all hQ es h₁ hw.2
    exact this.1.comp fun e he => ⟨by rw [this.2]; exact hQ.con _ _ hw.1, he⟩
  | .fix fs i, vn, k, x, D, k', h, hw => by
    simp only [conv, addFixNames_spec] at h
    split at h <;> simp at h
    rename_i y B k₁ h₁
    obtain ⟨rfl, rfl, rfl⟩ := h
    exact fun e he => ⟨hQ.bundle, convF_all hQ fs h₁ hw, he⟩
  | .mtch e bs, vn, k, x, D, k', h, hw => by
    simp only [conv] at h
    split at h <;> try simp at h
    rename_i x₁ C₁ k₁ h₁
    split at h <;> simp at h
    rename_i pats k₂ h₂
    obtain ⟨rfl, rfl, rfl⟩ := h
    intro e' he
    refine ⟨hQ.bundle, ⟨hQ.call _, ?_, trivial⟩, ?_⟩
    · simp only [ANF.Exp.All]
      exact convB_all hQ bs h₂ hw.2
    · show ((Ctx.comp _ _).fill e').All Q
      rw [Ctx.fill_comp]
      exact conv_all hQ e h₁ hw.1 _ ⟨⟨hQ.call _, hQ.letcall⟩, he⟩
  | .prf, vn, k, x, D, k', h, hw => by
    simp only [conv, Option.some.injEq, Prod.mk.injEq] at h
    obtain ⟨rfl, rfl, rfl⟩ := h
    exact fun e he => ⟨hQ.dflt, he⟩
  | .pval p, vn, k, x, D, k', h, hw => by
    simp only [conv, Option.some.injEq, Prod.mk.injEq] at h
    obtain ⟨rfl, rfl, rfl⟩ := h
    exact fun e he => ⟨hQ.val _ hw, he⟩
  | .prim p, vn, k, x, D, k', h, hw => by
    simp only [conv] at h
    split at h <;> simp at h
    rename_i n hn
    have := convPrim_all hQ p hw n [] k hn
    rw [h] at this
    exact this
theorem convs_all (hQ : CarriesD P C R V W Q) : ∀ (es : Src.Exps) {vn k ys D k'}, convs P es vn k = some (ys, D, k') → SAllEs C R V W es →
    D.All Q ∧ ys.length = es.len
  | .nil, vn, k, ys, D, k', h, hw => by
    simp only [convs, Option.some.injEq, Prod.mk.injEq] at h
    obtain ⟨rfl, rfl, rfl⟩ := h
    exact ⟨.hole, rfl⟩
  | .cons e es, vn, k, ys, D, k', h, hw => by
    simp only [convs] at h
    split at h <;> try simp at h
    rename_i x₁ C₁ k₁ h₁
    split at h <;> simp at h
    rename_i x₂ C₂ k₂ h₂
    obtain ⟨rfl, rfl, rfl⟩ := h
    have := convs_all hQ es h₂ hw.2
    exact ⟨(conv_all hQ e h₁ hw.1).comp this.1, by simp [this.2, Src.Exps.len]⟩
theorem convF_all (hQ : CarriesD P C R V W Q) : ∀ (fs : Src.Fns) {names i vn k x B k'}, convF P fs names i vn k = some (x, B, k') →
    SAllF C R V W fs → B.All Q
  | .nil, names, i, vn, k, x, B, k', h, hw => by
    cases names <;> simp [convF] at h
    obtain ⟨rfl, rfl, rfl⟩ := h
    trivial
  | .cons (.lam e) fs, f :: names, i, vn, k, x, B, k', h, hw => by
    simp only [convF] at h
    split at h <;> try simp at h
    rename_i r C k₁ h₁
    split at h <;> simp at h
    rename_i fi B' k₂ h₂
    obtain ⟨rfl, rfl, rfl⟩ := h
    exact ⟨hQ.call _, conv_all hQ e h₁ hw.1 _ trivial, convF_all hQ fs h₂ hw.2⟩
  | .cons e fs, [], i, vn, k, x, B, k', h, hw => by cases e <;> simp [convF] at h
  | .cons (.var _) _, _ :: _, _, _, _, _, _, _, h, _ => by simp [convF] at h
  | .cons (.app _ _) _, _ :: _, _, _, _, _, _, _, h, _ => by simp [convF] at h
  | .cons (.con _ _) _, _ :: _, _, _, _, _, _, _, h, _ => by simp [convF] at h
  | .cons (.mtch _ _) _, _ :: _, _, _, _, _, _, _, h, _ => by simp [convF] at h
  | .cons (.letin _ _) _, _ :: _, _, _, _, _, _, _, h, _ => by simp [convF] at h
  | .cons (.fix _ _) _, _ :: _, _, _, _, _, _, _, h, _ => by simp [convF] at h
  | .cons (.prf) _, _ :: _, _, _, _, _, _, _, h, _ => by simp [convF] at h
  | .cons (.pval _) _, _ :: _, _, _, _, _, _, _, h, _ => by simp [convF] at h
  | .cons (.prim _) _, _ :: _, _, _, _, _, _, _, h, _ => by simp [convF] at h
theorem convB_all (hQ : CarriesD P C R V W Q) : ∀ (bs : Src.Brs) {y vn k pats k'}, convB P bs y vn k = some (pats, k') → SAllB C R V W bs →
    pats.All Q
  | .nil, y, vn, k, pats, k', h, hw => by
    simp only [convB, Option.some.injEq, Prod.mk.injEq] at h
    obtain ⟨rfl, rfl⟩ := h
    trivial
  | .cons d n e bs, y, vn, k, pats, k', h, hw => by
    simp only [convB, freshList_spec] at h
    split at h <;> try simp at h
    rename_i ps k₁ h₁
    split at h <;> simp at h
    rename_i r C k₂ h₂
    obtain ⟨rfl, rfl⟩ := h
    exact ⟨hQ.br _ hw.1, ctxBindProj_all _ _ _ (conv_all hQ e h₂ hw.2.1 _ trivial), convB_all hQ bs h₁ hw.2.2⟩
end

theorem cpsPrim_all (hQ : Carries P C R V W Q) (p : Tag) : W p → ∀ (m : Nat) (args : List Var) (k : Var) (n : Nat),
    P.arity p = some (m + args.length) → (cpsPrim P p m args k n).1.All Q
  | hw, 0, args, k, n, ha => ⟨hQ.prim _ _ hw (by simpa using ha), hQ.kon _⟩
  | hw, m + 1, args, k, n, ha =>
    ⟨hQ.bundle, ⟨hQ.call _, cpsPrim_all hQ p hw m _ _ _ (by rw [ha, List.length_cons, Nat.add_right_comm]; rfl), trivial⟩, hQ.kon _⟩

mutual
theorem cps_all (hQ : Carries P C R V W Q) : ∀ (e : Src.Exp) {vn k n e' n'}, cps P e vn k n = some (e', n') → SAll C R V W e → e'.All Q
  | .var i, vn, k, n, e', n', h, hw => by
    simp only [cps] at h
    split at h <;> simp at h
    obtain ⟨rfl, rfl⟩ := h
    exact hQ.kon _
  | .app e₁ e₂, vn, k, n, e', n', h, hw => by
    simp only [cps] at h
    split at h <;> try simp at h
    rename_i x₁ k₁ h₁
    split at h <;> simp at h
    rename_i x₂ k₂ h₂
    obtain ⟨rfl, rfl⟩ := h
    exact ⟨hQ.bundle, ⟨hQ.kon _, ⟨hQ.bundle, ⟨hQ.kon _, hQ.call _, trivial⟩, cps_all hQ e₂ h₂ hw.2⟩, trivial⟩, cps_all hQ e₁ h₁ hw.1⟩
  | .lam e, vn, k, n, e', n', h, hw => by
    simp only [cps] at h
    split at h <;> simp at h
    rename_i r k₁ h₁
    obtain ⟨rfl, rfl⟩ := h
    exact ⟨hQ.bundle, ⟨hQ.call _, cps_all hQ e h₁ hw, trivial⟩, hQ.kon _⟩
  | .letin e₁ e₂, vn, k, n, e', n', h, hw => by
    simp only [cps] at h
    split at h <;> try simp at h
    rename_i x₂ k₂ h₂
    split at h <;> simp at h
    rename_i x₁ k₁ h₁
    obtain ⟨rfl, rfl⟩ := h
    exact ⟨hQ.bundle, ⟨hQ.kon _, cps_all hQ e₂ h₂ hw.2, trivial⟩, cps_all hQ e₁ h₁ hw.1⟩
  | .con d es, vn, k, n, e', n', h, hw => by
    simp only [cps, freshList_spec] at h
    exact cpss_all hQ es h hw.2 ⟨by simpa using hQ.con _ _ hw.1, hQ.kon _⟩
  | .fix fs i, vn, k, n, e', n', h, hw => by
    simp only [cps] at h
    split at h <;> try simp at h
    rename_i B k₁ h₁
    split at h <;> simp at h
    obtain ⟨rfl, rfl⟩ := h
    exact ⟨hQ.bundle, cpsF_all hQ fs h₁ hw, hQ.kon _⟩
  | .mtch e bs, vn, k, n, e', n', h, hw => by
    simp only [cps] at h
    split at h <;> try simp at h
    rename_i x₁ k₁ h₁
    split at h <;> simp at h
    rename_i pats k₂ h₂
    obtain ⟨rfl, rfl⟩ := h
    refine ⟨hQ.bundle, ⟨hQ.kon _, ?_, trivial⟩, cps_all hQ e h₁ hw.1⟩
    simp only [ANF.Exp.All]
    exact cpsB_all hQ bs h₂ hw.2
  | .prf, vn, k, n, e', n', h, hw => by
    simp only [cps, Option.some.injEq, Prod.mk.injEq] at h
    obtain ⟨rfl, rfl⟩ := h
    exact ⟨hQ.dflt, hQ.kon _⟩
  | .pval p, vn, k, n, e', n', h, hw => by
    simp only [cps, Option.some.injEq, Prod.mk.injEq] at h
    obtain ⟨rfl, rfl⟩ := h
    exact ⟨hQ.val _ hw, hQ.kon _⟩
  | .prim p, vn, k, n, e', n', h, hw => by
    simp only [cps] at h
    split at h <;> simp at h
    rename_i m hm
    have := cpsPrim_all hQ p hw m [] k n hm
    rw [h] at this
    exact this
theorem cpss_all (hQ : Carries P C R V W Q) : ∀ (es : Src.Exps) {vn eapp xs ks n e' n'}, cpss P es vn eapp xs ks n = some (e', n') →
    SAllEs C R V W es → eapp.All Q → e'.All Q
  | .nil, vn, eapp, xs, ks, n, e', n', h, hw, ha => by
    simp only [cpss, Option.some.injEq, Prod.mk.injEq] at h
    obtain ⟨rfl, rfl⟩ := h
    exact ha
  | .cons e es, vn, eapp, x :: xs, k :: ks, n, e', n', h, hw, ha => by
    simp only [cpss] at h
    split at h <;> try simp at h
    rename_i x₁ k₁ h₁
    split at h <;> simp at h
    rename_i x₂ k₂ h₂
    obtain ⟨rfl, rfl⟩ := h
    exact ⟨hQ.bundle, ⟨hQ.kon _, cpss_all hQ es h₂ hw.2 ha, trivial⟩, cps_all hQ e h₁ hw.1⟩
  | .cons _ _, vn, eapp, [], ks, n, e', n', h, hw, ha => by simp [cpss] at h
  | .cons _ _, vn, eapp, _ :: _, [], n, e', n', h, hw, ha => by simp [cpss] at h
theorem cpsF_all (hQ : Carries P C R V W Q) : ∀ (fs : Src.Fns) {vn names n B n'}, cpsF P fs vn names n = some (B, n') → SAllF C R V W fs → B.All Q
  | .nil, vn, names, n, B, n', h, hw => by
    simp only [cpsF, Option.some.injEq, Prod.mk.injEq] at h
    obtain ⟨rfl, rfl⟩ := h
    trivial
  | .cons (.lam e) fs, vn, names, n, B, n', h, hw => by
    simp only [cpsF] at h
    split at h <;> try simp at h
    rename_i r k₁ h₁
    split at h <;> simp at h
    rename_i B' k₂ h₂
    obtain ⟨rfl, rfl⟩ := h
    exact ⟨hQ.call _, cps_all hQ e h₁ hw.1, cpsF_all hQ fs h₂ hw.2⟩
  | .cons (.var _) _, _, _, _, _, _, h, _ => by simp [cpsF] at h
  | .cons (.app _ _) _, _, _, _, _, _, h, _ => by simp [cpsF] at h
  | .cons (.con _ _) _, _, _, _, _, _, h, _ => by simp [cpsF] at h
  | .cons (.mtch _ _) _, _, _, _, _, _, h, _ => by simp [cpsF] at h
  | .cons (.letin _ _) _, _, _, _, _, _, h, _ => by simp [cpsF] at h
  | .cons (.fix _ _) _, _, _, _, _, _, h, _ => by simp [cpsF] at h
  | .cons (.prf) _, _, _, _, _, _, h, _ => by simp [cpsF] at h
  | .cons (.pval _) _, _, _, _, _, _, h, _ => by simp [cpsF] at h
  | .cons (.prim _) _, _, _, _, _, _, h, _ => by simp [cpsF] at h
theorem cpsB_all (hQ : Carries P C R V W Q) : ∀ (bs : Src.Brs) {vn k r n pats n'}, cpsB P bs vn k r n = some (pats, n') → SAllB C R V W bs →
    pats.All Q
  | .nil, vn, k, r, n, pats, n', h, hw => by
    simp only [cpsB, Option.some.injEq, Prod.mk.injEq] at h
    obtain ⟨rfl, rfl⟩ := h
    trivial
  | .cons d m e bs, vn, k, r, n, pats, n', h, hw => by
    simp only [cpsB, freshList_spec] at h
    split at h <;> try simp at h
    rename_i ps k₁ h₁
    split at h <;> simp at h
    rename_i e₁ k₂ h₂
    obtain ⟨rfl, rfl⟩ := h
    exact ⟨hQ.br _ hw.1, ctxBindProj_all _ _ _ (cps_all hQ e h₂ hw.2.1), cpsB_all hQ bs h₁ hw.2.2⟩
end

end

mutual
theorem sall_true : ∀ e : Src.Exp, SAll (fun _ _ => True) (fun _ => True) (fun _ => True) (fun _ => True) e
  | .var _ => trivial
  | .lam e => sall_true e
  | .app e₁ e₂ => ⟨sall_true e₁, sall_true e₂⟩
  | .con _ es => ⟨trivial, sallEs_true es⟩
  | .mtch e bs => ⟨sall_true e, sallB_true bs⟩
  | .letin e₁ e₂ => ⟨sall_true e₁, sall_true e₂⟩
  | .fix fs _ => sallF_true fs
  | .prf => trivial
  | .pval _ => trivial
  | .prim _ => trivial
theorem sallEs_true : ∀ es : Src.Exps, SAllEs (fun _ _ => True) (fun _ => True) (fun _ => True) (fun _ => True) es
  | .nil => trivial
  | .cons e es => ⟨sall_true e, sallEs_true es⟩
theorem sallF_true : ∀ fs : Src.Fns, SAllF (fun _ _ => True) (fun _ => True) (fun _ => True) (fun _ => True) fs
  | .nil => trivial
  | .cons e fs => ⟨sall_true e, sallF_true fs⟩
theorem sallB_true : ∀ bs : Src.Brs, SAllB (fun _ _ => True) (fun _ => True) (fun _ => True) (fun _ => True) bs
  | .nil => trivial
  | .cons _ _ e bs => ⟨trivial, sall_true e, sallB_true bs⟩
end

mutual
theorem Typed.all {T : Types} {V : ANF.PVal → Prop} {W : Nat → Prop} : ∀ {e}, Typed T e → SAll (fun _ _ => True) (fun _ => True) V W e →
    SAll T.Declared (fun d => ∃ n, T.Declared d n) V W e
  | .var _, _, _ => trivial
  | .lam e, h, hv => Typed.all (e := e) h hv
  | .app e₁ e₂, h, hv => ⟨Typed.all h.1 hv.1, Typed.all h.2 hv.2⟩
  | .con d es, h, hv => ⟨h.1, TypedEs.all h.2 hv.2⟩
  | .mtch e bs, h, hv => by obtain ⟨i, hi⟩ := h.2.1; exact ⟨Typed.all h.1 hv.1, TypedB.all hi h.2.2 hv.2⟩
  | .letin e₁ e₂, h, hv => ⟨Typed.all h.1 hv.1, Typed.all h.2 hv.2⟩
  | .fix fs _, h, hv => TypedF.all (fs := fs) h hv
  | .prf, _, _ => trivial
  | .pval _, _, hv => hv
  | .prim _, _, hw => hw
theorem TypedEs.all {T : Types} {V : ANF.PVal → Prop} {W : Nat → Prop} : ∀ {es}, TypedEs T es → SAllEs (fun _ _ => True) (fun _ => True) V W es →
    SAllEs T.Declared (fun d => ∃ n, T.Declared d n) V W es
  | .nil, _, _ => trivial
  | .cons e es, h, hv => ⟨Typed.all h.1 hv.1, TypedEs.all h.2 hv.2⟩
theorem TypedF.all {T : Types} {V : ANF.PVal → Prop} {W : Nat → Prop} : ∀ {fs}, TypedF T fs → SAllF (fun _ _ => True) (fun _ => True) V W fs →
    SAllF T.Declared (fun d => ∃ n, T.Declared d n) V W fs
  | .nil, _, _ => trivial
  | .cons e es, h, hv => ⟨Typed.all h.1 hv.1, TypedF.all h.2 hv.2⟩
theorem TypedB.all {T : Types} {V : ANF.PVal → Prop} {W : Nat → Prop} {i : Nat} : ∀ {bs}, T.Branches i bs → TypedB T bs →
    SAllB (fun _ _ => True) (fun _ => True) V W bs → SAllB T.Declared (fun d => ∃ n, T.Declared d n) V W bs
  | .nil, _, _, _ => trivial
  | .cons d n e bs, hi, h, hv => ⟨⟨n, hi.2.1⟩, Typed.all h.1 hv.2.1, TypedB.all hi.2.2 h.2 hv.2.2⟩
end

end Conv
