import Verif.Conv.AnfModel

/-!
# ANF conversion: simulation

`VRel` relates a source value to the LambdaANF value that represents it; source and target run in lockstep, one nested
source body for one nested target call.
-/

namespace Conv

open Src (Dcon SVal SRes SRess Mode Data asPrims sprim spap nest seval sevals srun scall sapply sbranch recEnv findBranch)
open ANF (Var Tag Val FO Env Res evalE getList callee)

/-! ## Contexts -/

theorem Ctx.fill_comp (C D : Ctx) (e : ANF.Exp) : (C.comp D).fill e = C.fill (D.fill e) := by
  induction C with
  | hole => rfl
  | _ => simp only [Ctx.comp, Ctx.fill]; congr 1

/-! ## Well-formed matches -/

/-- The constructors a branch list mentions. -/
def dcons : Src.Brs → List Dcon
  | .nil => []
  | .cons d _ _ bs => d :: dcons bs

/-- A branch list the target semantics can dispatch on: different constructors have different tags, and all tags belong
to one type. -/
def BrsOk (P : Params) (cenv : Ctor.PMap Ctor.Info) (bs : Src.Brs) : Prop :=
  (∀ d ∈ dcons bs, ∀ d' ∈ dcons bs, P.tag d = P.tag d' → d = d') ∧
  ∀ d ∈ dcons bs, ANF.consistent cenv (P.tag d) ((dcons bs).map P.tag) = true

mutual
/-- Every match is well formed. -/
def okE (P : Params) (cenv : Ctor.PMap Ctor.Info) : Src.Exp → Prop
  | .var _ => True
  | .lam e => okE P cenv e
  | .app e₁ e₂ => okE P cenv e₁ ∧ okE P cenv e₂
  | .con _ es => okEs P cenv es
  | .mtch e bs => okE P cenv e ∧ BrsOk P cenv bs ∧ okB P cenv bs
  | .letin e₁ e₂ => okE P cenv e₁ ∧ okE P cenv e₂
  | .fix fs _ => okF P cenv fs
  | .prf => True
  | .pval _ => True
  | .prim _ => True
/-- The same for argument lists. -/
def okEs (P : Params) (cenv : Ctor.PMap Ctor.Info) : Src.Exps → Prop
  | .nil => True
  | .cons e es => okE P cenv e ∧ okEs P cenv es
/-- The same for recursive functions. -/
def okF (P : Params) (cenv : Ctor.PMap Ctor.Info) : Src.Fns → Prop
  | .nil => True
  | .cons e es => okE P cenv e ∧ okF P cenv es
/-- The same for branches. -/
def okB (P : Params) (cenv : Ctor.PMap Ctor.Info) : Src.Brs → Prop
  | .nil => True
  | .cons _ _ e bs => okE P cenv e ∧ okB P cenv bs
end

/-! ## Bounds on the variables -/

theorem freshList_spec : ∀ n k, freshList n k = (List.range' k n, k + n)
  | 0, k => by simp [freshList]
  | n + 1, k => by simp [freshList, freshList_spec n (k + 1), List.range'_succ]; vomega

theorem addFixNames_spec (fs : Src.Fns) : ∀ vn k, addFixNames fs vn k =
    (List.range' k fs.len, (List.range' k fs.len).reverse ++ vn, k + fs.len) := by
  induction fs using Src.Fns.ind with
  | h0 => intro vn k; simp [addFixNames, Src.Fns.len]
  | h1 e fs ih =>
    intro vn k
    simp [addFixNames, ih, Src.Fns.len, List.range'_succ]; vomega

/-- All variables in scope are older than the next fresh one. -/
def Below (vn : List Var) (k : Nat) : Prop := ∀ y ∈ vn, y < k

theorem Below.mono {vn k k'} (h : Below vn k) (hk : k ≤ k') : Below vn k' := fun y hy => Nat.lt_of_lt_of_le (h y hy) hk

theorem Below.cons {vn k x} (h : Below vn k) (hx : x < k) : Below (x :: vn) k := by
  intro y hy; rcases List.mem_cons.1 hy with rfl | hy
  · exact hx
  · exact h y hy

theorem Below.append {vn vn' k} (h : Below vn k) (h' : Below vn' k) : Below (vn ++ vn') k := by
  intro y hy; rcases List.mem_append.1 hy with hy | hy
  · exact h y hy
  · exact h' y hy

theorem below_range (k n : Nat) : Below (List.range' k n) (k + n) := by
  intro y hy; simp [List.mem_range'] at hy; vomega

theorem below_fix {vn : List Var} {k} (h : Below vn k) (n : Nat) :
    Below ((List.range' k n).reverse ++ vn) (k + n) := by
  refine Below.append ?_ (h.mono (by vomega))
  intro y hy; exact below_range k n y (by simpa using hy)

variable {P : Params}

theorem convPrim_bound {p : Nat} : ∀ (n : Nat) (args : List Var) (k : Nat),
    k ≤ (convPrim P p n args k).2.2 ∧ (convPrim P p n args k).1 < (convPrim P p n args k).2.2
  | 0, args, k => by simp [convPrim]
  | n + 1, args, k => by
    have := convPrim_bound (p := p) n (k :: args) (k + 2)
    exact ⟨Nat.le_trans (by vomega : k ≤ k + 2) this.1, Nat.lt_of_lt_of_le (by vomega : k + 1 < k + 2) this.1⟩

mutual
theorem conv_bound : ∀ (e : Src.Exp) {vn k x C k'}, conv P e vn k = some (x, C, k') → Below vn k → e.wfp P.arity vn.length →
    k ≤ k' ∧ x < k'
  | .var i, vn, k, x, C, k', h, hb, hw => by
    simp only [conv] at h
    split at h <;> simp at h
    obtain ⟨rfl, rfl, rfl⟩ := h
    rename_i v hv
    exact ⟨Nat.le_refl _, hb _ (List.mem_of_getElem? hv)⟩
  | .app e₁ e₂, vn, k, x, C, k', h, hb, hw => by
    simp only [Src.Exp.wfp] at hw
    simp only [conv] at h
    split at h <;> try simp at h
    rename_i x₁ C₁ k₁ h₁
    split at h <;> simp at h
    rename_i x₂ C₂ k₂ h₂
    obtain ⟨rfl, rfl, rfl⟩ := h
    have a := conv_bound e₁ h₁ hb hw.1
    have b := conv_bound e₂ h₂ (hb.mono a.1) hw.2
    vomega
  | .lam e, vn, k, x, C, k', h, hb, hw => by
    simp only [Src.Exp.wfp] at hw
    simp only [conv] at h
    split at h <;> simp at h
    rename_i r C₁ k₁ h₁
    obtain ⟨rfl, rfl, rfl⟩ := h
    have a := conv_bound e h₁ ((hb.mono (by vomega)).cons (by vomega)) (by simpa [Nat.add_comm] using hw)
    vomega
  | .letin e₁ e₂, vn, k, x, C, k', h, hb, hw => by
    simp only [Src.Exp.wfp] at hw
    simp only [conv] at h
    split at h <;> try simp at h
    rename_i x₁ C₁ k₁ h₁
    split at h <;> simp at h
    rename_i x₂ C₂ k₂ h₂
    obtain ⟨rfl, rfl, rfl⟩ := h
    have a := conv_bound e₁ h₁ hb hw.1
    have b := conv_bound e₂ h₂ ((hb.mono a.1).cons a.2) (by simpa [Nat.add_comm] using hw.2)
    vomega
  | .con d es, vn, k, x, C, k', h, hb, hw => by
    simp only [Src.Exp.wfp] at hw
    simp only [conv] at h
    split at h <;> simp at h
    rename_i ys C₁ k₁ h₁
    obtain ⟨rfl, rfl, rfl⟩ := h
    have a := convs_bound es h₁ (hb.mono (by vomega)) hw
    vomega
  | .fix fs i, vn, k, x, C, k', h, hb, hw => by
    simp only [Src.Exp.wfp] at hw
    simp only [conv, addFixNames_spec] at h
    split at h <;> simp at h
    rename_i y B k₁ h₁
    obtain ⟨rfl, rfl, rfl⟩ := h
    have a := convF_bound fs h₁ (below_fix hb _) (below_range _ _) (by simp) (by simpa using hw.2)
    have := a.2 hw.1
    vomega
  | .mtch e bs, vn, k, x, C, k', h, hb, hw => by
    simp only [Src.Exp.wfp] at hw
    simp only [conv] at h
    split at h <;> try simp at h
    rename_i x₁ C₁ k₁ h₁
    split at h <;> simp at h
    rename_i pats k₂ h₂
    obtain ⟨rfl, rfl, rfl⟩ := h
    have a := conv_bound e h₁ (hb.mono (by vomega)) hw.1
    have b := convB_bound bs h₂ (hb.mono (by vomega)) hw.2
    vomega
  | .prf, vn, k, x, C, k', h, hb, hw => by
    simp only [conv, Option.some.injEq, Prod.mk.injEq] at h; vomega
  | .pval p, vn, k, x, C, k', h, hb, hw => by
    simp only [conv, Option.some.injEq, Prod.mk.injEq] at h; vomega
  | .prim p, vn, k, x, C, k', h, hb, hw => by
    simp only [conv] at h
    split at h <;> simp at h
    rename_i n _
    have := convPrim_bound (P := P) (p := p) n [] k
    rw [h] at this; exact this
theorem convs_bound : ∀ (es : Src.Exps) {vn k ys C k'}, convs P es vn k = some (ys, C, k') → Below vn k →
    es.wfp P.arity vn.length → k ≤ k' ∧ Below ys k'
  | .nil, vn, k, ys, C, k', h, hb, hw => by
    simp only [convs, Option.some.injEq, Prod.mk.injEq] at h
    obtain ⟨rfl, rfl, rfl⟩ := h
    exact ⟨Nat.le_refl _, by simp [Below]⟩
  | .cons e es, vn, k, ys, C, k', h, hb, hw => by
    simp only [Src.Exps.wfp] at hw
    simp only [convs] at h
    split at h <;> try simp at h
    rename_i x₁ C₁ k₁ h₁
    split at h <;> simp at h
    rename_i x₂ C₂ k₂ h₂
    obtain ⟨rfl, rfl, rfl⟩ := h
    have a := conv_bound e h₁ hb hw.1
    have b := convs_bound es h₂ (hb.mono a.1) hw.2
    exact ⟨by vomega, b.2.cons (by vomega)⟩
theorem convF_bound : ∀ (fs : Src.Fns) {names i vn k x B k'}, convF P fs names i vn k = some (x, B, k') → Below vn k →
    Below names k → names.length = fs.len → fs.wfp P.arity vn.length → k ≤ k' ∧ (i < fs.len → x < k')
  | .nil, names, i, vn, k, x, B, k', h, hb, hn, hl, hw => by
    cases names <;> simp [convF] at h
    obtain ⟨rfl, rfl, rfl⟩ := h
    exact ⟨Nat.le_refl _, by simp [Src.Fns.len]⟩
  | .cons (.lam e) fs, f :: names, i, vn, k, x, B, k', h, hb, hn, hl, hw => by
    simp only [Src.Fns.wfp, Src.Exp.wfp] at hw
    simp only [convF] at h
    split at h <;> try simp at h
    rename_i r C k₁ h₁
    split at h <;> simp at h
    rename_i fi B' k₂ h₂
    obtain ⟨rfl, rfl, rfl⟩ := h
    have a := conv_bound e h₁ ((hb.mono (by vomega)).cons (by vomega)) (by simpa [Nat.add_comm] using hw.1)
    have b := convF_bound fs h₂ (hb.mono (by vomega)) (fun y hy => Nat.lt_of_lt_of_le (hn y (by simp [hy])) (by vomega))
      (by simpa [Src.Fns.len] using hl) hw.2.2
    refine ⟨by vomega, fun hi => ?_⟩
    split
    · have := hn f (by simp); vomega
    · exact b.2 (by simp [Src.Fns.len] at hi; vomega)
  | .cons e fs, [], i, vn, k, x, B, k', h, hb, hn, hl, hw => by simp [Src.Fns.len] at hl
  | .cons (.var _) _, _ :: _, _, _, _, _, _, _, h, _, _, _, _ => by simp [convF] at h
  | .cons (.app _ _) _, _ :: _, _, _, _, _, _, _, h, _, _, _, _ => by simp [convF] at h
  | .cons (.con _ _) _, _ :: _, _, _, _, _, _, _, h, _, _, _, _ => by simp [convF] at h
  | .cons (.mtch _ _) _, _ :: _, _, _, _, _, _, _, h, _, _, _, _ => by simp [convF] at h
  | .cons (.letin _ _) _, _ :: _, _, _, _, _, _, _, h, _, _, _, _ => by simp [convF] at h
  | .cons (.fix _ _) _, _ :: _, _, _, _, _, _, _, h, _, _, _, _ => by simp [convF] at h
  | .cons (.prf) _, _ :: _, _, _, _, _, _, _, h, _, _, _, _ => by simp [convF] at h
  | .cons (.pval _) _, _ :: _, _, _, _, _, _, _, h, _, _, _, _ => by simp [convF] at h
  | .cons (.prim _) _, _ :: _, _, _, _, _, _, _, h, _, _, _, _ => by simp [convF] at h
theorem convB_bound : ∀ (bs : Src.Brs) {y vn k pats k'}, convB P bs y vn k = some (pats, k') → Below vn k →
    bs.wfp P.arity vn.length → k ≤ k'
  | .nil, y, vn, k, pats, k', h, hb, hw => by
    simp only [convB, Option.some.injEq, Prod.mk.injEq] at h; vomega
  | .cons d n e bs, y, vn, k, pats, k', h, hb, hw => by
    simp only [Src.Brs.wfp] at hw
    simp only [convB, freshList_spec] at h
    split at h <;> try simp at h
    rename_i ps k₁ h₁
    split at h <;> simp at h
    rename_i r C k₂ h₂
    obtain ⟨rfl, rfl⟩ := h
    have a := convB_bound bs h₁ hb hw.2
    have b := conv_bound e h₂ ((below_range _ _).append (hb.mono (by vomega))) (by simpa using hw.1)
    vomega
end

/-! ## Values -/

variable {cenv : Ctor.PMap Ctor.Info}

mutual
/-- A LambdaANF value represents a source value. -/
inductive VRel (P : Params) (cenv : Ctor.PMap Ctor.Info) : SVal → Val → Prop
  | con {d vs ws} : VRels P cenv vs ws → VRel P cenv (.con d vs) (.constr (P.tag d) ws)
  | prf : VRel P cenv .prf (.constr P.defaultTag [])
  | prim {p} : VRel P cenv (.prim p) (.prim p)
  | clos {ρ vn k e r C k' ρ'} : ERel P cenv ρ vn ρ' → Below vn k → conv P e (k :: vn) (k + 2) = some (r, C, k') →
      e.wfp P.arity (vn.length + 1) → okE P cenv e →
      VRel P cenv (.clos ρ e) (.fn ρ' (.cons (k + 1) P.funTag [k] (C.fill (.halt r)) .nil) (k + 1))
  | fixc {ρ vn k₀ fs i fi B k' ρ' n} : ERel P cenv ρ vn ρ' → Below vn k₀ →
      convF P fs (List.range' k₀ fs.len) i ((List.range' k₀ fs.len).reverse ++ vn) (k₀ + fs.len) = some (fi, B, k') →
      fs.wfp P.arity (fs.len + vn.length) → okF P cenv fs → n < fs.len →
      VRel P cenv (.fixc ρ fs n) (.fn ρ' B (k₀ + n))
  | pap {p n vs ws args k ρ'} : VRels P cenv vs ws → getList ρ' args.reverse = some ws → Below args k →
      VRel P cenv (.pap p n vs) (.fn ρ' (.cons (k + 1) P.funTag [k] ((convPrim P p n (k :: args) (k + 2)).2.1.fill
        (.halt (convPrim P p n (k :: args) (k + 2)).1)) .nil) (k + 1))
/-- The same for lists. -/
inductive VRels (P : Params) (cenv : Ctor.PMap Ctor.Info) : List SVal → List Val → Prop
  | nil : VRels P cenv [] []
  | cons {v w vs ws} : VRel P cenv v w → VRels P cenv vs ws → VRels P cenv (v :: vs) (w :: ws)
/-- The variables `vn` hold the values of a source environment. -/
inductive ERel (P : Params) (cenv : Ctor.PMap Ctor.Info) : List SVal → List Var → Env → Prop
  | nil {ρ'} : ERel P cenv [] [] ρ'
  | cons {v ρ y vn ρ' w} : ρ' y = some w → VRel P cenv v w → ERel P cenv ρ vn ρ' → ERel P cenv (v :: ρ) (y :: vn) ρ'
end

theorem ERel.len {ρ vn ρ'} : ERel P cenv ρ vn ρ' → ρ.length = vn.length := by
  induction ρ generalizing vn with
  | nil => intro h; cases h; rfl
  | cons v ρ ih => intro h; cases h with | cons _ _ h => simp [ih h]

theorem ERel.get {ρ vn ρ'} : ERel P cenv ρ vn ρ' → ∀ {i : Nat} {v y}, ρ[i]? = some v → vn[i]? = some y →
    ∃ w, ρ' y = some w ∧ VRel P cenv v w := by
  induction ρ generalizing vn with
  | nil => intro h i v y hv; simp at hv
  | cons u ρ ih =>
    intro h i v y hv hy
    cases h with
    | cons h1 h2 h3 =>
      cases i with
      | zero => simp at hv hy; subst hv; subst hy; exact ⟨_, h1, h2⟩
      | succ i => exact ih h3 (by simpa using hv) (by simpa using hy)

theorem ERel.agree {ρ vn ρ' ρ''} : ERel P cenv ρ vn ρ' → (∀ y ∈ vn, ρ'' y = ρ' y) → ERel P cenv ρ vn ρ'' := by
  induction ρ generalizing vn with
  | nil => intro h _; cases h; exact .nil
  | cons u ρ ih =>
    intro h ha
    cases h with
    | cons h1 h2 h3 => exact .cons (by rw [ha _ (by simp)]; exact h1) h2 (ih h3 (fun y hy => ha y (by simp [hy])))

theorem ERel.append {ρ₁ vn₁ ρ₂ vn₂ ρ'} : ERel P cenv ρ₁ vn₁ ρ' → ERel P cenv ρ₂ vn₂ ρ' →
    ERel P cenv (ρ₁ ++ ρ₂) (vn₁ ++ vn₂) ρ' := by
  induction ρ₁ generalizing vn₁ with
  | nil => intro h h'; cases h; exact h'
  | cons u ρ ih => intro h h'; cases h with | cons h1 h2 h3 => exact .cons h1 h2 (ih h3 h')

theorem VRels.len {vs ws} : VRels P cenv vs ws → vs.length = ws.length := by
  induction vs generalizing ws with
  | nil => intro h; cases h; rfl
  | cons v vs ih => intro h; cases h with | cons _ h => simp [ih h]

theorem VRels.get {vs ws} : VRels P cenv vs ws → ∀ {i : Nat} {v}, vs[i]? = some v → ∃ w, ws[i]? = some w ∧ VRel P cenv v w := by
  induction vs generalizing ws with
  | nil => intro h i v hv; simp at hv
  | cons u vs ih =>
    intro h i v hv
    cases h with
    | cons h1 h2 =>
      cases i with
      | zero => simp at hv; subst hv; exact ⟨_, rfl, h1⟩
      | succ i => obtain ⟨w, h⟩ := ih h2 (i := i) (by simpa using hv); exact ⟨w, by simpa using h.1, h.2⟩

/-- Results correspond; nothing is claimed of stuck source programs. -/
def RRel (P : Params) (cenv : Ctor.PMap Ctor.Info) : SRes → Res → Prop
  | .val v, r => ∃ w, r = .val w ∧ VRel P cenv v w
  | .oot, r => r = .oot
  | .stuck, _ => True

/-- Calls correspond, for function bodies, case functions and primitive operations. -/
structure CallOk (P : Params) (cenv : Ctor.PMap Ctor.Info) (Q : Mode) (sc : List SVal → Src.Exp → SRes) (tc : Env → ANF.Exp → Res) :
    Prop where
  body : ∀ {e vn k x C k' ρ ρ'}, conv P e vn k = some (x, C, k') → Below vn k → e.wfp P.arity vn.length → okE P cenv e →
    ERel P cenv ρ vn ρ' → RRel P cenv (sc ρ e) (tc ρ' (C.fill (.halt x)))
  case : ∀ {bs y vn k pats k' ρ ρ' d vs ws e}, convB P bs y vn k = some (pats, k') → Below vn k → y < k →
    bs.wfp P.arity vn.length → BrsOk P cenv bs → okB P cenv bs → ERel P cenv ρ vn ρ' → ρ' y = some (.constr (P.tag d) ws) →
    VRels P cenv vs ws → findBranch d vs.length bs = some e →
    RRel P cenv (sc (vs.reverse ++ ρ) e) (tc ρ' (.case y pats))
  prim : ∀ {p n args k vs ws ρ'}, VRels P cenv vs ws → getList ρ' args.reverse = some ws → Below args k →
    RRel P cenv (nest sc (spap Q p n vs)) (tc ρ' ((convPrim P p n args k).2.1.fill (.halt (convPrim P p n args k).1)))

/-! ## Recursive functions -/

theorem convF_names : ∀ (fs : Src.Fns) {names i vn k x B k'}, convF P fs names i vn k = some (x, B, k') →
    B.names = names ∧ names.length = fs.len
  | .nil, names, i, vn, k, x, B, k', h => by
    cases names <;> simp [convF] at h
    obtain ⟨rfl, rfl, rfl⟩ := h
    simp [ANF.Defs.names, Src.Fns.len]
  | .cons (.lam e) fs, f :: names, i, vn, k, x, B, k', h => by
    simp only [convF] at h
    split at h <;> try simp at h
    rename_i r C k₁ h₁
    split at h <;> simp at h
    rename_i fi B' k₂ h₂
    obtain ⟨rfl, rfl, rfl⟩ := h
    have := convF_names fs h₂
    simp [ANF.Defs.names, Src.Fns.len, this]
  | .cons e fs, [], i, vn, k, x, B, k', h => by simp [convF] at h
  | .cons (.var _) _, _ :: _, _, _, _, _, _, _, h => by simp [convF] at h
  | .cons (.app _ _) _, _ :: _, _, _, _, _, _, _, h => by simp [convF] at h
  | .cons (.con _ _) _, _ :: _, _, _, _, _, _, _, h => by simp [convF] at h
  | .cons (.mtch _ _) _, _ :: _, _, _, _, _, _, _, h => by simp [convF] at h
  | .cons (.letin _ _) _, _ :: _, _, _, _, _, _, _, h => by simp [convF] at h
  | .cons (.fix _ _) _, _ :: _, _, _, _, _, _, _, h => by simp [convF] at h
  | .cons (.prf) _, _ :: _, _, _, _, _, _, _, h => by simp [convF] at h
  | .cons (.pval _) _, _ :: _, _, _, _, _, _, _, h => by simp [convF] at h
  | .cons (.prim _) _, _ :: _, _, _, _, _, _, _, h => by simp [convF] at h

/-- The result variable is the `i`-th name. -/
theorem convF_result : ∀ (fs : Src.Fns) {names i vn k x B k'}, convF P fs names i vn k = some (x, B, k') →
    i < fs.len → names[i]? = some x
  | .nil, names, i, vn, k, x, B, k', h => by intro hi; simp [Src.Fns.len] at hi
  | .cons (.lam e) fs, f :: names, i, vn, k, x, B, k', h => by
    simp only [convF] at h
    split at h <;> try simp at h
    rename_i r C k₁ h₁
    split at h <;> simp at h
    rename_i fi B' k₂ h₂
    obtain ⟨rfl, rfl, rfl⟩ := h
    intro hi
    split
    · rename_i hi0; subst hi0; rfl
    · cases i with
      | zero => contradiction
      | succ i =>
        have := convF_result fs h₂ (by simp [Src.Fns.len] at hi; vomega)
        simpa using this
  | .cons e fs, [], i, vn, k, x, B, k', h => by simp [convF] at h
  | .cons (.var _) _, _ :: _, _, _, _, _, _, _, h => by simp [convF] at h
  | .cons (.app _ _) _, _ :: _, _, _, _, _, _, _, h => by simp [convF] at h
  | .cons (.con _ _) _, _ :: _, _, _, _, _, _, _, h => by simp [convF] at h
  | .cons (.mtch _ _) _, _ :: _, _, _, _, _, _, _, h => by simp [convF] at h
  | .cons (.letin _ _) _, _ :: _, _, _, _, _, _, _, h => by simp [convF] at h
  | .cons (.fix _ _) _, _ :: _, _, _, _, _, _, _, h => by simp [convF] at h
  | .cons (.prf) _, _ :: _, _, _, _, _, _, _, h => by simp [convF] at h
  | .cons (.pval _) _, _ :: _, _, _, _, _, _, _, h => by simp [convF] at h
  | .cons (.prim _) _, _ :: _, _, _, _, _, _, _, h => by simp [convF] at h

/-- The `n`-th definition converts the `n`-th function. -/
theorem convF_find : ∀ (fs : Src.Fns) {names i vn k x B k'}, convF P fs names i vn k = some (x, B, k') → names.Nodup →
    Below vn k → fs.wfp P.arity vn.length → okF P cenv fs → ∀ {n f e}, names[n]? = some f → fs.nth n = some (.lam e) →
    ∃ kn r C k₂, k ≤ kn ∧ conv P e (kn :: vn) (kn + 1) = some (r, C, k₂) ∧ e.wfp P.arity (vn.length + 1) ∧ okE P cenv e ∧
      ANF.findDef f B = some (P.funTag, [kn], C.fill (.halt r))
  | .nil, names, i, vn, k, x, B, k', h => by intro _ _ _ _ n f e hn he; simp [Src.Fns.nth] at he
  | .cons (.lam e) fs, f :: names, i, vn, k, x, B, k', h => by
    simp only [convF] at h
    split at h <;> try simp at h
    rename_i r C k₁ h₁
    split at h <;> simp at h
    rename_i fi B' k₂ h₂
    obtain ⟨rfl, rfl, rfl⟩ := h
    intro hnd hb hw hok n f' e' hn he
    simp only [Src.Fns.wfp, Src.Exp.wfp] at hw
    simp only [okF, okE] at hok
    have hkk := conv_bound e h₁ ((hb.mono (by vomega)).cons (by vomega)) (by simpa [Nat.add_comm] using hw.1)
    cases n with
    | zero =>
      simp only [Src.Fns.nth, Option.some.injEq, Src.Exp.lam.injEq] at he
      subst he
      simp at hn; subst hn
      exact ⟨k, r, C, k₁, Nat.le_refl _, h₁, by simpa [Nat.add_comm] using hw.1, hok.1, by simp [ANF.findDef]⟩
    | succ n =>
      simp only [Src.Fns.nth] at he
      obtain ⟨kn, r', C', k₃, a, b, c, d, hf⟩ := convF_find fs h₂ (List.nodup_cons.1 hnd).2 (hb.mono (by vomega)) hw.2.2
        hok.2 (n := n) (by simpa using hn) he
      refine ⟨kn, r', C', k₃, by vomega, b, c, d, ?_⟩
      have hm : f' ∈ names := List.mem_of_getElem? (by simpa using hn)
      have : f' ≠ f := by rintro rfl; exact (List.nodup_cons.1 hnd).1 hm
      simp only [ANF.findDef, if_neg this, hf]
  | .cons e fs, [], i, vn, k, x, B, k', h => by simp [convF] at h
  | .cons (.var _) _, _ :: _, _, _, _, _, _, _, h => by simp [convF] at h
  | .cons (.app _ _) _, _ :: _, _, _, _, _, _, _, h => by simp [convF] at h
  | .cons (.con _ _) _, _ :: _, _, _, _, _, _, _, h => by simp [convF] at h
  | .cons (.mtch _ _) _, _ :: _, _, _, _, _, _, _, h => by simp [convF] at h
  | .cons (.letin _ _) _, _ :: _, _, _, _, _, _, _, h => by simp [convF] at h
  | .cons (.fix _ _) _, _ :: _, _, _, _, _, _, _, h => by simp [convF] at h
  | .cons (.prf) _, _ :: _, _, _, _, _, _, _, h => by simp [convF] at h
  | .cons (.pval _) _, _ :: _, _, _, _, _, _, _, h => by simp [convF] at h
  | .cons (.prim _) _, _ :: _, _, _, _, _, _, _, h => by simp [convF] at h

theorem defFuns_mem {B0 : ANF.Defs} {ρ0 : Env} : ∀ {B : ANF.Defs} {ρ f}, f ∈ B.names →
    ANF.defFuns B0 B ρ0 ρ f = some (.fn ρ0 B0 f) := by
  intro B
  induction B using ANF.Defs.ind with
  | nil => intro ρ f h; simp [ANF.Defs.names] at h
  | cons g ft xs e B ih =>
    intro ρ f h
    simp only [ANF.defFuns, Env.set]
    split
    · rename_i h; rw [h]
    · simp only [ANF.Defs.names, List.mem_cons] at h
      exact ih (by tauto)

theorem defFuns_not_mem {B0 : ANF.Defs} {ρ0 : Env} : ∀ {B : ANF.Defs} {ρ f}, f ∉ B.names →
    ANF.defFuns B0 B ρ0 ρ f = ρ f := by
  intro B
  induction B using ANF.Defs.ind with
  | nil => intro ρ f _; rfl
  | cons g ft xs e B ih =>
    intro ρ f h
    simp only [ANF.Defs.names, List.mem_cons, not_or] at h
    simp only [ANF.defFuns, Env.set, if_neg h.1]
    exact ih h.2

theorem listToZero_eq : ∀ n, Src.listToZero n = (List.range n).reverse
  | 0 => rfl
  | n + 1 => by rw [Src.listToZero, listToZero_eq n, List.range_succ]; simp

theorem range'_eq_map (k n : Nat) : List.range' k n = (List.range n).map (k + ·) := by
  rw [List.range'_eq_map_range]

theorem ERel.recs {f : Nat → SVal} {g : Nat → Var} {ρ' : Env} : ∀ (l : List Nat), (∀ n ∈ l, ∃ w, ρ' (g n) = some w ∧
    VRel P cenv (f n) w) → ERel P cenv (l.map f) (l.map g) ρ'
  | [], _ => .nil
  | n :: l, h => by
    obtain ⟨w, h1, h2⟩ := h n (by simp)
    exact .cons h1 h2 (ERel.recs l (fun m hm => h m (by simp [hm])))

/-- The environment of the body of a recursive function. -/
theorem ERel.fixEnv {ρ vn k₀ fs i fi B k' ρ'} (hE : ERel P cenv ρ vn ρ') (hb : Below vn k₀)
    (hc : convF P fs (List.range' k₀ fs.len) i ((List.range' k₀ fs.len).reverse ++ vn) (k₀ + fs.len) = some (fi, B, k'))
    (hw : fs.wfp P.arity (fs.len + vn.length)) (hok : okF P cenv fs) :
    ERel P cenv (recEnv fs ρ) ((List.range' k₀ fs.len).reverse ++ vn) (ANF.defFuns B B ρ' ρ') := by
  have hn := (convF_names fs hc).1
  refine ERel.append ?_ ?_
  · rw [listToZero_eq, range'_eq_map, ← List.map_reverse]
    refine ERel.recs _ fun n hn' => ?_
    have hn' : n < fs.len := by simpa using hn'
    refine ⟨_, defFuns_mem (by rw [hn]; simp [List.mem_range']; vomega), ?_⟩
    exact .fixc hE hb hc hw hok hn'
  · refine hE.agree fun y hy => defFuns_not_mem ?_
    rw [hn]; intro hm
    have := hb y hy
    simp [List.mem_range'] at hm; vomega

/-! ## Branches -/

theorem convB_tags : ∀ (bs : Src.Brs) {y vn k pats k'}, convB P bs y vn k = some (pats, k') →
    pats.tags = (dcons bs).map P.tag
  | .nil, y, vn, k, pats, k', h => by
    simp only [convB, Option.some.injEq, Prod.mk.injEq] at h
    obtain ⟨rfl, rfl⟩ := h; rfl
  | .cons d n e bs, y, vn, k, pats, k', h => by
    simp only [convB] at h
    split at h <;> try simp at h
    rename_i ps k₁ h₁
    split at h <;> simp at h
    obtain ⟨rfl, rfl⟩ := h
    simp only [ANF.Brs.tags, dcons, List.map_cons, convB_tags bs h₁]

theorem findBranch_mem : ∀ (bs : Src.Brs) {d m e}, findBranch d m bs = some e → d ∈ dcons bs
  | .nil, d, m, e, h => by simp [findBranch] at h
  | .cons d' n e' bs, d, m, e, h => by
    simp only [findBranch] at h
    split at h
    · rename_i hd; simp [dcons, hd]
    · simp [dcons, findBranch_mem bs h]

theorem convB_find : ∀ (bs : Src.Brs) {y vn k pats k'}, convB P bs y vn k = some (pats, k') → Below vn k →
    bs.wfp P.arity vn.length → okB P cenv bs → ∀ {d m e}, findBranch d m bs = some e →
    (∀ d' ∈ dcons bs, P.tag d = P.tag d' → d = d') →
    ∃ kb r C k₃, k ≤ kb ∧ conv P e (List.range' kb m ++ vn) (kb + m) = some (r, C, k₃) ∧ e.wfp P.arity (m + vn.length) ∧
      okE P cenv e ∧ ANF.findTag (P.tag d) pats =
        some ((ctxBindProj (P.tag d) y (List.range' kb m) m).fill (C.fill (.halt r)))
  | .nil, y, vn, k, pats, k', h => by intro _ _ _ d m e he; simp [findBranch] at he
  | .cons d' n e' bs, y, vn, k, pats, k', h => by
    simp only [convB, freshList_spec] at h
    split at h <;> try simp at h
    rename_i ps k₁ h₁
    split at h <;> simp at h
    rename_i r C k₂ h₂
    obtain ⟨rfl, rfl⟩ := h
    intro hb hw hok d m e he hinj
    simp only [Src.Brs.wfp] at hw
    simp only [okB] at hok
    simp only [findBranch] at he
    have hk := convB_bound bs h₁ hb hw.2
    split at he
    · rename_i hd
      subst hd
      split at he <;> simp at he
      rename_i hm
      subst hm; subst he
      exact ⟨k₁, r, C, k₂, hk, h₂, hw.1, hok.1, by simp [ANF.findTag]⟩
    · rename_i hd
      obtain ⟨kb, r', C', k₃, a, b, c, d1, hf⟩ := convB_find bs h₁ hb hw.2 hok.2 he
        (fun d'' hd'' => hinj d'' (by simp [dcons, hd'']))
      refine ⟨kb, r', C', k₃, a, b, c, d1, ?_⟩
      have : P.tag d' ≠ P.tag d := fun h => hd (hinj d' (by simp [dcons]) h.symm)
      simp only [ANF.findTag, if_neg this, hf]

/-- Running the projections of a branch. -/
theorem eval_ctxBindProj {S : ANF.Sig} {tc} {t : Tag} {r : Var} {vs : List SVal} {ws : List Val} (hv : VRels P cenv vs ws) :
    ∀ (m kb : Nat) (ρ : Env), ρ r = some (.constr t ws) → r < kb → m ≤ vs.length →
    ∃ ρ'', (∀ e, evalE S tc ((ctxBindProj t r (List.range' kb m) m).fill e) ρ = evalE S tc e ρ'') ∧
      (∀ y, y < kb → ρ'' y = ρ y) ∧ ERel P cenv (vs.take m).reverse (List.range' kb m) ρ''
  | 0, kb, ρ, hr, hk, hm => ⟨ρ, fun e => rfl, fun _ _ => rfl, by simpa using ERel.nil⟩
  | m + 1, kb, ρ, hr, hk, hm => by
    have hlt : m < vs.length := by vomega
    have hvm : vs[m]? = some vs[m] := List.getElem?_eq_getElem hlt
    obtain ⟨w, hw, hvw⟩ := hv.get hvm
    have hrk : r ≠ kb := by vomega
    obtain ⟨ρ'', h1, h2, h3⟩ := eval_ctxBindProj (S := S) (tc := tc) (t := t) (r := r) hv m (kb + 1) (ρ.set kb w)
      (by simp [Env.set, hrk, hr]) (by vomega) (by vomega)
    refine ⟨ρ'', ?_, ?_, ?_⟩
    · intro e
      rw [List.range'_succ]
      simp only [ctxBindProj, Ctx.fill, evalE, hr, Nat.add_sub_cancel, hw, if_true]
      exact h1 e
    · intro y hy
      rw [h2 y (by vomega)]
      have : y ≠ kb := by vomega
      simp [Env.set, this]
    · rw [List.range'_succ, List.take_succ_eq_append_getElem hlt, List.reverse_append]
      refine .cons (w := w) ?_ hvw h3
      rw [h2 kb (by vomega)]; simp [Env.set]

/-! ## Primitive operations -/

mutual
/-- The LambdaANF tree for data: constructors by their tags, an erased proof by the default tag. -/
def toFO (tag : Src.Dcon → Tag) (dflt : Tag) : Data → FO
  | .con i n ds => .con (tag (i, n)) (toFOs tag dflt ds)
  | .prim p => .prim p
  | .box => .con dflt []
/-- The same for lists. -/
def toFOs (tag : Src.Dcon → Tag) (dflt : Tag) : List Data → List FO
  | [] => []
  | d :: ds => toFO tag dflt d :: toFOs tag dflt ds
end

/-- The target computes the primitive operations of the source. -/
structure OpsOk (P : Params) (S : ANF.Sig) (Q : Mode) : Prop where
  bx : Q.bx = false
  arity : ∀ p n, Q.arity p = some n → P.arity p = some n
  op : ∀ p ps d, Q.op p ps = some d → S.prims p ps = some (toFO P.tag P.defaultTag d)

theorem OpsOk.plain {P : Params} {S : ANF.Sig} : OpsOk P S (.plain false) :=
  ⟨rfl, fun _ _ h => (by cases h), fun _ _ _ h => (by cases h)⟩

mutual
theorem data_rel : ∀ d : Data, VRel P cenv d.toSVal (toFO P.tag P.defaultTag d).toVal
  | .con _ _ ds => .con (datas_rel ds)
  | .prim _ => .prim
  | .box => .prf
theorem datas_rel : ∀ ds : List Data, VRels P cenv (Data.toSVals ds) (FO.toVals (toFOs P.tag P.defaultTag ds))
  | [] => .nil
  | d :: ds => .cons (data_rel d) (datas_rel ds)
end

theorem VRels.prims : ∀ {vs : List SVal} {ws : List Val} {ps}, VRels P cenv vs ws → asPrims vs = some ps →
    ANF.asPrims ws = some ps
  | [], ws, ps, h, e => by cases h; exact e
  | v :: vs, ws, ps, h, e => by
    cases h with
    | cons h1 h2 =>
      cases h1 with
      | prim =>
        simp only [asPrims, Option.map_eq_some_iff] at e
        obtain ⟨qs, e1, rfl⟩ := e
        simp only [ANF.asPrims, h2.prims e1, Option.map_some]
      | _ => simp [asPrims] at e

theorem VRels.snoc {vs : List SVal} {ws : List Val} {v w} (h : VRels P cenv vs ws) (hv : VRel P cenv v w) :
    VRels P cenv (vs ++ [v]) (ws ++ [w]) := by
  induction vs generalizing ws with
  | nil => cases h; exact .cons hv .nil
  | cons u vs ih => cases h with | cons h1 h2 => exact .cons h1 (ih h2)

theorem getList_agree {ρ ρ' : Env} : ∀ {xs : List Var}, (∀ y ∈ xs, ρ' y = ρ y) → getList ρ' xs = getList ρ xs
  | [], _ => rfl
  | x :: xs, h => by
    simp only [getList, h x (by simp), getList_agree (fun y hy => h y (List.mem_cons_of_mem _ hy))]

theorem getList_snoc {ρ : Env} {y w} (hy : ρ y = some w) : ∀ {xs : List Var} {ws}, getList ρ xs = some ws →
    getList ρ (xs ++ [y]) = some (ws ++ [w])
  | [], ws, h => by simp only [getList, Option.some.injEq] at h; subst h; simp [getList, hy]
  | x :: xs, ws, h => by
    simp only [getList] at h
    cases h1 : ρ x with
    | none => simp [h1] at h
    | some a =>
      cases h2 : getList ρ xs with
      | none => simp [h1, h2] at h
      | some as =>
        simp only [h1, h2, Option.some.injEq] at h
        subst h
        simp only [List.cons_append, getList, h1, getList_snoc hy h2]

/-! ## The simulation -/

variable {S : ANF.Sig} {Q : Mode}

/-- What running a context does, given the source result. -/
def Outcome (P : Params) (S : ANF.Sig) (tc : Env → ANF.Exp → Res) (C : Ctx) (x : Var) (k : Nat) (ρ' : Env) : SRes → Prop
  | .val v => ∃ ρ'' w, (∀ e, evalE S tc (C.fill e) ρ' = evalE S tc e ρ'') ∧ (∀ y, y < k → ρ'' y = ρ' y) ∧
      ρ'' x = some w ∧ VRel P S.cenv v w
  | .oot => ∀ e, evalE S tc (C.fill e) ρ' = .oot
  | .stuck => True

/-- The same for argument lists. -/
def Outcomes (P : Params) (S : ANF.Sig) (tc : Env → ANF.Exp → Res) (C : Ctx) (ys : List Var) (k : Nat) (ρ' : Env) :
    SRess → Prop
  | .vals vs => ∃ ρ'' ws, (∀ e, evalE S tc (C.fill e) ρ' = evalE S tc e ρ'') ∧ (∀ y, y < k → ρ'' y = ρ' y) ∧
      getList ρ'' ys = some ws ∧ VRels P S.cenv vs ws
  | .oot => ∀ e, evalE S tc (C.fill e) ρ' = .oot
  | .stuck => True

/-- Running the code of a primitive operation. -/
theorem prim_sim {tc} (hQ : OpsOk P S Q) {p : Nat} {vs : List SVal} {ws : List Val} {args : List Var} {ρ' : Env}
    (hv : VRels P S.cenv vs ws) (hg : getList ρ' args.reverse = some ws) : ∀ (n : Nat) {k : Nat}, Below args k →
    Outcome P S tc (convPrim P p n args k).2.1 (convPrim P p n args k).1 k ρ' (spap Q p n vs)
  | 0, k, _ => by
    simp only [spap, sprim, convPrim]
    cases hps : asPrims vs with
    | none => trivial
    | some ps =>
      simp only
      cases ho : Q.op p ps with
      | none => trivial
      | some d =>
        have e : S.op p ws = some (toFO P.tag P.defaultTag d).toVal := by
          simp only [ANF.Sig.op, hv.prims hps, hQ.op p ps d ho, Option.map_some]
        refine ⟨ρ'.set k (toFO P.tag P.defaultTag d).toVal, _, fun e' => ?_, fun y hy => ?_, by simp [Env.set], data_rel d⟩
        · simp only [Ctx.fill, evalE, hg, e]
        · have : y ≠ k := by vomega
          simp [Env.set, this]
  | n + 1, k, hb => by
    refine ⟨ANF.defFuns _ _ ρ' ρ', _, fun e => by simp only [convPrim, Ctx.fill, evalE]; rfl, ?_, ?_, .pap hv hg hb⟩
    · intro y hy
      have : y ≠ k + 1 := by vomega
      simp [ANF.defFuns, Env.set, this]
    · simp [convPrim, ANF.defFuns, Env.set]

/-- Applying a represented function. -/
theorem apply_sim {sc tc} (hQ : OpsOk P S Q) (hc : CallOk P S.cenv Q sc tc) {f v wf wv} {ρ : Env} {x y : Var} (hf : VRel P S.cenv f wf)
    (hv : VRel P S.cenv v wv) (hx : ρ x = some wf) (hy : ρ y = some wv) :
    match sapply Q sc f v with
    | .val u => ∃ ρb eb w, callee ρ x P.funTag [y] = some (ρb, eb) ∧ tc ρb eb = .val w ∧ VRel P S.cenv u w
    | .oot => ∃ ρb eb, callee ρ x P.funTag [y] = some (ρb, eb) ∧ tc ρb eb = .oot
    | .stuck => True := by
  cases hf with
  | con _ => simp [sapply]
  | prf => simp [sapply, hQ.bx]
  | prim => simp [sapply]
  | @pap p n vs ws args k ρ' hvs hg hb =>
    simp only [sapply]
    have hcal : callee ρ x P.funTag [y] = some
        ((ANF.defFuns (.cons (k + 1) P.funTag [k] ((convPrim P p n (k :: args) (k + 2)).2.1.fill
            (.halt (convPrim P p n (k :: args) (k + 2)).1)) .nil)
          (.cons (k + 1) P.funTag [k] ((convPrim P p n (k :: args) (k + 2)).2.1.fill
            (.halt (convPrim P p n (k :: args) (k + 2)).1)) .nil)
          ρ' ρ').set k wv, (convPrim P p n (k :: args) (k + 2)).2.1.fill (.halt (convPrim P p n (k :: args) (k + 2)).1)) := by
      simp [callee, hx, hy, getList, ANF.findDef, ANF.setLists]
    rw [hcal]
    have hr := hc.prim (p := p) (n := n) (args := k :: args) (k := k + 2) (vs := vs ++ [v]) (ws := ws ++ [wv])
      (ρ' := (ANF.defFuns (.cons (k + 1) P.funTag [k] ((convPrim P p n (k :: args) (k + 2)).2.1.fill
            (.halt (convPrim P p n (k :: args) (k + 2)).1)) .nil)
          (.cons (k + 1) P.funTag [k] ((convPrim P p n (k :: args) (k + 2)).2.1.fill
            (.halt (convPrim P p n (k :: args) (k + 2)).1)) .nil)
          ρ' ρ').set k wv) (hvs.snoc hv) (by
        rw [List.reverse_cons]
        refine getList_snoc (by simp [Env.set]) ?_
        rw [← hg]
        refine getList_agree fun z hz => ?_
        have := hb z (by simpa using hz)
        have h1 : z ≠ k := by vomega
        have h2 : z ≠ k + 1 := by vomega
        simp [Env.set, ANF.defFuns, h1, h2]) ((hb.mono (by vomega)).cons (by vomega))
    revert hr
    cases nest sc (spap Q p n (vs ++ [v])) with
    | val u => rintro ⟨w, h1, h2⟩; exact ⟨_, _, w, rfl, h1, h2⟩
    | oot => intro h; exact ⟨_, _, rfl, h⟩
    | stuck => intro _; trivial
  | @clos ρs vn k e r C k' ρ' hE hb hcv hw hok =>
    simp only [sapply]
    have hcal : callee ρ x P.funTag [y] = some
        ((ANF.defFuns (.cons (k + 1) P.funTag [k] (C.fill (.halt r)) .nil) (.cons (k + 1) P.funTag [k] (C.fill (.halt r)) .nil)
          ρ' ρ').set k wv, C.fill (.halt r)) := by
      simp [callee, hx, hy, getList, ANF.findDef, ANF.setLists]
    rw [hcal]
    have hr := hc.body (ρ := v :: ρs) (ρ' := (ANF.defFuns (.cons (k + 1) P.funTag [k] (C.fill (.halt r)) .nil)
        (.cons (k + 1) P.funTag [k] (C.fill (.halt r)) .nil) ρ' ρ').set k wv) hcv ((hb.mono (by vomega)).cons (by vomega))
        (by simpa using hw) hok (by
          refine .cons (w := wv) (by simp [Env.set]) hv (hE.agree fun z hz => ?_)
          have := hb z hz
          have h1 : z ≠ k := by vomega
          have h2 : z ≠ k + 1 := by vomega
          simp [Env.set, ANF.defFuns, h1, h2])
    revert hr
    cases sc (v :: ρs) e with
    | val u => rintro ⟨w, h1, h2⟩; exact ⟨_, _, w, rfl, h1, h2⟩
    | oot => intro h; exact ⟨_, _, rfl, h⟩
    | stuck => intro _; trivial
  | @fixc ρs vn k₀ fs i fi B k' ρ' n hE hb hcv hw hok hn =>
    simp only [sapply]
    rcases hnth : fs.nth n with _ | b
    · simp
    cases b with
    | lam e =>
      simp only
      have hnm := (convF_names fs hcv).1
      have hname : (List.range' k₀ fs.len)[n]? = some (k₀ + n) := by
        rw [List.getElem?_range' hn]; simp
      obtain ⟨kn, r, C, k₂, h1, h2, h3, h4, h5⟩ := convF_find fs hcv List.nodup_range' (below_fix hb _)
        (by simpa using hw) hok hname hnth
      have hcal : callee ρ x P.funTag [y] = some ((ANF.defFuns B B ρ' ρ').set kn wv, C.fill (.halt r)) := by
        simp [callee, hx, hy, getList, h5, ANF.setLists]
      rw [hcal]
      have hbf := below_fix hb fs.len
      have hr := hc.body (ρ := v :: recEnv fs ρs) (ρ' := (ANF.defFuns B B ρ' ρ').set kn wv) h2
        ((hbf.mono (by vomega)).cons (by vomega)) (by simpa using h3) h4 (by
          refine .cons (w := wv) (by simp [Env.set]) hv ((ERel.fixEnv hE hb hcv hw hok).agree fun z hz => ?_)
          have := hbf z hz
          have h1 : z ≠ kn := by vomega
          simp [Env.set, h1])
      revert hr
      cases sc (v :: recEnv fs ρs) e with
      | val u => rintro ⟨w, h1, h2⟩; exact ⟨_, _, w, rfl, h1, h2⟩
      | oot => intro h; exact ⟨_, _, rfl, h⟩
      | stuck => intro _; trivial
    | _ => simp

mutual
theorem conv_sim {sc tc} (hQ : OpsOk P S Q) (hc : CallOk P S.cenv Q sc tc) : ∀ (e : Src.Exp) {vn k x C k' ρ ρ'},
    conv P e vn k = some (x, C, k') → Below vn k → e.wfp P.arity vn.length → okE P S.cenv e → ERel P S.cenv ρ vn ρ' →
    Outcome P S tc C x k ρ' (seval Q sc e ρ)
  | .var i, vn, k, x, C, k', ρ, ρ', h, hb, hw, hok, hE => by
    simp only [conv] at h
    split at h <;> simp at h
    obtain ⟨rfl, rfl, rfl⟩ := h
    rename_i y hy
    simp only [seval]
    rcases hv : ρ[i]? with _ | v
    · trivial
    · obtain ⟨w, h1, h2⟩ := hE.get hv hy
      exact ⟨ρ', w, fun e => rfl, fun _ _ => rfl, h1, h2⟩
  | .lam e, vn, k, x, C, k', ρ, ρ', h, hb, hw, hok, hE => by
    simp only [Src.Exp.wfp] at hw
    simp only [okE] at hok
    simp only [conv] at h
    split at h <;> simp at h
    rename_i r C₁ k₁ h₁
    obtain ⟨rfl, rfl, rfl⟩ := h
    simp only [seval]
    refine ⟨ANF.defFuns _ _ ρ' ρ', _, fun e => by simp only [Ctx.fill, evalE]; rfl, ?_, ?_, .clos hE hb h₁ (by simpa [Nat.add_comm] using hw) hok⟩
    · intro y hy
      have : y ≠ k + 1 := by vomega
      simp [ANF.defFuns, Env.set, this]
    · simp [ANF.defFuns, Env.set]
  | .app e₁ e₂, vn, k, x, C, k', ρ, ρ', h, hb, hw, hok, hE => by
    simp only [Src.Exp.wfp] at hw
    simp only [okE] at hok
    simp only [conv] at h
    split at h <;> try simp at h
    rename_i x₁ C₁ k₁ h₁
    split at h <;> simp at h
    rename_i x₂ C₂ k₂ h₂
    obtain ⟨rfl, rfl, rfl⟩ := h
    have b₁ := conv_bound e₁ h₁ hb hw.1
    have b₂ := conv_bound e₂ h₂ (hb.mono b₁.1) hw.2
    have o₁ := conv_sim hQ hc e₁ h₁ hb hw.1 hok.1 hE
    simp only [seval]
    revert o₁
    cases seval Q sc e₁ ρ with
    | stuck => intro _; trivial
    | oot => intro o e; rw [Ctx.fill_comp]; exact o _
    | val f =>
      rintro ⟨ρ₁, w₁, f₁, a₁, g₁, v₁⟩
      have o₂ := conv_sim hQ hc e₂ h₂ (hb.mono b₁.1) hw.2 hok.2 (hE.agree (fun y hy => a₁ y (hb y hy)))
      simp only
      revert o₂
      cases seval Q sc e₂ ρ with
      | stuck => intro _; trivial
      | oot => intro o e; rw [Ctx.fill_comp, f₁, Ctx.fill_comp]; exact o _
      | val v =>
        rintro ⟨ρ₂, w₂, f₂, a₂, g₂, v₂⟩
        have hx₁ : ρ₂ x₁ = some w₁ := by rw [a₂ x₁ b₁.2]; exact g₁
        have hap := apply_sim hQ hc v₁ v₂ hx₁ g₂
        simp only
        revert hap
        cases sapply Q sc f v with
        | stuck => intro _; trivial
        | oot =>
          rintro ⟨ρb, eb, h1, h2⟩ e
          rw [Ctx.fill_comp, f₁, Ctx.fill_comp, f₂]
          simp only [Ctx.fill, evalE, h1, h2]
        | val u =>
          rintro ⟨ρb, eb, w, h1, h2, h3⟩
          refine ⟨ρ₂.set k₂ w, w, ?_, ?_, by simp [Env.set], h3⟩
          · intro e
            rw [Ctx.fill_comp, f₁, Ctx.fill_comp, f₂]
            simp only [Ctx.fill, evalE, h1, h2]
          · intro y hy
            have : y ≠ k₂ := by vomega
            simp only [Env.set, if_neg this]
            rw [a₂ y (by vomega), a₁ y hy]
  | .letin e₁ e₂, vn, k, x, C, k', ρ, ρ', h, hb, hw, hok, hE => by
    simp only [Src.Exp.wfp] at hw
    simp only [okE] at hok
    simp only [conv] at h
    split at h <;> try simp at h
    rename_i x₁ C₁ k₁ h₁
    split at h <;> simp at h
    rename_i x₂ C₂ k₂ h₂
    obtain ⟨rfl, rfl, rfl⟩ := h
    have b₁ := conv_bound e₁ h₁ hb hw.1
    have o₁ := conv_sim hQ hc e₁ h₁ hb hw.1 hok.1 hE
    simp only [seval]
    revert o₁
    cases seval Q sc e₁ ρ with
    | stuck => intro _; trivial
    | oot => intro o e; rw [Ctx.fill_comp]; exact o _
    | val v =>
      rintro ⟨ρ₁, w₁, f₁, a₁, g₁, v₁⟩
      have o₂ := conv_sim hQ hc e₂ h₂ ((hb.mono b₁.1).cons b₁.2) (by simpa [Nat.add_comm] using hw.2) hok.2
        (.cons g₁ v₁ (hE.agree (fun y hy => a₁ y (hb y hy))))
      simp only
      revert o₂
      cases seval Q sc e₂ (v :: ρ) with
      | stuck => intro _; trivial
      | oot => intro o e; rw [Ctx.fill_comp, f₁]; exact o _
      | val u =>
        rintro ⟨ρ₂, w₂, f₂, a₂, g₂, v₂⟩
        refine ⟨ρ₂, w₂, fun e => by rw [Ctx.fill_comp, f₁, f₂], fun y hy => ?_, g₂, v₂⟩
        rw [a₂ y (by vomega), a₁ y hy]
  | .con d es, vn, k, x, C, k', ρ, ρ', h, hb, hw, hok, hE => by
    simp only [Src.Exp.wfp] at hw
    simp only [okE] at hok
    simp only [conv] at h
    split at h <;> simp at h
    rename_i ys C₁ k₁ h₁
    obtain ⟨rfl, rfl, rfl⟩ := h
    have o := convs_sim hQ hc es h₁ (hb.mono (by vomega)) hw hok hE
    simp only [seval]
    revert o
    cases sevals Q sc es ρ with
    | stuck => intro _; trivial
    | oot => intro o e; rw [Ctx.fill_comp]; exact o _
    | vals vs =>
      rintro ⟨ρ₁, ws, f₁, a₁, g₁, v₁⟩
      refine ⟨ρ₁.set k (.constr (P.tag d) ws), _, ?_, ?_, by simp [Env.set], .con v₁⟩
      · intro e; rw [Ctx.fill_comp, f₁]; simp only [Ctx.fill, evalE, g₁]
      · intro y hy
        have : y ≠ k := by vomega
        simp only [Env.set, if_neg this]
        exact a₁ y (by vomega)
  | .fix fs i, vn, k, x, C, k', ρ, ρ', h, hb, hw, hok, hE => by
    simp only [Src.Exp.wfp] at hw
    simp only [okE] at hok
    simp only [conv, addFixNames_spec] at h
    split at h <;> simp at h
    rename_i y B k₁ h₁
    obtain ⟨rfl, rfl, rfl⟩ := h
    simp only [seval]
    have hn := (convF_names fs h₁).1
    have hr := convF_result fs h₁ hw.1
    rw [List.getElem?_range' hw.1] at hr
    simp at hr; subst hr
    refine ⟨ANF.defFuns B B ρ' ρ', _, fun e => by simp only [Ctx.fill, evalE], ?_, defFuns_mem ?_,
      .fixc hE hb h₁ hw.2 hok hw.1⟩
    · intro y hy
      refine defFuns_not_mem ?_
      rw [hn]; intro hm; simp [List.mem_range'] at hm; vomega
    · rw [hn]; simp [List.mem_range']; exact hw.1
  | .mtch e bs, vn, k, x, C, k', ρ, ρ', h, hb, hw, hok, hE => by
    simp only [Src.Exp.wfp] at hw
    simp only [okE] at hok
    simp only [conv] at h
    split at h <;> try simp at h
    rename_i x₁ C₁ k₁ h₁
    split at h <;> simp at h
    rename_i pats k₂ h₂
    obtain ⟨rfl, rfl, rfl⟩ := h
    have b₁ := conv_bound e h₁ (hb.mono (by vomega)) hw.1
    have b₂ := convB_bound bs h₂ (hb.mono (by vomega)) hw.2
    let D : ANF.Defs := .cons k P.funTag [k + 1] (.case (k + 1) pats) .nil
    have ha : ∀ y, y < k → ANF.defFuns D D ρ' ρ' y = ρ' y := by
      intro y hy
      have : y ≠ k := by vomega
      simp [D, ANF.defFuns, Env.set, this]
    have o := conv_sim hQ hc e (ρ' := ANF.defFuns D D ρ' ρ') h₁ (hb.mono (by vomega)) hw.1 hok.1
      (hE.agree (fun y hy => ha y (hb y hy)))
    simp only [seval]
    revert o
    cases seval Q sc e ρ with
    | stuck => intro _; trivial
    | oot => intro o e; simp only [Ctx.fill, evalE]; rw [Ctx.fill_comp]; exact o _
    | val v =>
      rintro ⟨ρ₁, w₁, f₁, a₁, g₁, v₁⟩
      simp only
      cases v with
      | con d vs =>
        cases v₁ with
        | @con _ _ ws v₁ =>
        simp only [sbranch]
        rcases hfb : findBranch d vs.length bs with _ | e'
        · trivial
        · simp only
          have hk : ρ₁ k = some (.fn ρ' D k) := by
            rw [a₁ k (by vomega)]; simp [D, ANF.defFuns, Env.set]
          have hcal : callee ρ₁ k P.funTag [x₁] = some ((ANF.defFuns D D ρ' ρ').set (k + 1) (.constr (P.tag d) ws),
              .case (k + 1) pats) := by
            simp [callee, hk, g₁, getList, D, ANF.findDef, ANF.setLists]
          have hr := hc.case (ρ := ρ) (ρ' := (ANF.defFuns D D ρ' ρ').set (k + 1) (.constr (P.tag d) ws)) h₂
            (hb.mono (by vomega)) (by vomega) hw.2 hok.2.1 hok.2.2
            (hE.agree (fun y hy => by
              have := hb y hy
              have h1 : y ≠ k + 1 := by vomega
              simp only [Env.set, if_neg h1]; exact ha y this))
            (by simp [Env.set]) v₁ hfb
          revert hr
          cases sc (vs.reverse ++ ρ) e' with
          | stuck => intro _; trivial
          | oot =>
            intro hr e; simp only [Ctx.fill, evalE]
            rw [Ctx.fill_comp, f₁]; simp only [Ctx.fill, evalE, hcal]; rw [hr]
          | val u =>
            rintro ⟨w, h1, h2⟩
            refine ⟨ρ₁.set k₂ w, w, ?_, ?_, by simp [Env.set], h2⟩
            · intro e; simp only [Ctx.fill, evalE]
              rw [Ctx.fill_comp, f₁]; simp only [Ctx.fill, evalE, hcal, h1]
            · intro y hy
              have : y ≠ k₂ := by vomega
              simp only [Env.set, if_neg this]
              rw [a₁ y (by vomega), ha y hy]
      | _ => trivial
  | .prf, vn, k, x, C, k', ρ, ρ', h, hb, hw, hok, hE => by
    simp only [conv, Option.some.injEq, Prod.mk.injEq] at h
    obtain ⟨rfl, rfl, rfl⟩ := h
    simp only [seval]
    refine ⟨ρ'.set k (.constr P.defaultTag []), _, fun e => by simp only [Ctx.fill, evalE, getList], ?_,
      by simp [Env.set], .prf⟩
    intro y hy
    have : y ≠ k := by vomega
    simp [Env.set, this]
  | .pval p, vn, k, x, C, k', ρ, ρ', h, hb, hw, hok, hE => by
    simp only [conv, Option.some.injEq, Prod.mk.injEq] at h
    obtain ⟨rfl, rfl, rfl⟩ := h
    simp only [seval]
    refine ⟨ρ'.set k (.prim p), _, fun e => by simp only [Ctx.fill, evalE], ?_, by simp [Env.set], .prim⟩
    intro y hy
    have : y ≠ k := by vomega
    simp [Env.set, this]
  | .prim p, vn, k, x, C, k', ρ, ρ', h, hb, hw, hok, hE => by
    simp only [conv] at h
    split at h <;> simp at h
    rename_i n hn
    simp only [seval]
    cases hq : Q.arity p with
    | none => trivial
    | some m =>
      have := hQ.arity p m hq
      rw [hn] at this; cases this
      have := prim_sim (tc := tc) hQ (p := p) (args := []) (ρ' := ρ') .nil rfl n (k := k) (by simp [Below])
      rw [h] at this; exact this
theorem convs_sim {sc tc} (hQ : OpsOk P S Q) (hc : CallOk P S.cenv Q sc tc) : ∀ (es : Src.Exps) {vn k ys C k' ρ ρ'},
    convs P es vn k = some (ys, C, k') → Below vn k → es.wfp P.arity vn.length → okEs P S.cenv es → ERel P S.cenv ρ vn ρ' →
    Outcomes P S tc C ys k ρ' (sevals Q sc es ρ)
  | .nil, vn, k, ys, C, k', ρ, ρ', h, hb, hw, hok, hE => by
    simp only [convs, Option.some.injEq, Prod.mk.injEq] at h
    obtain ⟨rfl, rfl, rfl⟩ := h
    simp only [sevals]
    exact ⟨ρ', [], fun e => rfl, fun _ _ => rfl, rfl, .nil⟩
  | .cons e es, vn, k, ys, C, k', ρ, ρ', h, hb, hw, hok, hE => by
    simp only [Src.Exps.wfp] at hw
    simp only [okEs] at hok
    simp only [convs] at h
    split at h <;> try simp at h
    rename_i x₁ C₁ k₁ h₁
    split at h <;> simp at h
    rename_i x₂ C₂ k₂ h₂
    obtain ⟨rfl, rfl, rfl⟩ := h
    have b₁ := conv_bound e h₁ hb hw.1
    have o₁ := conv_sim hQ hc e h₁ hb hw.1 hok.1 hE
    simp only [sevals]
    revert o₁
    cases seval Q sc e ρ with
    | stuck => intro _; trivial
    | oot => intro o e; rw [Ctx.fill_comp]; exact o _
    | val v =>
      rintro ⟨ρ₁, w₁, f₁, a₁, g₁, v₁⟩
      have o₂ := convs_sim hQ hc es h₂ (hb.mono b₁.1) hw.2 hok.2 (hE.agree (fun y hy => a₁ y (hb y hy)))
      simp only
      revert o₂
      cases sevals Q sc es ρ with
      | stuck => intro _; trivial
      | oot => intro o e; rw [Ctx.fill_comp, f₁]; exact o _
      | vals vs =>
        rintro ⟨ρ₂, ws, f₂, a₂, g₂, v₂⟩
        refine ⟨ρ₂, w₁ :: ws, fun e => by rw [Ctx.fill_comp, f₁, f₂], fun y hy => ?_, ?_, .cons v₁ v₂⟩
        · rw [a₂ y (by vomega), a₁ y hy]
        · simp only [getList, a₂ x₁ b₁.2, g₁, g₂]
end

/-! ## All levels -/

theorem body_of_sim {sc tc} (hQ : OpsOk P S Q) (hc : CallOk P S.cenv Q sc tc) {e vn k x C k' ρ ρ'} (h : conv P e vn k = some (x, C, k'))
    (hb : Below vn k) (hw : e.wfp P.arity vn.length) (hok : okE P S.cenv e) (hE : ERel P S.cenv ρ vn ρ') :
    RRel P S.cenv (seval Q sc e ρ) (evalE S tc (C.fill (.halt x)) ρ') := by
  have o := conv_sim hQ hc e h hb hw hok hE
  revert o
  cases seval Q sc e ρ with
  | stuck => intro _; trivial
  | oot => intro o; exact o _
  | val v =>
    rintro ⟨ρ₁, w₁, f₁, a₁, g₁, v₁⟩
    exact ⟨w₁, by rw [f₁]; simp only [evalE, g₁], v₁⟩

theorem callOk_zero : CallOk P S.cenv Q (scall Q 0) (ANF.callAt S 0) :=
  ⟨fun _ _ _ _ _ => rfl, fun _ _ _ _ _ _ _ _ _ _ => rfl, fun _ _ _ => rfl⟩

theorem callOk_succ {n'} (hQ : OpsOk P S Q) (hc : CallOk P S.cenv Q (scall Q n') (ANF.callAt S n')) :
    CallOk P S.cenv Q (scall Q (n' + 1)) (ANF.callAt S (n' + 1)) := by
  constructor
  · intro e vn k x C k' ρ ρ' h hb hw hok hE
    show RRel P S.cenv (srun Q n' ρ e) (ANF.run S n' ρ' _)
    rw [Src.srun_scall, ANF.run_callAt]
    exact body_of_sim hQ hc h hb hw hok hE
  · intro bs y vn k pats k' ρ ρ' d vs ws e h hb hy hw hbok hok hE hρ hv hf
    show RRel P S.cenv (srun Q n' _ e) (ANF.run S n' ρ' _)
    rw [Src.srun_scall, ANF.run_callAt]
    have hd := findBranch_mem bs hf
    obtain ⟨kb, r, C, k₃, h1, h2, h3, h4, h5⟩ := convB_find bs h hb hw hok hf (fun d' hd' => hbok.1 d hd d' hd')
    simp only [evalE, hρ]
    rw [convB_tags bs h, hbok.2 d hd, if_pos rfl, ANF.evalB_findTag, h5]
    simp only
    obtain ⟨ρ'', g1, g2, g3⟩ := eval_ctxBindProj (S := S) (tc := ANF.callAt S n') hv vs.length kb ρ' hρ (by vomega)
      (Nat.le_refl _)
    rw [g1]
    rw [List.take_length] at g3
    refine body_of_sim hQ hc h2 ((below_range _ _).append (hb.mono (by vomega))) (by simpa using h3) h4
      (g3.append (hE.agree fun z hz => g2 z ?_))
    have := hb z hz; vomega
  · intro p n args k vs ws ρ' hv hg hb
    have e : scall Q (n' + 1) [] .prf = .val .prf := by show srun Q n' [] .prf = _; rw [Src.srun_scall]; rfl
    simp only [nest, e]
    show RRel P S.cenv (spap Q p n vs) (ANF.run S n' ρ' _)
    rw [ANF.run_callAt]
    have o := prim_sim (tc := ANF.callAt S n') hQ (p := p) hv hg n hb
    revert o
    cases spap Q p n vs with
    | stuck => intro _; trivial
    | oot => intro o; exact o _
    | val v =>
      rintro ⟨ρ₁, w₁, f₁, a₁, g₁, v₁⟩
      exact ⟨w₁, by rw [f₁]; simp only [evalE, g₁], v₁⟩

theorem callOk (hQ : OpsOk P S Q) : ∀ n, CallOk P S.cenv Q (scall Q n) (ANF.callAt S n)
  | 0 => callOk_zero
  | n + 1 => callOk_succ hQ (callOk hQ n)

/-- The converted program runs in lockstep with the source program. -/
theorem run_sim (hQ : OpsOk P S Q) {e k e' k'} (h : convExp P e k = some (e', k')) (hw : e.wfp P.arity 0) (hok : okE P S.cenv e) (n : Nat) :
    RRel P S.cenv (srun Q n [] e) (ANF.run S n ANF.emp e') := by
  simp only [convExp] at h
  split at h <;> simp at h
  rename_i x C k₁ h₁
  obtain ⟨rfl, rfl⟩ := h
  rw [Src.srun_scall, ANF.run_callAt]
  exact body_of_sim hQ (callOk hQ n) h₁ (by simp [Below]) hw hok .nil

end Conv
