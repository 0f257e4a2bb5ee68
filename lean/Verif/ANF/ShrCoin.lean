import Verif.ANF.ShrModel
import Verif.ANF.InlSim

/-!
# Shrink reduction: renaming of uses

A term and its renaming behave alike in environments that agree up to the renaming.
-/

namespace ANF
namespace Shr
open Ll (put)
open Inl (Ctx inlineLet sets)

/-- A renaming that neither renames the given binders nor captures. -/
def Cap (δ : Var → Var) (bs : List Var) : Prop := ∀ y, δ y ≠ y → y ∉ bs ∧ δ y ∉ bs

/-- Values up to renaming of the free variables of function bodies. -/
inductive RV : Val → Val → Prop
  | same {v : Val} : RV v v
  | constr {t : Tag} {vs vs' : List Val} (len : vs.length = vs'.length)
      (args : ∀ (i : Nat) v v', vs[i]? = some v → vs'[i]? = some v' → RV v v') : RV (.constr t vs) (.constr t vs')
  | fn {ρ ρ' B f δ} (cap : Cap δ B.bv) (dom : ∀ y v, y ∈ B.fv → ρ y = some v → ∃ v', ρ' (δ y) = some v')
      (rel : ∀ y v v', y ∈ B.fv → ρ y = some v → ρ' (δ y) = some v' → RV v v') : RV (.fn ρ B f) (.fn ρ' (renD δ B) f)

theorem all2_same (vs : List Val) : All2 RV vs vs :=
  ⟨rfl, fun i v v' h h' => by rw [h] at h'; cases h'; exact .same⟩

theorem RV.data : DataRel RV where
  con h := .constr h.1 h.2
  conInv h := by
    cases h with
    | same => exact ⟨_, rfl, all2_same _⟩
    | constr len args => exact ⟨_, rfl, len, args⟩
  prm := .same
  prmInv h := by cases h; rfl
  fnInv h := by
    cases h with
    | same => exact ⟨_, _, _, rfl⟩
    | fn => exact ⟨_, _, _, rfl⟩

theorem cap_id (bs : List Var) : Cap id bs := fun _ h => absurd rfl h

theorem Cap.sub {δ bs bs'} (h : Cap δ bs) (hs : ∀ y ∈ bs', y ∈ bs) : Cap δ bs' :=
  fun y hy => ⟨fun hm => (h y hy).1 (hs y hm), fun hm => (h y hy).2 (hs _ hm)⟩

theorem Cap.fix {δ bs x} (h : Cap δ bs) (hx : x ∈ bs) : δ x = x := by
  by_contra hne; exact (h x hne).1 hx

theorem Cap.ne {δ bs x y} (h : Cap δ bs) (hx : x ∈ bs) (hy : y ≠ x) : δ y ≠ x := by
  intro he
  by_cases hd : δ y = y
  · exact hy (hd.symm.trans he)
  · exact (h y hd).2 (he ▸ hx)

mutual
theorem ren_id : ∀ e : Exp, ren id e = e
  | .constr _ _ ys e => by simp [ren, ren_id e]
  | .primVal _ _ e => by simp [ren, ren_id e]
  | .prim _ _ ys e => by simp [ren, ren_id e]
  | .proj _ _ _ _ e => by simp [ren, ren_id e]
  | .letapp _ _ _ _ e => by simp [ren, ren_id e]
  | .case _ bs => by simp [ren, renB_id bs]
  | .fn B e => by simp [ren, ren_id e, renD_id B]
  | .app _ _ _ => by simp [ren]
  | .halt _ => by simp [ren]
theorem renB_id : ∀ bs : Brs, renB id bs = bs
  | .nil => rfl
  | .cons _ e bs => by simp [renB, ren_id e, renB_id bs]
theorem renD_id : ∀ B : Defs, renD id B = B
  | .nil => rfl
  | .cons _ _ _ e B => by simp [renD, ren_id e, renD_id B]
end

/-- The closure case in one form. -/
theorem RV.fnE {ρ B f w} (h : RV (.fn ρ B f) w) : ∃ ρ' δ, w = .fn ρ' (renD δ B) f ∧ Cap δ B.bv ∧
    ∀ y ∈ B.fv, Look RV ρ ρ' y (δ y) := by
  cases h with
  | same => exact ⟨ρ, id, by rw [renD_id], cap_id _, fun y _ v hv => ⟨v, hv, .same⟩⟩
  | @fn _ ρ' _ _ δ cap dom rel =>
    refine ⟨ρ', δ, rfl, cap, fun y hy v hv => ?_⟩
    obtain ⟨v', hv'⟩ := dom y v hy hv
    exact ⟨v', hv', rel y v v' hy hv hv'⟩

theorem renB_tags (δ : Var → Var) : ∀ bs : Brs, (renB δ bs).tags = bs.tags
  | .nil => rfl
  | .cons _ _ bs => by simp [renB, Brs.tags, renB_tags δ bs]

theorem renB_find (δ : Var → Var) (t : Tag) : ∀ bs : Brs, findTag t (renB δ bs) = (findTag t bs).map (ren δ)
  | .nil => rfl
  | .cons t' e bs => by
    simp only [renB, findTag]
    split
    · rfl
    · exact renB_find δ t bs

theorem renD_names (δ : Var → Var) : ∀ B : Defs, (renD δ B).names = B.names
  | .nil => rfl
  | .cons _ _ _ _ B => by simp [renD, Defs.names, renD_names δ B]

theorem renD_find (δ : Var → Var) (f : Var) : ∀ B : Defs,
    findDef f (renD δ B) = (findDef f B).map fun r => (r.1, r.2.1, ren δ r.2.2)
  | .nil => rfl
  | .cons _ _ _ _ B => by
    simp only [renD, findDef]
    split
    · rfl
    · exact renD_find δ f B

mutual
theorem ren_bv (δ : Var → Var) : ∀ e : Exp, (ren δ e).bv = e.bv
  | .constr _ _ ys e => by simp [ren, Exp.bv, ren_bv δ e]
  | .primVal _ _ e => by simp [ren, Exp.bv, ren_bv δ e]
  | .prim _ _ ys e => by simp [ren, Exp.bv, ren_bv δ e]
  | .proj _ _ _ _ e => by simp [ren, Exp.bv, ren_bv δ e]
  | .letapp _ _ _ _ e => by simp [ren, Exp.bv, ren_bv δ e]
  | .case _ bs => by simp [ren, Exp.bv, renB_bv δ bs]
  | .fn B e => by simp [ren, Exp.bv, ren_bv δ e, renD_bv δ B]
  | .app _ _ _ => by simp [ren, Exp.bv]
  | .halt _ => by simp [ren, Exp.bv]
theorem renB_bv (δ : Var → Var) : ∀ bs : Brs, (renB δ bs).bv = bs.bv
  | .nil => rfl
  | .cons _ e bs => by simp [renB, Brs.bv, ren_bv δ e, renB_bv δ bs]
theorem renD_bv (δ : Var → Var) : ∀ B : Defs, (renD δ B).bv = B.bv
  | .nil => rfl
  | .cons _ _ _ e B => by simp [renD, Defs.bv, ren_bv δ e, renD_bv δ B]
end

/-- Environments agree up to the renaming on a set of variables. -/
def Ag (δ : Var → Var) (X : Finset Var) (ρ ρ' : Env) : Prop := ∀ y ∈ X, Look RV ρ ρ' y (δ y)

theorem Ag.mono {δ X Y ρ ρ'} (h : Ag δ X ρ ρ') (hs : ∀ y ∈ Y, y ∈ X) : Ag δ Y ρ ρ' := fun y hy => h y (hs y hy)

theorem Ag.set {δ X Y ρ ρ' x v v' bs} (h : Ag δ X ρ ρ') (hc : Cap δ bs) (hx : x ∈ bs) (hr : RV v v')
    (hs : ∀ y ∈ Y, y ≠ x → y ∈ X) : Ag δ Y (ρ.set x v) (ρ'.set x v') := by
  intro y hy w hw
  by_cases hyx : y = x
  · subst hyx; rw [set_self] at hw; cases hw; exact ⟨v', by rw [hc.fix hx]; exact set_self, hr⟩
  · rw [set_other hyx] at hw
    rw [set_other (hc.ne hx hyx)]
    exact h y (hs y hy hyx) w hw

theorem Ag.setLists {δ X Y ρ ρ' bs} (h : Ag δ X ρ ρ') (hc : Cap δ bs) {xs vs vs' ρ₁} (hx : ∀ x ∈ xs, x ∈ bs)
    (hv : All2 RV vs vs') (hs : setLists xs vs ρ = some ρ₁) (hY : ∀ y ∈ Y, y ∉ xs → y ∈ X) :
    ∃ ρ₁', ANF.setLists xs vs' ρ' = some ρ₁' ∧ Ag δ Y ρ₁ ρ₁' := by
  induction xs generalizing vs vs' ρ₁ Y with
  | nil =>
    cases vs <;> simp [ANF.setLists] at hs
    cases vs' with
    | nil => subst hs; exact ⟨ρ', rfl, h.mono fun y hy => hY y hy (by simp)⟩
    | cons => exact absurd hv.1 (by simp)
  | cons x xs ih =>
    cases vs with
    | nil => simp [ANF.setLists] at hs
    | cons v vs =>
      simp only [ANF.setLists] at hs
      rcases hs' : ANF.setLists xs vs ρ with _ | ρ2 <;> simp only [hs'] at hs
      · cases hs
      · cases hs
        obtain ⟨v', vs2, rfl, hr, hrs⟩ := hv.uncons
        obtain ⟨ρ2', e2, h2⟩ := ih (Y := Y.erase x) (fun y hy => hx y (by simp [hy])) hrs hs' (by
          intro y hy hyx
          rw [Finset.mem_erase] at hy
          exact hY y hy.2 (by simp [hy.1, hyx]))
        refine ⟨ρ2'.set x v', by simp only [ANF.setLists, e2], h2.set hc (hx x (by simp)) hr ?_⟩
        intro y hy hyx; exact Finset.mem_erase.mpr ⟨hyx, hy⟩

theorem Ag.defs {δ X Y ρ ρ' B} (h : Ag δ X ρ ρ') (hc : Cap δ B.bv) (hX : ∀ y ∈ B.fv, y ∈ X)
    (hY : ∀ y ∈ Y, y ∉ B.names → y ∈ X) : Ag δ Y (defFuns B B ρ ρ) (defFuns (renD δ B) (renD δ B) ρ' ρ') := by
  intro y hy v hv
  by_cases hyn : y ∈ B.names
  · rw [defFuns_mem hyn] at hv; cases hv
    have hb := (names_bv B).subset hyn
    rw [hc.fix hb]
    refine ⟨_, defFuns_mem (by rw [renD_names]; exact hyn), .fn hc ?_ ?_⟩
    · intro z v hz hv
      obtain ⟨v', h1, _⟩ := h z (hX z hz) v hv
      exact ⟨v', h1⟩
    · intro z v v' hz hv hv'
      obtain ⟨v'', h1, h2⟩ := h z (hX z hz) v hv
      rw [hv'] at h1; cases h1; exact h2
  · rw [defFuns_not_mem hyn] at hv
    rw [defFuns_not_mem]
    · exact h y (hY y hy hyn) v hv
    · rw [renD_names]
      intro hm
      by_cases hd : δ y = y
      · exact hyn (hd ▸ hm)
      · exact (hc y hd).2 ((names_bv B).subset hm)

/-- Call bounds. -/
def Lv (b : Bool) (N M : Nat) : Prop := if b = true then M ≤ N else N ≤ M

/-- The statement at one call bound. -/
def Ren (S : Sig) (b : Bool) (N : Nat) : Prop :=
  ∀ (e : Exp) (M : Nat) (δ : Var → Var) (ρ ρ' : Env), Lv b N M → Cap δ e.bv → Ag δ e.fv ρ ρ' →
    FRel b RV (evalE S (callAt S N) e ρ) (evalE S (callAt S M) (ren δ e) ρ')

/-- Calls of functions that agree up to renaming. -/
theorem ren_call {S b N M} (ih : ∀ N', N = N' + 1 → Ren S b N') (hl : Lv b N M) {v v' ft vs vs' ρ₁ e₁} (hv : RV v v')
    (hr : All2 RV vs vs') (ha : applyV v ft vs = some (ρ₁, e₁)) :
    ∃ ρ₁' e₁', applyV v' ft vs' = some (ρ₁', e₁') ∧ FRel b RV (callAt S N ρ₁ e₁) (callAt S M ρ₁' e₁') := by
  cases v with
  | constr => simp [applyV] at ha
  | prim => simp [applyV] at ha
  | fn ρ B f =>
    obtain ⟨ρ', δ, rfl, hc, hl'⟩ := hv.fnE
    obtain ⟨xs, ρ₂, e, h1, h2, h3⟩ := applyV_some ha
    cases h3
    have hb : ∀ y ∈ xs ++ e₁.bv, y ∈ B.bv := (findDef_bv h1).subset
    have ag : Ag δ (B.fv ∪ B.names.toFinset) (defFuns B B ρ ρ) (defFuns (renD δ B) (renD δ B) ρ' ρ') :=
      Ag.defs (X := B.fv) hl' hc (fun _ h => h) (fun y hy hn => by simpa [hn] using hy)
    obtain ⟨ρ₁', q1, q2⟩ := ag.setLists (Y := e₁.fv) hc (fun x hx => hb x (by simp [hx])) hr h2 (by
      intro y hy hyx
      rcases fv_body h1 y hy with h | h | h
      · exact absurd h hyx
      · simp [h]
      · simp [h])
    refine ⟨ρ₁', ren δ e₁, applyV_eq (by rw [renD_find, h1]; rfl) q1, ?_⟩
    have hce : Cap δ e₁.bv := hc.sub fun y hy => hb y (by simp [hy])
    cases b with
    | false =>
      cases N with
      | zero => exact FRel.free
      | succ N =>
        simp only [Lv] at hl
        obtain ⟨M, rfl⟩ : ∃ M', M = M' + 1 := ⟨M - 1, by simp at hl; omega⟩
        simp only [callAt, run_callAt]
        exact ih N rfl _ M δ _ _ (by simp only [Lv]; simp at hl ⊢; exact hl) hce q2
    | true =>
      cases M with
      | zero => exact FRel.oot
      | succ M =>
        simp only [Lv, if_true] at hl
        obtain ⟨N, rfl⟩ : ∃ N', N = N' + 1 := ⟨N - 1, by omega⟩
        simp only [callAt, run_callAt]
        exact ih N rfl _ M δ _ _ (by simp only [Lv, if_true]; omega) hce q2

theorem ren_callee {S b N M δ X ρ ρ'} (ih : ∀ N', N = N' + 1 → Ren S b N') (hl : Lv b N M) (hi : Ag δ X ρ ρ') {f ft}
    {ys : List Var} (hf : f ∈ X) (hy : ∀ y ∈ ys, y ∈ X) :
    ∀ ρ₁ e₁, callee ρ f ft ys = some (ρ₁, e₁) → ∃ ρ₁' e₁', callee ρ' (δ f) ft (ys.map δ) = some (ρ₁', e₁') ∧
      FRel b RV (callAt S N ρ₁ e₁) (callAt S M ρ₁' e₁') := by
  intro ρ₁ e₁ hc
  obtain ⟨v, vs, h1, h2, h3⟩ := callee_applyV.mp hc
  obtain ⟨v', h1', hv⟩ := hi f hf v h1
  obtain ⟨vs', h2', hvs⟩ := Looks.map (fun y hm => hi y (hy y hm)) vs h2
  obtain ⟨ρ₁', e₁', h3', h4⟩ := ren_call ih hl hv hvs h3
  exact ⟨ρ₁', e₁', callee_applyV.mpr ⟨v', vs', h1', h2', h3'⟩, h4⟩

theorem ren_exp {S b N} (ih : ∀ N', N = N' + 1 → Ren S b N') : ∀ {e : Exp} {M δ ρ ρ'}, Lv b N M → Cap δ e.bv →
    Ag δ e.fv ρ ρ' → FRel b RV (evalE S (callAt S N) e ρ) (evalE S (callAt S M) (ren δ e) ρ')
  | .constr x t ys e, M, δ, ρ, ρ', hl, hc, hi => by
    refine flex_constr RV.data (Looks.map fun y hy => hi y (by simp [Exp.fv, hy])) ?_
    intro vs vs' _ _ hr
    refine ren_exp ih hl (hc.sub fun y hy => by simp [Exp.bv, hy]) (hi.set hc (by simp [Exp.bv]) hr ?_)
    intro y hy h; simp [Exp.fv, hy, h]
  | .case x bs, M, δ, ρ, ρ', hl, hc, hi => by
    refine flex_case RV.data (hi x (by simp [Exp.fv])) (renB_tags δ bs) ?_
    intro t vs e _ hf
    have hsz : sizeOf e < sizeOf bs := findTag_sizeOf hf
    refine ⟨ren δ e, by rw [renB_find, hf]; rfl, ren_exp ih hl (hc.sub (findTag_bv hf).subset) (hi.mono ?_)⟩
    intro y hy; simp [Exp.fv, findTag_fv hf y hy]
  | .proj x t i y e, M, δ, ρ, ρ', hl, hc, hi => by
    refine flex_proj RV.data (hi y (by simp [Exp.fv])) ?_
    intro v v' hr
    refine ren_exp ih hl (hc.sub fun y hy => by simp [Exp.bv, hy]) (hi.set hc (by simp [Exp.bv]) hr ?_)
    intro y hy h; simp [Exp.fv, hy, h]
  | .letapp x f t ys e, M, δ, ρ, ρ', hl, hc, hi => by
    refine flex_letapp (ren_callee ih hl hi (by simp [Exp.fv]) fun y hy => by simp [Exp.fv, hy]) ?_
    intro v v' hr
    refine ren_exp ih hl (hc.sub fun y hy => by simp [Exp.bv, hy]) (hi.set hc (by simp [Exp.bv]) hr ?_)
    intro y hy h; simp [Exp.fv, hy, h]
  | .fn B e, M, δ, ρ, ρ', hl, hc, hi => by
    simp only [ren, evalE]
    refine ren_exp ih hl (hc.sub fun y hy => by simp [Exp.bv, hy]) (hi.defs (hc.sub fun y hy => by simp [Exp.bv, hy]) ?_ ?_)
    · intro y hy
      simp only [Defs.fv, Finset.mem_sdiff, List.mem_toFinset] at hy
      simp [Exp.fv, hy]
    · intro y hy h; simp [Exp.fv, hy, h]
  | .app f t ys, M, δ, ρ, ρ', hl, hc, hi =>
    flex_app (ren_callee ih hl hi (by simp [Exp.fv]) fun y hy => by simp [Exp.fv, hy])
  | .primVal x p e, M, δ, ρ, ρ', hl, hc, hi => by
    refine flex_primVal RV.data ?_
    intro hr
    refine ren_exp ih hl (hc.sub fun y hy => by simp [Exp.bv, hy]) (hi.set hc (by simp [Exp.bv]) hr ?_)
    intro y hy h; simp [Exp.fv, hy, h]
  | .prim x p ys e, M, δ, ρ, ρ', hl, hc, hi => by
    refine flex_prim RV.data (Looks.map fun y hy => hi y (by simp [Exp.fv, hy])) ?_
    intro v hr
    refine ren_exp ih hl (hc.sub fun y hy => by simp [Exp.bv, hy]) (hi.set hc (by simp [Exp.bv]) hr ?_)
    intro y hy h; simp [Exp.fv, hy, h]
  | .halt x, M, δ, ρ, ρ', hl, hc, hi => flex_halt (hi x (by simp [Exp.fv]))
termination_by e => sizeOf e

theorem ren_all (S : Sig) (b : Bool) : ∀ N, Ren S b N := by
  intro N
  induction N with
  | zero => exact fun e M δ ρ ρ' hl hc hi => ren_exp (by intro N' h; omega) hl hc hi
  | succ N ih =>
    exact fun e M δ ρ ρ' hl hc hi => ren_exp (by intro N' h; obtain rfl : N = N' := by omega
                                                 exact ih) hl hc hi

/-- Calls of functions that agree up to renaming, at any bounds. -/
theorem RV.call {S b N M} (hl : Lv b N M) {v v' ft vs vs' ρ₁ e₁} (hv : RV v v')
    (hr : All2 RV vs vs') (ha : applyV v ft vs = some (ρ₁, e₁)) :
    ∃ ρ₁' e₁', applyV v' ft vs' = some (ρ₁', e₁') ∧ FRel b RV (callAt S N ρ₁ e₁) (callAt S M ρ₁' e₁') :=
  ren_call (fun N' _ => ren_all S b N') hl hv hr ha

/-- Environments that agree on the free variables. -/
theorem coincide {S b N M e ρ ρ'} (hl : Lv b N M) (h : ∀ y ∈ e.fv, ρ y = ρ' y) :
    FRel b RV (evalE S (callAt S N) e ρ) (evalE S (callAt S M) e ρ') := by
  have := ren_all S b N e M id ρ ρ' hl (cap_id _) (fun y hy v hv => ⟨v, (h y hy).symm.trans hv, .same⟩)
  rwa [ren_id] at this

theorem frel_trans {b : Bool} {R Q T : Val → Val → Prop} (hT : ∀ u v w, R u v → Q v w → T u w) {r₁ r₂ r₃ : Res}
    (h1 : FRel b R r₁ r₂) (h2 : FRel b Q r₂ r₃) : FRel b T r₁ r₃ := by
  rcases r₁ with v₁ | _ | _ <;> rcases r₂ with v₂ | _ | _ <;> rcases r₃ with v₃ | _ | _ <;>
    simp only [FRel] at h1 h2 ⊢ <;> first | trivial | exact hT _ _ _ h1 h2 | simp_all

/-- A call runs one level below. -/
theorem call_body {S b N M eb ρ₁ ρ₂} (hl : if b = true then M + 1 ≤ N else N ≤ M) (h : ∀ y ∈ eb.fv, ρ₁ y = ρ₂ y) :
    FRel b RV (callAt S N ρ₁ eb) (evalE S (callAt S M) eb ρ₂) := by
  cases N with
  | zero =>
    cases b with
    | false => exact FRel.free
    | true => simp at hl
  | succ N =>
    simp only [callAt, run_callAt]
    refine coincide ?_ h
    cases b <;> simp [Lv] at hl ⊢ <;> omega

/-- A call of a known function is its body in an environment that has the right values. -/
theorem app_inl {S b N M f t ys ρ ρf B xs eb ρ₁} (hl : if b = true then M + 1 ≤ N else N ≤ M)
    (hf : ρ f = some (.fn ρf B f')) (hd : findDef f' B = some (t', xs, eb))
    (hout : ∀ z ∈ eb.fv, z ∉ xs → defFuns B B ρf ρf z = ρ₁ z)
    (hin : ∀ vs ρ₂, getList ρ ys = some vs → setLists xs vs (defFuns B B ρf ρf) = some ρ₂ → ∀ z ∈ xs, ρ₂ z = ρ₁ z) :
    FRel b RV (evalE S (callAt S N) (.app f t ys) ρ) (evalE S (callAt S M) eb ρ₁) := by
  simp only [evalE]
  rcases hc : callee ρ f t ys with _ | ⟨ρ₂, e₂⟩
  · trivial
  obtain ⟨v, vs, h1, h2, h3⟩ := callee_applyV.mp hc
  rw [hf] at h1; cases h1
  obtain ⟨xs₂, ρ₃, b₂, a1, a2, a3⟩ := applyV_some h3
  rw [hd] at a1; cases a1; cases a3
  refine call_body hl fun y hy => ?_
  by_cases hyx : y ∈ xs
  · exact hin vs ρ₂ h2 a2 y hyx
  · rw [setLists_not_mem a2 y hyx]; exact hout y hy hyx

/-- The same for a call whose result is bound. -/
theorem letapp_inl {S b N M x f t ys e ρ ρf B xs eb ρ₁ C z} (hl : if b = true then M + 1 ≤ N else N ≤ M)
    (hf : ρ f = some (.fn ρf B f')) (hd : findDef f' B = some (t', xs, eb)) (hC : inlineLet eb x = some (C, z))
    (hout : ∀ z ∈ eb.fv, z ∉ xs → defFuns B B ρf ρf z = ρ₁ z)
    (hin : ∀ vs ρ₂, getList ρ ys = some vs → setLists xs vs (defFuns B B ρf ρf) = some ρ₂ → ∀ z ∈ xs, ρ₂ z = ρ₁ z)
    (hrest : ∀ y ∈ e.fv, y ≠ x → ρ y = ρ₁ y ∧ y ∉ eb.bv) (hx : x ∉ e.bv) (hz : z ∉ e.bv) :
    FRel b RV (evalE S (callAt S N) (.letapp x f t ys e) ρ) (evalE S (callAt S M) (C.plug (ren (put id x z) e)) ρ₁) := by
  rw [evalE_letapp]
  rcases hc : callee ρ f t ys with _ | ⟨ρ₂, e₂⟩
  · trivial
  obtain ⟨v, vs, h1, h2, h3⟩ := callee_applyV.mp hc
  rw [hf] at h1; cases h1
  obtain ⟨xs₂, ρ₃, b₂, a1, a2, a3⟩ := applyV_some h3
  rw [hd] at a1; cases a1; cases a3
  dsimp only
  refine Inl.flex_inlineLet hC (call_body hl fun y hy => ?_) ?_
  · by_cases hyx : y ∈ xs
    · exact hin vs ρ₂ h2 a2 y hyx
    · rw [setLists_not_mem a2 y hyx]; exact hout y hy hyx
  · intro v v' ρ₃ hr hv ho
    refine ren_all S b N e M _ _ _ (by cases b <;> simp [Lv] at hl ⊢ <;> omega) ?_ ?_
    · intro y hy
      by_cases hyx : y = x
      · subst hyx; rw [Inl.put_self]; exact ⟨hx, hz⟩
      · rw [Inl.put_other hyx] at hy; exact absurd rfl hy
    · intro y hy w hw
      by_cases hyx : y = x
      · subst hyx; rw [set_self] at hw; cases hw
        rw [Inl.put_self]; exact ⟨v', hv, hr⟩
      · rw [set_other hyx] at hw
        obtain ⟨q1, q2⟩ := hrest y hy hyx
        rw [Inl.put_other hyx]
        refine ⟨w, ?_, .same⟩
        rw [id, ho y q2 hyx, ← q1]; exact hw

end Shr
end ANF
