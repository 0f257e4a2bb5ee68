import Verif.Glue.Spec
import Verif.Ctor.Props

/-!
# The print functions: lemmas
-/

namespace Glue

open Ctor (W WMem Str Cnstr getTag getArgs namesArray readName specOrdinal boxedCount)

/-- How a parameter is dissected. -/
def spDis (params : List Str) : Sp → Dis
  | .param k => .param (params[k]?.getD [])
  | .ind i => .ind i

/-- The context of `dissect_types` behind the parameters and arguments `prev`. -/
structure CtxOk (me : Ind) (params : List Str) (prev : List (Option Sp)) (ctx : List Dis) : Prop where
  args : ∀ (n : Nat) s, prev[n]? = some (some s) → ctx[n]? = some (spDis params s)
  param : ∀ k < params.length, ctx[prev.length + (params.length - 1 - k)]? = some (spDis params (.param k))
  own : ctx[prev.length + params.length]? = some (.ind me)

theorem simple_dis {self : Ind} {params : List Str} {prev : List (Option Sp)} {ctx : List Dis} (hc : CtxOk self params prev ctx) {t : Tm} {s : Sp}
    (h : Simple self params.length prev.length t s) : dissectType ctx t = spDis params s := by
  cases s with
  | param k =>
    obtain ⟨h1, rfl⟩ := h
    simp [dissectType, hc.param k h1]
  | ind i =>
    rcases h with rfl | ⟨rfl, rfl⟩
    · simp [dissectType, spDis]
    · simp [dissectType, hc.own, spDis]

theorem dissectList_get (ctx : List Dis) (ts : List Tm) (k : Nat) : (dissectList ctx ts)[k]? = ts[k]?.map (dissectType ctx) := by
  induction ts generalizing k with
  | nil => simp [dissectList]
  | cons t ts ih => cases k <;> simp [dissectList, ih]

/-- How the type of an argument is dissected. -/
inductive Fits (params : List Str) (prev : List (Option Sp)) : Dis → ATy → Prop
  | simple {s : Sp} : Fits params prev (spDis params s) s.toATy
  | app {i : Ind} {sp ix : List Sp} : (∀ s ∈ ix, some s ∈ prev) → Fits params prev (.app (.ind i) ((sp ++ ix).map (spDis params))) (.ind i sp)
  | fn : Fits params prev .fn .fn
  | sort : Fits params prev .sort .sort
  | prop {i : Ind} : Fits params prev (.ind i) (.prop i)
  | propApp {i : Ind} {l : List Dis} : Fits params prev (.app (.ind i) l) (.prop i)

theorem denotes_fits {self : Ind} {params : List Str} {prev : List (Option Sp)} {ctx : List Dis} (hc : CtxOk self params prev ctx) {t : Tm} {a : ATy}
    (h : Denotes self params.length prev t a) : Fits params prev (dissectType ctx t) a := by
  cases h with
  | simple h => rw [simple_dis hc h]; exact .simple
  | @app h i args sp ix h1 h2 h3 h4 =>
    have h5 := simple_dis hc h1
    rw [dissectType, h5]
    have : dissectList ctx args = (sp ++ ix).map (spDis params) := by
      apply List.ext_getElem?
      intro k
      rw [dissectList_get, List.getElem?_map]
      by_cases hk : k < sp.length
      · rw [List.getElem?_append_left hk]
        have e1 : sp[k]? = some sp[k] := List.getElem?_eq_getElem hk
        have e2 : args[k]? = some (args[k]'(by omega)) := List.getElem?_eq_getElem (by omega)
        rw [e1, e2, Option.map_some, Option.map_some, simple_dis hc (h3 k _ _ e1 e2)]
      · rw [List.getElem?_append_right (by omega)]
        by_cases hk2 : k - sp.length < ix.length
        · have e1 : ix[k - sp.length]? = some ix[k - sp.length] := List.getElem?_eq_getElem hk2
          have e2 : args[sp.length + (k - sp.length)]? = some (args[sp.length + (k - sp.length)]'(by omega)) := List.getElem?_eq_getElem (by omega)
          obtain ⟨n, e3, e4⟩ := h4 _ _ _ e1 e2
          rw [show k = sp.length + (k - sp.length) by omega, e2, Option.map_some, e3]
          simp only [Nat.add_sub_cancel_left] at *
          rw [e1, Option.map_some, dissectType, hc.args n _ e4]
          rfl
        · rw [List.getElem?_eq_none (by omega : args.length ≤ k), List.getElem?_eq_none (by omega)]
          rfl
    rw [this]
    refine .app fun s hs => ?_
    obtain ⟨k, hk, rfl⟩ := List.getElem_of_mem hs
    obtain ⟨n, -, e4⟩ := h4 k _ _ (List.getElem?_eq_getElem hk) (List.getElem?_eq_getElem (show sp.length + k < args.length by omega))
    exact List.mem_of_getElem? e4
  | fn => exact .fn
  | sort => exact .sort
  | prop => exact .prop
  | propApp => rw [dissectType, dissectType]; exact .propApp

/-- The context behind one more argument. -/
theorem ctx_cons {self : Ind} {params : List Str} {prev : List (Option Sp)} {ctx : List Dis} (hc : CtxOk self params prev ctx) {t : Tm} {o : Option Sp}
    (ho : ∀ s, o = some s → Simple self params.length prev.length t s) : CtxOk self params (o :: prev) (forCtx (dissectType ctx t) :: ctx) := by
  refine ⟨fun n s hn => ?_, fun k hk => ?_, ?_⟩
  · cases n with
    | zero =>
      simp only [List.getElem?_cons_zero, Option.some.injEq] at hn ⊢
      rw [simple_dis hc (ho s hn)]
      cases s <;> rfl
    | succ n => exact hc.args n s hn
  · rw [List.length_cons, show prev.length + 1 + (params.length - 1 - k) = (prev.length + (params.length - 1 - k)) + 1 by omega]
    exact hc.param k hk
  · rw [List.length_cons, show prev.length + 1 + params.length = (prev.length + params.length) + 1 by omega]
    exact hc.own

theorem dissect_nonprod {t : Tm} (h : ∀ n a b, t ≠ .prod n a b) (ps : List Str) (ctx : List Dis) : dissectTypes t ps ctx = [] := by
  cases t with
  | prod n a b => exact absurd rfl (h n a b)
  | _ => cases ps <;> rfl

/-- The arguments of a constructor, dissected: `pre` are the arguments before each. -/
theorem dissect_args {self : Ind} {params : List Str} {prev : List (Option Sp)} {u : Tm} {as : List ATy} (h : CtorTy self params.length prev u as) {ctx : List Dis}
    (hc : CtxOk self params prev ctx) {P : Sp → Prop} (hP : ∀ s, some s ∈ prev → P s) (hA : ∀ s : Sp, s.toATy ∈ as → P s) :
    (dissectTypes u [] ctx).length = as.length ∧ ∀ (k : Nat) d a, (dissectTypes u [] ctx)[k]? = some d → as[k]? = some a →
      ∃ prev', Fits params prev' d a ∧ ∀ s, some s ∈ prev' → P s := by
  induction h generalizing ctx with
  | nil h => rw [dissect_nonprod h]; simp
  | @cons prev n t u a as o h1 h2 h3 ih =>
    have hfit := denotes_fits hc h1
    obtain ⟨e1, e2⟩ := ih (ctx_cons hc fun s hs => (h2 s hs).2) (fun s hs => by
      rcases List.mem_cons.1 hs with hs | hs
      · exact hA s (List.mem_cons.2 (.inl (h2 s hs.symm).1.symm))
      · exact hP s hs) (fun s hs => hA s (List.mem_cons_of_mem _ hs))
    have e0 : dissectTypes (.prod n t u) [] ctx = dissectType ctx t :: dissectTypes u [] (forCtx (dissectType ctx t) :: ctx) := by cases n <;> rfl
    rw [e0]
    refine ⟨by rw [List.length_cons, List.length_cons, e1], fun k d b hd hb => ?_⟩
    cases k with
    | zero =>
      simp only [List.getElem?_cons_zero, Option.some.injEq] at hd hb
      subst hd hb
      exact ⟨prev, hfit, hP⟩
    | succ k => exact e2 k d b hd hb

/-- The context behind the parameters. -/
theorem dissect_params (self : Ind) {ps : List Str} {t u : Tm} (h : UnderParams ps t u) (pre : List Str) (ctx : List Dis)
    (hc : CtxOk self pre [] ctx) : ∃ ctx', dissectTypes t ps ctx = dissectTypes u [] ctx' ∧ CtxOk self (pre ++ ps) [] ctx' := by
  induction h generalizing pre ctx with
  | nil => exact ⟨ctx, rfl, by rwa [List.append_nil]⟩
  | @cons p ps a t u h ih =>
    have hc' : CtxOk self (pre ++ [p]) [] (.param p :: ctx) := by
      refine ⟨fun n s hn => by simp at hn, fun k hk => ?_, ?_⟩
      · have hl : (pre ++ [p]).length = pre.length + 1 := by simp
        rw [hl] at hk ⊢
        simp only [List.length_nil, Nat.zero_add]
        by_cases hk' : k = pre.length
        · subst hk'
          simp [spDis]
        · have := hc.param k (by omega)
          simp only [List.length_nil, Nat.zero_add] at this
          rw [show pre.length + 1 - 1 - k = (pre.length - 1 - k) + 1 by omega, List.getElem?_cons_succ, this]
          simp only [spDis]
          rw [List.getElem?_append_left (by omega)]
      · have := hc.own
        simp only [List.length_nil, Nat.zero_add, List.length_append, List.length_cons, List.getElem?_cons_succ] at this ⊢
        exact this
    obtain ⟨ctx', h1, h2⟩ := ih (pre ++ [p]) (.param p :: ctx) hc'
    exact ⟨ctx', h1, by rwa [List.append_assoc] at h2⟩

/-! ## The types of the generator -/

/-- The types given to the generator. -/
def SameAll (tys : List TyInfo) (D : Decls) : Prop :=
  tys.length = D.length ∧ ∀ (k : Nat) t d, tys[k]? = some t → D[k]? = some d → Same t d

theorem tag_of {tys : List TyInfo} {D : Decls} (hs : SameAll tys D) (hn : (D.map Decl.ind).Nodup) {i : Ind} {d : Decl} (h : D.Has i d) :
    ∃ k t, tagOf tys i = some k ∧ tys[k]? = some t ∧ D[k]? = some d ∧ Same t d := by
  obtain ⟨h1, rfl⟩ := h
  obtain ⟨k, hk, hkd⟩ := List.getElem_of_mem h1
  have hk' : k < tys.length := by rw [hs.1]; exact hk
  have e1 : tys[k]? = some tys[k] := List.getElem?_eq_getElem hk'
  have e2 : D[k]? = some d := by rw [List.getElem?_eq_getElem hk, hkd]
  have hsame := hs.2 k _ _ e1 e2
  refine ⟨k, _, ?_, e1, e2, hsame⟩
  rw [tagOf, List.findIdx?_eq_some_iff_getElem]
  refine ⟨hk', by simp [hsame.ind], fun j hj => ?_⟩
  have hj' : j < D.length := by omega
  have e3 := hs.2 j _ _ (List.getElem?_eq_getElem (show j < tys.length by omega)) (List.getElem?_eq_getElem hj')
  simp only [decide_eq_true_eq]
  intro he
  rw [e3.ind] at he
  have := List.nodup_iff_injective_getElem.1 hn
  have := @this ⟨j, by simpa using hj'⟩ ⟨k, by simpa using hk⟩ (by simp [he, hkd])
  simp at this
  omega

theorem findParam_get {params : List Str} (hn : params.Nodup) {k : Nat} (hk : k < params.length) : findParam params (params[k]?.getD []) = some k := by
  rw [List.getElem?_eq_getElem hk, Option.getD_some, findParam, List.findIdx?_eq_some_iff_getElem]
  refine ⟨hk, by simp, fun j hj => ?_⟩
  simp only [decide_eq_true_eq]
  intro he
  have := List.nodup_iff_injective_getElem.1 hn
  have := @this ⟨j, by omega⟩ ⟨k, hk⟩ (by simp [he])
  simp at this
  omega

/-- The printer passed for a parameter. -/
def SpArg (tys : List TyInfo) : Sp → PArg → Prop
  | .param k, .param k' => k' = k
  | .ind i, .fn q => tagOf tys i = some q ∧ printerOf tys q = some q
  | _, _ => False

theorem printer_of {tys : List TyInfo} {k : Nat} {t : TyInfo} (h : tys[k]? = some t) (hp : t.isProp = false) : printerOf tys k = some k := by
  simp [printerOf, h, hp]

theorem spine_args {tys : List TyInfo} {D : Decls} (hs : SameAll tys D) (hD : D.Ok) {params : List Str} (hn : params.Nodup) (l : List Sp)
    (hl : ∀ s ∈ l, s.Ok D params.length) :
    ∃ fs, spineToArgs tys params (l.map (spDis params)) = some fs ∧ List.Forall₂ (SpArg tys) l fs := by
  induction l with
  | nil => exact ⟨[], rfl, .nil⟩
  | cons s l ih =>
    obtain ⟨fs, h1, h2⟩ := ih fun s hs => hl s (List.mem_cons_of_mem _ hs)
    have hok := hl s List.mem_cons_self
    cases s with
    | param k =>
      refine ⟨.param k :: fs, ?_, .cons rfl h2⟩
      simp only [List.map_cons, spDis, spineToArgs]
      rw [findParam_get hn hok]
      simp [h1]
    | ind i =>
      obtain ⟨d, hd, hp, -⟩ := hok
      obtain ⟨k, t, e1, e2, e3, e4⟩ := tag_of hs hD.inds hd
      have e5 := printer_of e2 (e4.isProp.trans hp)
      refine ⟨.fn k :: fs, ?_, .cons ⟨e1, e5⟩ h2⟩
      simp only [List.map_cons, spDis, spineToArgs]
      rw [e1]
      simp only [e5, h1, Option.map_some]

end Glue
