import Verif.ANF.CcModel
import Verif.ANF.Util

/-! # Closure conversion: simulation -/

namespace ANF
namespace Cc
open Ctor (PMap cloTag)

/-- The state only grows. -/
structure Le (s s' : Comp) : Prop where
  next : s.next ≤ s'.next
  ctag : s.ctag ≤ s'.ctag
  cenv : ∀ t, t < s.ctag → s'.cenv t = s.cenv t

theorem Le.refl (s : Comp) : Le s s := ⟨Nat.le_refl _, Nat.le_refl _, fun _ _ => rfl⟩

theorem Le.trans {s s' s''} (h : Le s s') (h' : Le s' s'') : Le s s'' :=
  ⟨h.next.trans h'.next, h.ctag.trans h'.ctag, fun t ht => (h'.cenv t (by have := h.ctag; vomega)).trans (h.cenv t ht)⟩

theorem Le.bump (s : Comp) : Le s s.bump := ⟨Nat.le_succ _, Nat.le_refl _, fun _ _ => rfl⟩

theorem Le.record (s : Comp) (n : Nat) : Le s (s.record n) :=
  ⟨Nat.le_refl _, Nat.le_succ _, fun t ht => by simp only [Comp.record, PMap.set]; rw [if_neg (by vomega)]⟩

theorem getVar_le (x m g c Γ s) : Le s (getVar x m g c Γ s).2 := by
  unfold getVar
  split
  · exact .bump s
  · exact .bump s
  · exact .refl s
  · split
    · exact (Le.record s 0).trans ((Le.bump _).trans (Le.bump _))
    · exact .refl s

theorem getVars_le : ∀ xs m g c Γ s, Le s (getVars xs m g c Γ s).2
  | [], _, _, _, _, s => .refl s
  | x :: xs, m, g, c, Γ, s => (getVar_le x m g c Γ s).trans (getVars_le xs m g c Γ _)

theorem makeEnv_le (fvs m c Γ' Γ g s) : Le s (makeEnv fvs m c Γ' Γ g s).2 :=
  (getVars_le fvs m g c Γ s).trans (.record _ _)

mutual
theorem ccE_le : ∀ e m g c Γ s, Le s (ccE e m g c Γ s).2
  | .constr x t ys e, m, g, c, Γ, s => (getVars_le ys m g c Γ s).trans (ccE_le e _ g c Γ _)
  | .case x bs, m, g, c, Γ, s => (ccBs_le bs m g c Γ s).trans (getVar_le x m g c Γ _)
  | .proj x t n y e, m, g, c, Γ, s => (getVar_le y m g c Γ s).trans (ccE_le e _ g c Γ _)
  | .letapp x f ft xs e, m, g, c, Γ, s => (getVar_le f m g c Γ s).trans ((getVars_le xs m g c Γ _).trans
      ((Le.bump _).trans ((Le.bump _).trans (ccE_le e _ g c Γ _))))
  | .fn B e, m, g, c, Γ, s => (Le.bump s).trans ((makeEnv_le _ _ _ _ _ _ _).trans
      ((ccB_le B B _ _ _ _).trans (ccE_le e _ _ c Γ _)))
  | .app f ft xs, m, g, c, Γ, s => (getVar_le f m g c Γ s).trans ((getVars_le xs m g c Γ _).trans
      ((Le.bump _).trans (Le.bump _)))
  | .primVal x p e, m, g, c, Γ, s => ccE_le e _ g c Γ s
  | .prim x p ys e, m, g, c, Γ, s => (getVars_le ys m g c Γ s).trans (ccE_le e _ g c Γ _)
  | .halt x, m, g, c, Γ, s => getVar_le x m g c Γ s
theorem ccBs_le : ∀ bs m g c Γ s, Le s (ccBs bs m g c Γ s).2
  | .nil, m, g, c, Γ, s => .refl s
  | .cons t e bs, m, g, c, Γ, s => (ccE_le e m g c Γ s).trans (ccBs_le bs m g c Γ _)
theorem ccB_le (B0 : Defs) : ∀ B m g c s, Le s (ccB B0 B m g c s).2
  | .nil, m, g, c, s => .refl s
  | .cons f ft ys e B, m, g, c, s => (Le.bump s).trans ((ccE_le e _ g c _ _).trans (ccB_le B0 B m g c _))
end

/-- The converted term with the code that fetches its free variables. -/
def ccT (e : Exp) (m : PMap VInfo) (g : Var → Bool) (c : Tag) (Γ : Var) (s : Comp) : Exp :=
  (ccE e m g c Γ s).1.2 (ccE e m g c Γ s).1.1

/-- The free variables a bundle's environment record holds. -/
def fvsOf (g : Var → Bool) (B : Defs) : List Var := (elements B.fv).filter (fun x => !g x)

/-- The variable map for the bodies of a bundle. -/
def fvMap (fvs : List Var) : PMap VInfo := (addFvs fvs 0 PMap.empty).1

/-! ## Variable maps -/

theorem pset_self {α} {m : PMap α} {x v} : PMap.set x v m x = some v := by simp [PMap.set]
theorem pset_other {α} {m : PMap α} {x y v} (h : y ≠ x) : PMap.set x v m y = m y := by simp [PMap.set, h]

theorem addParams_mem {m : PMap VInfo} : ∀ {xs : List Var} {x}, x ∈ xs → addParams xs m x = some .bound := by
  intro xs
  induction xs with
  | nil => intro x h; cases h
  | cons y xs ih =>
    intro x h
    simp only [addParams]
    by_cases hxy : x = y
    · subst hxy; exact pset_self
    · rw [pset_other hxy]; exact ih (by simpa [hxy] using h)

theorem addParams_not_mem {m : PMap VInfo} : ∀ {xs : List Var} {x}, x ∉ xs → addParams xs m x = m x := by
  intro xs
  induction xs with
  | nil => intro x _; rfl
  | cons y xs ih =>
    intro x h
    simp at h
    simp only [addParams]
    rw [pset_other h.1]; exact ih h.2

theorem addClosures_mem {m : PMap VInfo} {env : Var} : ∀ {B : Defs} {x}, x ∈ B.names →
    addClosures B m env x = some (.mrfun env) := by
  intro B
  induction B using Defs.ind with
  | nil => intro x h; simp [Defs.names] at h
  | cons f ft xs e B ih =>
    intro x h
    simp only [addClosures]
    by_cases hxy : x = f
    · subst hxy; exact pset_self
    · rw [pset_other hxy]; exact ih (by simpa [Defs.names, hxy] using h)

theorem addClosures_not_mem {m : PMap VInfo} {env : Var} : ∀ {B : Defs} {x}, x ∉ B.names →
    addClosures B m env x = m x := by
  intro B
  induction B using Defs.ind with
  | nil => intro x _; rfl
  | cons f ft xs e B ih =>
    intro x h
    simp [Defs.names] at h
    simp only [addClosures]
    rw [pset_other h.1]; exact ih h.2

theorem addGFuns_open {g : Var → Bool} : ∀ B : Defs, addGFuns B g false = g := by
  intro B; cases B <;> simp [addGFuns]

theorem addGFuns_closed {g : Var → Bool} : ∀ (B : Defs) (x : Var), addGFuns B g true x = true ↔ x ∈ B.names ∨ g x = true := by
  intro B
  induction B using Defs.ind with
  | nil => intro x; simp [addGFuns, Defs.names]
  | cons f ft xs e B ih =>
    intro x
    simp only [addGFuns, if_true, Defs.names, List.mem_cons]
    by_cases h : x = f
    · simp [h]
    · rw [if_neg h, ih x]; simp [h]

theorem addGFuns_not_mem {g : Var → Bool} {B : Defs} {b : Bool} {x : Var} (h : x ∉ B.names) : addGFuns B g b x = g x := by
  cases b with
  | false => rw [addGFuns_open]
  | true =>
    have := addGFuns_closed (g := g) B x
    simp only [h, false_or] at this
    cases h1 : addGFuns B g true x <;> cases h2 : g x <;> simp_all

theorem addFvs_not_mem : ∀ (fvs : List Var) (n : Nat) (m : PMap VInfo) x, x ∉ fvs → (addFvs fvs n m).1 x = m x := by
  intro fvs
  induction fvs with
  | nil => intro n m x _; rfl
  | cons y fvs ih =>
    intro n m x h
    simp at h
    simp only [addFvs]
    rw [ih _ _ _ h.2, pset_other h.1]

theorem addFvs_nth : ∀ (fvs : List Var) (n : Nat) (m : PMap VInfo), fvs.Nodup → ∀ (i : Nat) x, fvs[i]? = some x →
    (addFvs fvs n m).1 x = some (.fvar (n + i)) := by
  intro fvs
  induction fvs with
  | nil => intro n m _ i x h; simp at h
  | cons y fvs ih =>
    intro n m hn i x h
    simp only [List.nodup_cons] at hn
    simp only [addFvs]
    cases i with
    | zero =>
      simp at h; subst h
      rw [addFvs_not_mem _ _ _ _ hn.1, pset_self]; rfl
    | succ i => rw [ih (n + 1) _ hn.2 i x (by simpa using h)]; congr 2; vomega

theorem fvsOf_mem {g : Var → Bool} {B : Defs} {x : Var} : x ∈ fvsOf g B ↔ x ∈ B.fv ∧ g x = false := by
  simp only [fvsOf, List.mem_filter, mem_elements]
  cases g x <;> simp

theorem fvsOf_nodup (g : Var → Bool) (B : Defs) : (fvsOf g B).Nodup := (elements_nodup _).filter _

/-! ## The relation -/

/-- Side conditions on a source term: distinct binders below the fresh variables and not global functions. -/
structure OkE (n0 : Nat) (T : Tag → Prop) (g : Var → Bool) (e : Exp) : Prop where
  nodup : e.bv.Nodup
  bv : ∀ x ∈ e.bv, x < n0 ∧ g x = false
  fv : ∀ x ∈ e.fv, x < n0
  tags : ∀ t ∈ e.caseTags, T t

/-- The same for a bundle. -/
structure OkB (n0 : Nat) (T : Tag → Prop) (g : Var → Bool) (B : Defs) : Prop where
  nodup : B.bv.Nodup
  bv : ∀ x ∈ B.bv, x < n0 ∧ g x = false
  fv : ∀ x ∈ B.fv, x < n0
  tags : ∀ t ∈ B.caseTags, T t

/-- Source and target values: a function is a record of its code and its environment. -/
inductive CRel (n0 : Nat) (T : Tag → Prop) : Val → Val → Prop
  | constr {t : Tag} {vs vs' : List Val} (len : vs.length = vs'.length)
      (args : ∀ (i : Nat) v v', vs[i]? = some v → vs'[i]? = some v' → CRel n0 T v v') :
      CRel n0 T (.constr t vs) (.constr t vs')
  | prim {p : PVal} : CRel n0 T (.prim p) (.prim p)
  | fn {ρ ρt : Env} {B : Defs} {f : Var} {ev : Val} {g : Var → Bool} {c : Tag} {s : Comp} (val cf : Var → Val)
      (vs' : List Val) (mem : f ∈ B.names) (ok : OkB n0 T g B) (hs : n0 ≤ s.next)
      (hval : ∀ x ∈ B.fv, ρ x = some (val x))
      (hcf : ∀ x ∈ B.fv, g x = true → ρt x = some (cf x))
      (hgl : ∀ x ∈ B.fv, g x = true → ∀ ce, CRel n0 T (val x) (.constr cloTag [cf x, .constr ce []]))
      (hev : fvsOf g B ≠ [] → ev = .constr c vs')
      (hlen : vs'.length = (fvsOf g B).length)
      (hfv : ∀ (i : Nat) x v', (fvsOf g B)[i]? = some x → vs'[i]? = some v' → CRel n0 T (val x) v') :
      CRel n0 T (.fn ρ B f)
        (.constr cloTag [.fn ρt (ccB B B (fvMap (fvsOf g B)) (addGFuns B g (fvsOf g B).isEmpty) c s).1 f, ev])

theorem CRel.obs {n0 T v v'} (h : CRel n0 T v v') : Obs v v' := by
  induction h with
  | constr len _ ih => exact .constr len ih
  | prim => exact .prim
  | fn => exact .fn (.clo .fn)

section
variable {n0 : Nat} {T : Tag → Prop}

/-- What the target environment holds for a source variable. -/
def VarInv (n0 : Nat) (T : Tag → Prop) (m : PMap VInfo) (g : Var → Bool) (c : Tag) (Γ : Var) (ρt : Env) (x : Var)
    (v : Val) : Prop :=
  (match m x with
    | some .bound => ∃ v', ρt x = some v' ∧ CRel n0 T v v'
    | some (.fvar n) => ∃ vs' v', ρt Γ = some (.constr c vs') ∧ vs'[n]? = some v' ∧ CRel n0 T v v'
    | some (.mrfun env) => ∃ cf ev, ρt x = some cf ∧ ρt env = some ev ∧ CRel n0 T v (.constr cloTag [cf, ev])
    | none => g x = true) ∧
  (g x = true → ∃ cf, ρt x = some cf ∧ ∀ ce, CRel n0 T v (.constr cloTag [cf, .constr ce []]))

/-- Every relevant variable is bound, and represented. -/
def Inv (n0 : Nat) (T : Tag → Prop) (m : PMap VInfo) (g : Var → Bool) (c : Tag) (Γ : Var) (P : Var → Prop)
    (ρ ρt : Env) : Prop :=
  ∀ x, P x → ∃ v, ρ x = some v ∧ VarInv n0 T m g c Γ ρt x v

/-- Environment variables are not source variables. -/
structure CtxOk (n0 : Nat) (m : PMap VInfo) (Γ : Var) (s : Comp) : Prop where
  lo : n0 ≤ Γ
  hi : Γ < s.next
  env : ∀ x env, m x = some (.mrfun env) → n0 ≤ env ∧ env < s.next

theorem CtxOk.le {m Γ s s'} (h : CtxOk n0 m Γ s) (hs : s.next ≤ s'.next) : CtxOk n0 m Γ s' :=
  ⟨h.lo, by have := h.hi; vomega, fun x env hx => by have := h.env x env hx; vomega⟩

theorem CtxOk.bound {m Γ s x} (h : CtxOk n0 m Γ s) : CtxOk n0 (m.set x .bound) Γ s := by
  refine ⟨h.lo, h.hi, fun y env hy => ?_⟩
  by_cases hyx : y = x
  · subst hyx; rw [pset_self] at hy; cases hy
  · rw [pset_other hyx] at hy; exact h.env y env hy

theorem VarInv.congr {m m' : PMap VInfo} {g g' c Γ} {ρt ρt' : Env} {x v} (h : VarInv n0 T m g c Γ ρt x v) (hm : m' x = m x)
    (hg : g' x = g x) (hx : ρt' x = ρt x) (hΓ : ρt' Γ = ρt Γ) (henv : ∀ env, m x = some (.mrfun env) → ρt' env = ρt env) :
    VarInv n0 T m' g' c Γ ρt' x v := by
  obtain ⟨h1, h2⟩ := h
  refine ⟨?_, by rw [hg, hx]; exact h2⟩
  rw [hm]
  rcases hmx : m x with _ | (n | env | _)
  · rw [hmx] at h1; rw [hg]; exact h1
  · rw [hmx] at h1; rw [hΓ]; exact h1
  · rw [hmx] at h1
    dsimp only at h1 ⊢
    rw [hx, henv env hmx]; exact h1
  · rw [hmx] at h1; rw [hx]; exact h1

theorem Inv.agree {m g c Γ P ρ ρt ρt' s} (h : Inv n0 T m g c Γ P ρ ρt) (hc : CtxOk n0 m Γ s) (hP : ∀ x, P x → x < n0)
    (ha : ∀ z, z < s.next → ρt' z = ρt z) : Inv n0 T m g c Γ P ρ ρt' := by
  intro x hx
  obtain ⟨v, hv, hi⟩ := h x hx
  exact ⟨v, hv, hi.congr rfl rfl (ha x (by have := hP x hx; have := hc.lo; have := hc.hi; vomega)) (ha Γ hc.hi)
    (fun env he => ha env (hc.env x env he).2)⟩

theorem Inv.mono {m g c Γ P Q ρ ρt} (h : Inv n0 T m g c Γ P ρ ρt) (hq : ∀ x, Q x → P x) : Inv n0 T m g c Γ Q ρ ρt :=
  fun x hx => h x (hq x hx)

theorem Inv.bind {m g c Γ P ρ ρt s x v v'} (h : Inv n0 T m g c Γ P ρ ρt) (hc : CtxOk n0 m Γ s) (hr : CRel n0 T v v')
    (hx : x < n0) (hgx : g x = false) {Q : Var → Prop} (hq : ∀ y, Q y → y ≠ x → P y) :
    Inv n0 T (m.set x .bound) g c Γ Q (ρ.set x v) (ρt.set x v') := by
  intro y hy
  by_cases hyx : y = x
  · subst hyx
    refine ⟨v, set_self, ?_, fun hg => by rw [hgx] at hg; cases hg⟩
    rw [pset_self]
    exact ⟨v', set_self, hr⟩
  · obtain ⟨w, hw, hi⟩ := h y (hq y hy hyx)
    refine ⟨w, by rw [set_other hyx]; exact hw, hi.congr (pset_other hyx) rfl (set_other hyx) ?_ ?_⟩
    · exact set_other (by have := hc.lo; vomega)
    · intro env he
      exact set_other (by have := (hc.env y env he).1; vomega)

/-! ## Fetching variables -/

theorem getVar_eval {m g c Γ ρt s x v} (hi : VarInv n0 T m g c Γ ρt x v) (hc : CtxOk n0 m Γ s) (hx : x < n0) :
    ∃ ρ1 v', (∀ S call e, evalE S call ((getVar x m g c Γ s).1.2 e) ρt = evalE S call e ρ1) ∧
      ρ1 (getVar x m g c Γ s).1.1 = some v' ∧ CRel n0 T v v' ∧ (∀ z, z < s.next → ρ1 z = ρt z) ∧
      (getVar x m g c Γ s).1.1 < (getVar x m g c Γ s).2.next := by
  have hlo := hc.lo
  have hhi := hc.hi
  unfold getVar
  obtain ⟨h1, h2⟩ := hi
  rcases hmx : m x with _ | (n | env | _) <;> rw [hmx] at h1 <;> dsimp only at h1 ⊢
  · rw [if_pos h1]
    obtain ⟨cf, hcf, hr⟩ := h2 h1
    refine ⟨(ρt.set (s.next + 1) (.constr s.ctag [])).set s.next (.constr cloTag [cf, .constr s.ctag []]), _, ?_,
      set_self, hr _, ?_, ?_⟩
    · intro S call e
      simp only [Comp.record, evalE, getList]
      rw [set_other (show x ≠ s.next + 1 by vomega), hcf, set_self]
    · intro z hz
      rw [set_other (by vomega), set_other (by vomega)]
    · simp only [Comp.record, Comp.bump]; vomega
  · obtain ⟨vs', v', e1, e2, hr⟩ := h1
    refine ⟨ρt.set s.next v', v', ?_, set_self, hr, fun z hz => set_other (by vomega), by simp [Comp.bump]⟩
    intro S call e
    simp only [evalE, e1, if_true, e2]
  · obtain ⟨cf, ev, e1, e2, hr⟩ := h1
    refine ⟨ρt.set s.next (.constr cloTag [cf, ev]), _, ?_, set_self, hr, fun z hz => set_other (by vomega),
      by simp [Comp.bump]⟩
    intro S call e
    simp only [evalE, getList, e1, e2]
  · obtain ⟨v', e1, hr⟩ := h1
    exact ⟨ρt, v', fun _ _ _ => rfl, e1, hr, fun _ _ => rfl, by vomega⟩

theorem getVars_eval {m g c Γ ρ} : ∀ {xs ρt s}, Inv n0 T m g c Γ (· ∈ xs) ρ ρt → CtxOk n0 m Γ s →
    (∀ x ∈ xs, x < n0) → ∃ vs ρ1 vs', getList ρ xs = some vs ∧
      (∀ S call e, evalE S call ((getVars xs m g c Γ s).1.2 e) ρt = evalE S call e ρ1) ∧
      getList ρ1 (getVars xs m g c Γ s).1.1 = some vs' ∧ All2 (CRel n0 T) vs vs' ∧ (∀ z, z < s.next → ρ1 z = ρt z) ∧
      ∀ y ∈ (getVars xs m g c Γ s).1.1, y < (getVars xs m g c Γ s).2.next := by
  intro xs
  induction xs with
  | nil =>
    intro ρt s hi hc hx
    exact ⟨[], ρt, [], rfl, fun _ _ _ => rfl, rfl, .nil, fun _ _ => rfl, fun y hy => by simp [getVars] at hy⟩
  | cons x xs ih =>
    intro ρt s hi hc hx
    obtain ⟨v, hv, hvi⟩ := hi x (by simp)
    obtain ⟨ρ1, v', a1, a2, a3, a4, a5⟩ := getVar_eval hvi hc (hx x (by simp))
    have hle := (getVar_le x m g c Γ s).next
    obtain ⟨vs, ρ2, vs', b0, b1, b2, b3, b4, b5⟩ := ih (ρt := ρ1) (s := (getVar x m g c Γ s).2)
      ((hi.mono (fun y hy => by simp [hy])).agree hc (fun y hy => hx y (by simp [hy])) a4) (hc.le hle)
      (fun y hy => hx y (by simp [hy]))
    refine ⟨v :: vs, ρ2, v' :: vs', by simp only [getList, hv, b0], ?_, ?_, b3.cons a3, ?_, ?_⟩
    · intro S call e
      simp only [getVars]
      rw [a1, b1]
    · simp only [getVars, getList]
      rw [b4 _ a5, a2, b2]
    · intro z hz
      rw [b4 z (by vomega), a4 z hz]
    · intro y hy
      simp only [getVars, List.mem_cons] at hy ⊢
      rcases hy with rfl | hy
      · exact Nat.lt_of_lt_of_le a5 (getVars_le xs m g c Γ _).next
      · exact b5 y hy

/-! ## Calling -/

theorem ccB_names (B0 : Defs) : ∀ (B : Defs) m g c s, (ccB B0 B m g c s).1.names = B.names := by
  intro B
  induction B using Defs.ind with
  | nil => intro m g c s; rfl
  | cons f ft xs e B ih => intro m g c s; simp only [ccB, Defs.names, ih]

theorem ccB_find (B0 : Defs) : ∀ {B : Defs} {f ft xs e} m g c s, findDef f B = some (ft, xs, e) →
    ∃ Γ s1, s.next ≤ Γ ∧ Γ < s1.next ∧ findDef f (ccB B0 B m g c s).1 =
      some (ft, Γ :: xs, ccT e (addParams xs (addClosures B0 m Γ)) g c Γ s1) := by
  intro B
  induction B using Defs.ind with
  | nil => intro f ft xs e m g c s h; simp [findDef] at h
  | cons k kt ys e' B ih =>
    intro f ft xs e m g c s h
    simp only [findDef] at h
    split at h
    · next hf =>
      cases h
      refine ⟨s.next, s.bump, Nat.le_refl _, Nat.lt_succ_self _, ?_⟩
      simp only [ccB, findDef, if_pos hf]
      rfl
    · next hf =>
      obtain ⟨Γ, s1, h1, h2, h3⟩ := ih m g c
        (ccE e' (addParams ys (addClosures B0 m s.next)) g c s.next s.bump).2 h
      refine ⟨Γ, s1, ?_, h2, ?_⟩
      · have := (ccE_le e' (addParams ys (addClosures B0 m s.next)) g c s.next s.bump).next
        have : s.bump.next = s.next + 1 := rfl
        vomega
      · simp only [ccB, findDef, if_neg hf]
        exact h3

theorem OkB.body {g B} (ok : OkB n0 T g B) {f ft xs e} (h : findDef f B = some (ft, xs, e)) (b : Bool)  :
    OkE n0 T (addGFuns B g b) e := by
  have hsub := findDef_bv h
  obtain ⟨p1, p2, p3⟩ := params_of_nodup ok.nodup f ft xs e (mem_of_findDef h)
  refine ⟨((List.sublist_append_right _ _).trans hsub).nodup ok.nodup, ?_, ?_, fun t ht => ok.tags t (findDef_caseTags h t ht)⟩
  · intro x hx
    have hxB := ok.bv x (hsub.subset (by simp [hx]))
    exact ⟨hxB.1, by rw [addGFuns_not_mem (p3 x hx)]; exact hxB.2⟩
  · intro x hx
    rcases fv_body h x hx with h' | h' | h'
    · exact (ok.bv x (hsub.subset (by simp [h']))).1
    · exact (ok.bv x ((names_bv B).subset h')).1
    · exact ok.fv x h'

/-- What a caller of a converted function has to establish. -/
def Ready (n0 : Nat) (T : Tag → Prop) (e : Exp) (ρ ρt : Env) (et : Exp) : Prop :=
  ∃ m g c Γ s, et = ccT e m g c Γ s ∧ OkE n0 T g e ∧ CtxOk n0 m Γ s ∧ Inv n0 T m g c Γ (· ∈ e.fv) ρ ρt

theorem call_sim {ρ : Env} {f ft ys ρ1 e1 v v' vs vs'} (hc : callee ρ f ft ys = some (ρ1, e1)) (hf : ρ f = some v)
    (hys : getList ρ ys = some vs) (hr : CRel n0 T v v') (hrs : All2 (CRel n0 T) vs vs') :
    ∃ cf ev, v' = .constr cloTag [cf, ev] ∧ ∀ (ρt : Env) ptr Γ' ys', ρt ptr = some cf → ρt Γ' = some ev →
      getList ρt ys' = some vs' → ∃ ρt1 et1, callee ρt ptr ft (Γ' :: ys') = some (ρt1, et1) ∧ Ready n0 T e1 ρ1 ρt1 et1 := by
  obtain ⟨ρc, B, f', vs0, xs, a, b, hd, hset⟩ := callee_some hc
  rw [hf] at a; cases a
  rw [hys] at b; cases b
  cases hr with
  | @fn _ ρt0 _ _ ev g c s val cf vse mem ok hs hval hcf hgl hev hlen hfv =>
  refine ⟨_, _, rfl, ?_⟩
  intro ρt ptr Γ' ys' hptr hΓ' hys'
  obtain ⟨Γ, s1, g1, g2, g3⟩ := ccB_find B (fvMap (fvsOf g B)) (addGFuns B g (fvsOf g B).isEmpty) c s hd
  have hbase : ERel (CRel n0 T) (fun _ => False) id (defFuns B B ρc ρc) (defFuns
      (ccB B B (fvMap (fvsOf g B)) (addGFuns B g (fvsOf g B).isEmpty) c s).1
      (ccB B B (fvMap (fvsOf g B)) (addGFuns B g (fvsOf g B).isEmpty) c s).1 ρt0 ρt0) := fun x hx => hx.elim
  obtain ⟨ρt2, hset', hρ2⟩ := hbase.setLists hrs hset
  have hbody := ok.body hd (fvsOf g B).isEmpty
  refine ⟨ρt2.set Γ ev, _, callee_eq hptr (vs := ev :: vs') (by simp only [getList, hΓ', hys']) g3
    (by simp only [setLists, hset']), _, _, _, _, s1, rfl, hbody, ?_, ?_⟩
  · refine ⟨by vomega, g2, ?_⟩
    intro x env hx
    by_cases hxs : x ∈ xs
    · rw [addParams_mem hxs] at hx; cases hx
    · rw [addParams_not_mem hxs] at hx
      by_cases hxB : x ∈ B.names
      · rw [addClosures_mem hxB] at hx; cases hx; vomega
      · rw [addClosures_not_mem hxB] at hx
        by_cases hxf : x ∈ fvsOf g B
        · obtain ⟨i, hi⟩ := List.mem_iff_getElem?.mp hxf
          rw [fvMap, addFvs_nth _ _ _ (fvsOf_nodup g B) i x hi] at hx; cases hx
        · rw [fvMap, addFvs_not_mem _ _ _ _ hxf] at hx; cases hx
  · obtain ⟨p1, p2, p3⟩ := params_of_nodup ok.nodup _ _ _ _ (mem_of_findDef hd)
    intro x hx
    have hxn := hbody.fv x hx
    have hxΓ : x ≠ Γ := by vomega
    by_cases hxs : x ∈ xs
    · obtain ⟨i, hi⟩ := List.mem_iff_getElem?.mp hxs
      have hv1 := setLists_nth hset p1 hi
      have hi2 : i < vs.length := by rw [← setLists_len hset]; exact (List.getElem?_eq_some_iff.mp hi).1
      rw [List.getElem?_eq_getElem hi2] at hv1
      obtain ⟨w, hw, hrw⟩ := hρ2 x (.inl hxs) _ hv1
      refine ⟨_, hv1, ?_, ?_⟩
      · rw [addParams_mem hxs]
        exact ⟨w, by rw [set_other hxΓ]; exact hw, hrw⟩
      · intro hg
        rw [addGFuns_not_mem (p2 x hxs), (ok.bv x ((findDef_bv hd).subset (by simp [hxs]))).2] at hg
        cases hg
    · by_cases hxB : x ∈ B.names
      · have hx1 : ρ1 x = some (.fn ρc B x) := by rw [setLists_not_mem hset x hxs]; exact defFuns_mem hxB
        have hx2 : (ρt2.set Γ ev) x = some (.fn ρt0 (ccB B B (fvMap (fvsOf g B)) (addGFuns B g (fvsOf g B).isEmpty) c s).1 x) := by
          rw [set_other hxΓ, setLists_not_mem hset' x hxs]; exact defFuns_mem (by rw [ccB_names]; exact hxB)
        refine ⟨_, hx1, ?_, ?_⟩
        · rw [addParams_not_mem hxs, addClosures_mem hxB]
          exact ⟨_, ev, hx2, set_self, .fn val cf vse hxB ok hs hval hcf hgl hev hlen hfv⟩
        · intro hg
          refine ⟨_, hx2, fun ce => ?_⟩
          have hnil : fvsOf g B = [] := by
            rw [← List.isEmpty_iff]
            cases hb : (fvsOf g B).isEmpty with
            | true => rfl
            | false =>
              rw [hb, addGFuns_open, (ok.bv x ((names_bv B).subset hxB)).2] at hg
              cases hg
          exact .fn val cf vse hxB ok hs hval hcf hgl (fun h => absurd hnil h) hlen hfv
      · have hxf : x ∈ B.fv := ((fv_body hd x hx).resolve_left hxs).resolve_left hxB
        have hx1 : ρ1 x = some (val x) := by
          rw [setLists_not_mem hset x hxs, defFuns_not_mem hxB]; exact hval x hxf
        have hx2 : (ρt2.set Γ ev) x = ρt0 x := by
          rw [set_other hxΓ, setLists_not_mem hset' x hxs]; exact defFuns_not_mem (by rw [ccB_names]; exact hxB)
        refine ⟨_, hx1, ?_, ?_⟩
        · rw [addParams_not_mem hxs, addClosures_not_mem hxB, addGFuns_not_mem hxB]
          cases hg : g x with
          | true =>
            rw [fvMap, addFvs_not_mem _ _ _ _ (fun h => by rw [(fvsOf_mem.mp h).2] at hg; cases hg)]
            rfl
          | false =>
            have hxm : x ∈ fvsOf g B := fvsOf_mem.mpr ⟨hxf, hg⟩
            obtain ⟨i, hi⟩ := List.mem_iff_getElem?.mp hxm
            rw [fvMap, addFvs_nth _ _ _ (fvsOf_nodup g B) i x hi]
            have hi2 : i < vse.length := by rw [hlen]; exact (List.getElem?_eq_some_iff.mp hi).1
            refine ⟨vse, vse[i], ?_, ?_, hfv i x _ hi (List.getElem?_eq_getElem hi2)⟩
            · rw [set_self, hev (by intro h; rw [h] at hxm; cases hxm)]
            · rw [Nat.zero_add]; exact List.getElem?_eq_getElem hi2
        · intro hg
          rw [addGFuns_not_mem hxB] at hg
          exact ⟨cf x, by rw [hx2]; exact hcf x hxf hg, hgl x hxf hg⟩

/-! ## Evaluation -/

theorem ccBs_tags : ∀ (bs : Brs) m g c Γ s, (ccBs bs m g c Γ s).1.tags = bs.tags := by
  intro bs
  induction bs using Brs.ind with
  | nil => intro m g c Γ s; rfl
  | cons t e bs ih => intro m g c Γ s; simp only [ccBs, Brs.tags, ih]

theorem ccBs_find : ∀ {bs : Brs} {t e} m g c Γ s, findTag t bs = some e →
    ∃ s1, s.next ≤ s1.next ∧ findTag t (ccBs bs m g c Γ s).1 = some (ccT e m g c Γ s1) := by
  intro bs
  induction bs using Brs.ind with
  | nil => intro t e m g c Γ s h; simp [findTag] at h
  | cons t' e' bs ih =>
    intro t e m g c Γ s h
    simp only [findTag] at h
    split at h
    · next ht =>
      cases h
      refine ⟨s, Nat.le_refl _, ?_⟩
      simp only [ccBs, findTag, if_pos ht]; rfl
    · next ht =>
      obtain ⟨s1, h1, h2⟩ := ih m g c Γ (ccE e' m g c Γ s).2 h
      refine ⟨s1, (ccE_le e' m g c Γ s).next.trans h1, ?_⟩
      simp only [ccBs, findTag, if_neg ht]; exact h2

theorem OkE.sub {g e e1 : _} {x : Var} (ok : OkE n0 T g e) (h1 : e.bv = x :: e1.bv) (h2 : ∀ y ∈ e1.fv, y ≠ x → y ∈ e.fv)
    (h3 : e1.caseTags = e.caseTags) : OkE n0 T g e1 ∧ x < n0 ∧ g x = false := by
  have hn := ok.nodup
  have hb := ok.bv
  rw [h1] at hn hb
  refine ⟨⟨(List.nodup_cons.mp hn).2, fun y hy => hb y (by simp [hy]), ?_, by rw [h3]; exact ok.tags⟩, hb x (by simp)⟩
  intro y hy
  by_cases hyx : y = x
  · rw [hyx]; exact (hb x (by simp)).1
  · exact ok.fv y (h2 y hy hyx)

theorem evalE_sim {S S' : Sig} (hS : ∀ t, T t → S'.cenv t = S.cenv t) (hP : S'.prims = S.prims)
    {call call' : Env → Exp → Res}
    (hcall : ∀ e ρ ρt et, Ready n0 T e ρ ρt et → RRel (CRel n0 T) (call ρ e) (call' ρt et)) :
    ∀ (e : Exp) m g c Γ s ρ ρt, OkE n0 T g e → CtxOk n0 m Γ s → Inv n0 T m g c Γ (· ∈ e.fv) ρ ρt →
      RRel (CRel n0 T) (evalE S call e ρ) (evalE S' call' (ccT e m g c Γ s) ρt)
  | .constr x t ys e, m, g, c, Γ, s, ρ, ρt, ok, hc, hi => by
    obtain ⟨ok', hx, hgx⟩ := ok.sub (e1 := e) (x := x) (by simp only [Exp.bv])
      (fun y hy hyx => by simp [Exp.fv, hy, hyx]) (by simp only [Exp.caseTags])
    obtain ⟨vs, ρ1, vs', b0, b1, b2, b3, b4, b5⟩ := getVars_eval (xs := ys)
      (hi.mono (fun y hy => by simp [Exp.fv, hy])) hc (fun y hy => ok.fv y (by simp [Exp.fv, hy]))
    have he : ccT (.constr x t ys e) m g c Γ s = (getVars ys m g c Γ s).1.2 (.constr x t (getVars ys m g c Γ s).1.1
      (ccT e (m.set x .bound) g c Γ (getVars ys m g c Γ s).2)) := rfl
    rw [he, b1]
    simp only [evalE, b0, b2]
    refine evalE_sim hS hP hcall e _ _ _ _ _ _ _ ok' (hc.le (getVars_le ys m g c Γ s).next).bound ?_
    exact (hi.agree hc ok.fv b4).bind hc (.constr b3.1 b3.2) hx hgx (fun y hy hyx => by simp [Exp.fv, hy, hyx])
  | .case y bs, m, g, c, Γ, s, ρ, ρt, ok, hc, hi => by
    obtain ⟨v, hv, hvi⟩ := hi y (by simp [Exp.fv])
    have hle := (ccBs_le bs m g c Γ s).next
    obtain ⟨ρ1, v', a1, a2, a3, a4, a5⟩ := getVar_eval hvi (hc.le hle) (ok.fv y (by simp [Exp.fv]))
    have he : ccT (.case y bs) m g c Γ s = (getVar y m g c Γ (ccBs bs m g c Γ s).2).1.2
      (.case (getVar y m g c Γ (ccBs bs m g c Γ s).2).1.1 (ccBs bs m g c Γ s).1) := rfl
    rw [he, a1]
    simp only [evalE, hv, a2]
    cases a3 with
    | prim => trivial
    | fn => trivial
    | @constr t vs vs' len args =>
      dsimp only
      rw [ccBs_tags]
      cases hcon : consistent S.cenv t bs.tags with
      | false => simp only [Bool.false_eq_true, if_false]; trivial
      | true =>
        simp only [if_true, evalB_findTag]
        rcases hf : findTag t bs with _ | e
        · trivial
        have hTs : ∀ u ∈ bs.tags, S'.cenv u = S.cenv u :=
          fun u hu => hS u (ok.tags u (by simp only [Exp.caseTags]; exact tags_caseTags hu))
        rw [consistent_congr (hTs t (findTag_mem hf)) hTs, hcon, if_pos rfl]
        obtain ⟨s1, h1, h2⟩ := ccBs_find m g c Γ s hf
        rw [h2]
        dsimp only
        have hsz : sizeOf e < sizeOf bs := findTag_sizeOf hf
        have hbv := findTag_bv hf
        refine evalE_sim hS hP hcall e _ _ _ _ _ _ _
          ⟨hbv.nodup ok.nodup, fun z hz => ok.bv z (hbv.subset hz), fun z hz => ok.fv z (by simp [Exp.fv, findTag_fv hf z hz]),
            fun u hu => ok.tags u (findTag_caseTags hf u hu)⟩ (hc.le h1) ?_
        exact (hi.agree hc ok.fv (fun z hz => a4 z (by vomega))).mono (fun z hz => by simp [Exp.fv, findTag_fv hf z hz])
  | .proj x t n y e, m, g, c, Γ, s, ρ, ρt, ok, hc, hi => by
    obtain ⟨ok', hx, hgx⟩ := ok.sub (e1 := e) (x := x) (by simp only [Exp.bv])
      (fun y hy hyx => by simp [Exp.fv, hy, hyx]) (by simp only [Exp.caseTags])
    obtain ⟨v, hv, hvi⟩ := hi y (by simp [Exp.fv])
    obtain ⟨ρ1, v', a1, a2, a3, a4, a5⟩ := getVar_eval hvi hc (ok.fv y (by simp [Exp.fv]))
    have he : ccT (.proj x t n y e) m g c Γ s = (getVar y m g c Γ s).1.2 (.proj x t n (getVar y m g c Γ s).1.1
      (ccT e (m.set x .bound) g c Γ (getVar y m g c Γ s).2)) := rfl
    rw [he, a1]
    simp only [evalE, hv, a2]
    cases a3 with
    | prim => trivial
    | fn => trivial
    | @constr t' vs vs' len args =>
      dsimp only
      split
      · rcases hn : vs[n]? with _ | w
        · trivial
        obtain ⟨w', hw', hrw⟩ := All2.get ⟨len, args⟩ hn
        rw [hw']
        dsimp only
        refine evalE_sim hS hP hcall e _ _ _ _ _ _ _ ok' (hc.le (getVar_le y m g c Γ s).next).bound ?_
        exact (hi.agree hc ok.fv a4).bind hc hrw hx hgx (fun y hy hyx => by simp [Exp.fv, hy, hyx])
      · trivial
  | .letapp x f ft ys e, m, g, c, Γ, s, ρ, ρt, ok, hc, hi => by
    obtain ⟨ok', hx, hgx⟩ := ok.sub (e1 := e) (x := x) (by simp only [Exp.bv])
      (fun y hy hyx => by simp [Exp.fv, hy, hyx]) (by simp only [Exp.caseTags])
    obtain ⟨v, hv, hvi⟩ := hi f (by simp [Exp.fv])
    obtain ⟨ρ1, v', a1, a2, a3, a4, a5⟩ := getVar_eval hvi hc (ok.fv f (by simp [Exp.fv]))
    have hle1 := (getVar_le f m g c Γ s).next
    have hi1 := hi.agree hc ok.fv a4
    obtain ⟨vs, ρ2, vs', b0, b1, b2, b3, b4, b5⟩ := getVars_eval (xs := ys) (s := (getVar f m g c Γ s).2)
      (hi1.mono (fun y hy => by simp [Exp.fv, hy])) (hc.le hle1) (fun y hy => ok.fv y (by simp [Exp.fv, hy]))
    have hle2 := (getVars_le ys m g c Γ (getVar f m g c Γ s).2).next
    generalize hs2 : (getVars ys m g c Γ (getVar f m g c Γ s).2).2 = s2 at *
    generalize hys2 : (getVars ys m g c Γ (getVar f m g c Γ s).2).1.1 = ys2 at *
    generalize hf2 : (getVar f m g c Γ s).1.1 = f2 at *
    have he : ccT (.letapp x f ft ys e) m g c Γ s = (getVar f m g c Γ s).1.2
      ((getVars ys m g c Γ (getVar f m g c Γ s).2).1.2 (.proj s2.next cloTag 0 f2 (.proj (s2.next + 1) cloTag 1 f2
        (.letapp x s2.next ft ((s2.next + 1) :: ys2) (ccT e (m.set x .bound) g c Γ s2.bump.bump))))) := by
      rw [← hf2, ← hys2, ← hs2]; rfl
    rw [he, a1, b1]
    simp only [evalE]
    rcases hcal : callee ρ f ft ys with _ | ⟨ρc, ec⟩
    · trivial
    obtain ⟨cf, ev, rfl, hready⟩ := call_sim hcal hv b0 a3 b3
    have hf2v : ρ2 f2 = some (.constr cloTag [cf, ev]) := by rw [b4 f2 a5]; exact a2
    rw [hf2v]
    dsimp only
    rw [if_pos rfl]
    simp only [List.getElem?_cons_zero, List.getElem?_cons_succ]
    rw [set_other (show f2 ≠ s2.next by vomega), hf2v]
    dsimp only
    rw [if_pos rfl]
    obtain ⟨ρt1, et1, h1, h2⟩ := hready ((ρ2.set s2.next cf).set (s2.next + 1) ev)
      s2.next (s2.next + 1) ys2 (by rw [set_other (by vomega), set_self]) set_self (by
      rw [← b2]
      refine getList_congr (fun y hy => ?_)
      have := b5 y hy
      rw [set_other (by vomega), set_other (by vomega)])
    rw [show [cf, ev][1]? = some ev from rfl]
    dsimp only
    rw [h1]
    dsimp only
    have hb := hcall _ _ _ _ h2
    rcases hr : call ρc ec with w | _ | _ <;> rcases hr' : call' ρt1 et1 with w' | _ | _ <;>
      rw [hr, hr'] at hb <;> try (first | trivial | exact hb.elim)
    refine evalE_sim hS hP hcall e _ _ _ _ _ _ _ ok' (hc.le (show s.next ≤ s2.bump.bump.next by
      simp only [Comp.bump]; vomega)).bound ?_
    refine (hi1.agree hc ok.fv (fun z hz => ?_)).bind hc hb hx hgx (fun y hy hyx => by simp [Exp.fv, hy, hyx])
    rw [set_other (by vomega), set_other (by vomega)]
    exact b4 z (by vomega)
  | .fn B e, m, g, c, Γ, s, ρ, ρt, ok, hc, hi => by
    have hlo := hc.lo
    have hhi := hc.hi
    have hfvB : ∀ x ∈ B.fv, x ∈ (Exp.fn B e).fv := by
      intro z hz
      simp only [Defs.fv, Finset.mem_sdiff] at hz
      simp only [Exp.fv, Finset.mem_sdiff, Finset.mem_union]
      exact ⟨.inl hz.1, hz.2⟩
    have hnd := ok.nodup
    simp only [Exp.bv, List.nodup_append] at hnd
    have hbvm : ∀ x ∈ B.bv, x ∈ (Exp.fn B e).bv := fun x hx => by simp [Exp.bv, hx]
    have okB : OkB n0 T g B := ⟨hnd.1, fun x hx => ok.bv x (hbvm x hx), fun x hx => ok.fv x (hfvB x hx),
      fun t ht => ok.tags t (by simp [Exp.caseTags, ht])⟩
    have hcb : CtxOk n0 m Γ s.bump := hc.le (Nat.le_succ _)
    obtain ⟨vs, ρ1, vs', b0, b1, b2, b3, b4, b5⟩ := getVars_eval (xs := fvsOf g B) (s := s.bump)
      (hi.mono (fun y hy => hfvB y (fvsOf_mem.mp hy).1)) hcb (fun y hy => okB.fv y (fvsOf_mem.mp hy).1)
    generalize hs1 : (getVars (fvsOf g B) m g c Γ s.bump).2 = s1 at *
    generalize hg' : addGFuns B g (fvsOf g B).isEmpty = g'
    generalize hs2 : s1.record (addFvs (fvsOf g B) 0 PMap.empty).2 = s2
    generalize hB' : ccB B B (fvMap (fvsOf g B)) g' s1.ctag s2 = B'
    have hle1 : s.bump.next ≤ s1.next := by rw [← hs1]; exact (getVars_le (fvsOf g B) m g c Γ s.bump).next
    have hle2 : s1.next ≤ s2.next := by rw [← hs2]; exact Nat.le_refl _
    have hle3 : s2.next ≤ B'.2.next := by rw [← hB']; exact (ccB_le B B _ _ _ _).next
    have hbump : s.bump.next = s.next + 1 := rfl
    have he : ccT (.fn B e) m g c Γ s = (getVars (fvsOf g B) m g c Γ s.bump).1.2
      (.constr s.next s1.ctag (getVars (fvsOf g B) m g c Γ s.bump).1.1
        (.fn B'.1 (ccT e (addClosures B m s.next) g' c Γ B'.2))) := by
      rw [← hB', ← hs2, ← hs1, ← hg']; rfl
    rw [he, b1]
    simp only [evalE, b2]
    generalize hρ2 : ρ1.set s.next (.constr s1.ctag vs') = ρ2
    have ag2 : ∀ z, z < s.next → ρ2 z = ρt z := by
      intro z hz
      rw [← hρ2, set_other (by vomega)]
      exact b4 z (by vomega)
    have hnames : B'.1.names = B.names := by rw [← hB', ccB_names]
    have hnlt : ∀ z, n0 ≤ z → z ∉ B.names := by
      intro z hz hzB
      have := (ok.bv z (hbvm z ((names_bv B).subset hzB))).1
      vomega
    have hgl : ∀ x ∈ B.fv, g x = true → ∃ v, ρ x = some v ∧ ∃ cf, ρ2 x = some cf ∧
        ∀ ce, CRel n0 T v (.constr cloTag [cf, .constr ce []]) := by
      intro x hx hg
      obtain ⟨v, hv, _, hv2⟩ := hi x (hfvB x hx)
      obtain ⟨cf, h1, h2⟩ := hv2 hg
      exact ⟨v, hv, cf, by rw [ag2 x (by have := okB.fv x hx; vomega)]; exact h1, h2⟩
    have mk : ∀ f ∈ B.names, ∀ ev, (fvsOf g B ≠ [] → ev = .constr s1.ctag vs') →
        CRel n0 T (.fn ρ B f) (.constr cloTag [.fn ρ2 B'.1 f, ev]) := by
      intro f hf ev hev
      rw [← hB', ← hg']
      refine .fn (fun x => (ρ x).getD (.prim (.int 0))) (fun x => (ρ2 x).getD (.prim (.int 0))) vs' hf okB (by vomega)
        ?_ ?_ ?_ hev ?_ ?_
      · intro x hx
        obtain ⟨v, hv, _⟩ := hi x (hfvB x hx)
        rw [hv]; rfl
      · intro x hx hg
        obtain ⟨v, hv, cf, h1, h2⟩ := hgl x hx hg
        rw [h1]; rfl
      · intro x hx hg ce
        obtain ⟨v, hv, cf, h1, h2⟩ := hgl x hx hg
        rw [hv, h1]; exact h2 ce
      · rw [← b3.1]; exact (getList_length b0)
      · intro i x v' hx hv'
        have h1 := getList_nth b0 hx
        obtain ⟨w, hw⟩ : ∃ w, vs[i]? = some w := by
          have : i < vs.length := by rw [b3.1]; exact (List.getElem?_eq_some_iff.mp hv').1
          exact ⟨_, List.getElem?_eq_getElem this⟩
        rw [hw] at h1
        rw [h1]
        exact b3.2 i w v' hw hv'
    refine evalE_sim hS hP hcall e _ _ _ _ _ _ _ ⟨hnd.2.1, ?_, ?_, fun t ht => ok.tags t (by simp [Exp.caseTags, ht])⟩
      ⟨hc.lo, by vomega, ?_⟩ ?_
    · intro x hx
      have := ok.bv x (by simp [Exp.bv, hx])
      refine ⟨this.1, ?_⟩
      rw [← hg', addGFuns_not_mem]
      · exact this.2
      · intro hxB; exact hnd.2.2 x ((names_bv B).subset hxB) x hx rfl
    · intro x hx
      by_cases hxB : x ∈ B.names
      · exact (ok.bv x (hbvm x ((names_bv B).subset hxB))).1
      · exact ok.fv x (by simp [Exp.fv, hx, hxB])
    · intro x env hx
      by_cases hxB : x ∈ B.names
      · rw [addClosures_mem hxB] at hx; cases hx; vomega
      · rw [addClosures_not_mem hxB] at hx
        have := hc.env x env hx
        vomega
    · intro x hx
      by_cases hxB : x ∈ B.names
      · have hx2 : defFuns B'.1 B'.1 ρ2 ρ2 x = some (.fn ρ2 B'.1 x) := defFuns_mem (by rw [hnames]; exact hxB)
        refine ⟨_, defFuns_mem hxB, ?_, ?_⟩
        · rw [addClosures_mem hxB]
          refine ⟨_, .constr s1.ctag vs', hx2, ?_, mk x hxB _ (fun _ => rfl)⟩
          rw [defFuns_not_mem (by rw [hnames]; exact hnlt _ (by vomega)), ← hρ2]
          exact set_self
        · intro hg
          refine ⟨_, hx2, fun ce => mk x hxB _ (fun hne => ?_)⟩
          exfalso
          apply hne
          rw [← List.isEmpty_iff]
          cases hb : (fvsOf g B).isEmpty with
          | true => rfl
          | false =>
            rw [← hg', hb, addGFuns_open, (okB.bv x ((names_bv B).subset hxB)).2] at hg
            cases hg
      · obtain ⟨v, hv, hvi⟩ := hi x (by simp [Exp.fv, hx, hxB])
        refine ⟨v, by rw [defFuns_not_mem hxB]; exact hv, hvi.congr (addClosures_not_mem hxB)
          (by rw [← hg']; exact addGFuns_not_mem hxB) ?_ ?_ ?_⟩
        · rw [defFuns_not_mem (by rw [hnames]; exact hxB)]
          exact ag2 x (by have := ok.fv x (by simp [Exp.fv, hx, hxB]); vomega)
        · rw [defFuns_not_mem (by rw [hnames]; exact hnlt _ hc.lo)]
          exact ag2 Γ hc.hi
        · intro env hen
          have := hc.env x env hen
          rw [defFuns_not_mem (by rw [hnames]; exact hnlt _ this.1)]
          exact ag2 env this.2
  | .app f ft ys, m, g, c, Γ, s, ρ, ρt, ok, hc, hi => by
    obtain ⟨v, hv, hvi⟩ := hi f (by simp [Exp.fv])
    obtain ⟨ρ1, v', a1, a2, a3, a4, a5⟩ := getVar_eval hvi hc (ok.fv f (by simp [Exp.fv]))
    have hle1 := (getVar_le f m g c Γ s).next
    have hi1 := hi.agree hc ok.fv a4
    obtain ⟨vs, ρ2, vs', b0, b1, b2, b3, b4, b5⟩ := getVars_eval (xs := ys) (s := (getVar f m g c Γ s).2)
      (hi1.mono (fun y hy => by simp [Exp.fv, hy])) (hc.le hle1) (fun y hy => ok.fv y (by simp [Exp.fv, hy]))
    have hle2 := (getVars_le ys m g c Γ (getVar f m g c Γ s).2).next
    generalize hs2 : (getVars ys m g c Γ (getVar f m g c Γ s).2).2 = s2 at *
    generalize hys2 : (getVars ys m g c Γ (getVar f m g c Γ s).2).1.1 = ys2 at *
    generalize hf2 : (getVar f m g c Γ s).1.1 = f2 at *
    have he : ccT (.app f ft ys) m g c Γ s = (getVar f m g c Γ s).1.2
      ((getVars ys m g c Γ (getVar f m g c Γ s).2).1.2 (.proj s2.next cloTag 0 f2 (.proj (s2.next + 1) cloTag 1 f2
        (.app s2.next ft ((s2.next + 1) :: ys2))))) := by
      rw [← hf2, ← hys2, ← hs2]; rfl
    rw [he, a1, b1]
    simp only [evalE]
    rcases hcal : callee ρ f ft ys with _ | ⟨ρc, ec⟩
    · trivial
    obtain ⟨cf, ev, rfl, hready⟩ := call_sim hcal hv b0 a3 b3
    have hf2v : ρ2 f2 = some (.constr cloTag [cf, ev]) := by rw [b4 f2 a5]; exact a2
    rw [hf2v]
    dsimp only
    rw [if_pos rfl]
    simp only [List.getElem?_cons_zero, List.getElem?_cons_succ]
    rw [set_other (show f2 ≠ s2.next by vomega), hf2v]
    dsimp only
    rw [if_pos rfl]
    obtain ⟨ρt1, et1, h1, h2⟩ := hready ((ρ2.set s2.next cf).set (s2.next + 1) ev)
      s2.next (s2.next + 1) ys2 (by rw [set_other (by vomega), set_self]) set_self (by
      rw [← b2]
      refine getList_congr (fun y hy => ?_)
      have := b5 y hy
      rw [set_other (by vomega), set_other (by vomega)])
    rw [show [cf, ev][1]? = some ev from rfl]
    dsimp only
    rw [h1]
    exact hcall _ _ _ _ h2
  | .primVal x p e, m, g, c, Γ, s, ρ, ρt, ok, hc, hi => by
    obtain ⟨ok', hx, hgx⟩ := ok.sub (e1 := e) (x := x) (by simp only [Exp.bv])
      (fun y hy hyx => by simp [Exp.fv, hy, hyx]) (by simp only [Exp.caseTags])
    have he : ccT (.primVal x p e) m g c Γ s = .primVal x p (ccT e (m.set x .bound) g c Γ s) := rfl
    rw [he]
    simp only [evalE]
    refine evalE_sim hS hP hcall e _ _ _ _ _ _ _ ok' hc.bound ?_
    exact hi.bind hc .prim hx hgx (fun y hy hyx => by simp [Exp.fv, hy, hyx])
  | .prim x p ys e, m, g, c, Γ, s, ρ, ρt, ok, hc, hi => by
    obtain ⟨ok', hx, hgx⟩ := ok.sub (e1 := e) (x := x) (by simp only [Exp.bv])
      (fun y hy hyx => by simp [Exp.fv, hy, hyx]) (by simp only [Exp.caseTags])
    obtain ⟨vs, ρ1, vs', b0, b1, b2, b3, b4, b5⟩ := getVars_eval (xs := ys)
      (hi.mono (fun y hy => by simp [Exp.fv, hy])) hc (fun y hy => ok.fv y (by simp [Exp.fv, hy]))
    have he : ccT (.prim x p ys e) m g c Γ s = (getVars ys m g c Γ s).1.2 (.prim x p (getVars ys m g c Γ s).1.1
      (ccT e (m.set x .bound) g c Γ (getVars ys m g c Γ s).2)) := rfl
    rw [he, b1]
    simp only [evalE, b0, b2]
    rcases ho : S.op p vs with _ | v
    · trivial
    obtain ⟨ho', d, rfl⟩ := op_rel (R := CRel n0 T) (fun p v h => by cases h; rfl) b3 ho
    have ho2 : S'.op p vs' = some d.toVal := by
      rw [← ho']; unfold Sig.op; rw [hP]
    rw [ho2]
    have hd : CRel n0 T d.toVal d.toVal := toVal_refl (fun _ => .prim) (fun _ _ _ h => .constr h.1 h.2) d
    refine evalE_sim hS hP hcall e _ _ _ _ _ _ _ ok' (hc.le (getVars_le ys m g c Γ s).next).bound ?_
    exact (hi.agree hc ok.fv b4).bind hc hd hx hgx (fun y hy hyx => by simp [Exp.fv, hy, hyx])
  | .halt x, m, g, c, Γ, s, ρ, ρt, ok, hc, hi => by
    obtain ⟨v, hv, hvi⟩ := hi x (by simp [Exp.fv])
    obtain ⟨ρ1, v', a1, a2, a3, a4, a5⟩ := getVar_eval hvi hc (ok.fv x (by simp [Exp.fv]))
    have he : ccT (.halt x) m g c Γ s = (getVar x m g c Γ s).1.2 (.halt (getVar x m g c Γ s).1.1) := rfl
    rw [he, a1]
    simp only [evalE, hv, a2]
    exact a3
termination_by e => sizeOf e

theorem run_sim {S S' : Sig} (hS : ∀ t, T t → S'.cenv t = S.cenv t) (hP : S'.prims = S.prims) :
    ∀ n e ρ ρt et, Ready n0 T e ρ ρt et → RRel (CRel n0 T) (run S n ρ e) (run S' n ρt et)
  | 0, e, ρ, ρt, et, ⟨m, g, c, Γ, s, he, ok, hc, hi⟩ => by
    subst he
    exact evalE_sim hS hP (call := fun _ _ => .oot) (call' := fun _ _ => .oot) (fun _ _ _ _ _ => trivial) e m g c Γ s ρ ρt ok hc hi
  | n + 1, e, ρ, ρt, et, ⟨m, g, c, Γ, s, he, ok, hc, hi⟩ => by
    subst he
    exact evalE_sim hS hP (run_sim hS hP n) e m g c Γ s ρ ρt ok hc hi

end
end Cc
end ANF
