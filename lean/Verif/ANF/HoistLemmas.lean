import Verif.ANF.HoistModel
import Verif.ANF.HoistSpec
import Verif.ANF.Util

/-! # Hoisting: lemmas -/

namespace ANF

mutual
/-- The term without its function definitions. -/
def erE : Exp → Exp
  | .constr x t ys e => .constr x t ys (erE e)
  | .case x bs => .case x (erBs bs)
  | .proj x t n y e => .proj x t n y (erE e)
  | .letapp x f ft ys e => .letapp x f ft ys (erE e)
  | .fn _ e => erE e
  | .app f ft ys => .app f ft ys
  | .primVal x p e => .primVal x p (erE e)
  | .prim x p ys e => .prim x p ys (erE e)
  | .halt x => .halt x
def erBs : Brs → Brs
  | .nil => .nil
  | .cons t e bs => .cons t (erE e) (erBs bs)
end

mutual
/-- The hoisted definitions, in front of an accumulator. -/
def accE : Exp → Defs → Defs
  | .constr _ _ _ e, d => accE e d
  | .case _ bs, d => accBs bs d
  | .proj _ _ _ _ e, d => accE e d
  | .letapp _ _ _ _ e, d => accE e d
  | .fn B e, d => accB B (accE e d)
  | .app _ _ _, d => d
  | .primVal _ _ e, d => accE e d
  | .prim _ _ _ e, d => accE e d
  | .halt _, d => d
def accBs : Brs → Defs → Defs
  | .nil, d => d
  | .cons _ e bs, d => accE e (accBs bs d)
def accB : Defs → Defs → Defs
  | .nil, d => d
  | .cons g t xs e B, d => .cons g t xs (erE e) (accE e (accB B d))
end

mutual
/-- The counter. -/
def cntE : Exp → Nat
  | .constr _ _ _ e => cntE e
  | .case _ bs => cntBs bs
  | .proj _ _ _ _ e => cntE e
  | .letapp _ _ _ _ e => cntE e
  | .fn B e => 1 + max (cntE e) (cntB B)
  | .app _ _ _ => 0
  | .primVal _ _ e => cntE e
  | .prim _ _ _ e => cntE e
  | .halt _ => 0
def cntBs : Brs → Nat
  | .nil => 0
  | .cons _ e bs => max (cntBs bs) (cntE e)
def cntB : Defs → Nat
  | .nil => 0
  | .cons _ _ _ e B => max (cntB B) (cntE e)
end

mutual
theorem eraseE_eq : ∀ e d k, eraseE e d k = k (erE e, accE e d, cntE e)
  | .constr x t ys e, d, k => by simp only [eraseE, eraseE_eq e, erE, accE, cntE]
  | .case x bs, d, k => by simp only [eraseE, eraseBs_eq x bs, erE, accE, cntE]
  | .proj x t n y e, d, k => by simp only [eraseE, eraseE_eq e, erE, accE, cntE]
  | .letapp x f ft ys e, d, k => by simp only [eraseE, eraseE_eq e, erE, accE, cntE]
  | .fn B e, d, k => by simp only [eraseE, eraseE_eq e, eraseNested_eq B, erE, accE, cntE]
  | .app f ft ys, d, k => by simp only [eraseE, erE, accE, cntE]
  | .primVal x p e, d, k => by simp only [eraseE, eraseE_eq e, erE, accE, cntE]
  | .prim x p ys e, d, k => by simp only [eraseE, eraseE_eq e, erE, accE, cntE]
  | .halt x, d, k => by simp only [eraseE, erE, accE, cntE]
theorem eraseBs_eq (x : Var) : ∀ bs d k, eraseBs x bs k (.case x .nil, d, 0) = k (.case x (erBs bs), accBs bs d, cntBs bs)
  | .nil, d, k => by simp only [eraseBs, erBs, accBs, cntBs]
  | .cons t e bs, d, k => by
    simp only [eraseBs]
    rw [eraseBs_eq x bs]
    simp only [eraseE_eq e, erBs, accBs, cntBs]
theorem eraseNested_eq : ∀ B e d k, eraseNested B e d k = k (e, accB B d, cntB B)
  | .nil, e, d, k => by simp only [eraseNested, accB, cntB]
  | .cons g t xs e' B, e, d, k => by simp only [eraseNested, eraseNested_eq B, eraseE_eq e', accB, cntB]
end

theorem hoist_eq (e : Exp) : hoist e = match accE e .nil with
    | .nil => erE e
    | d => .fn d (erE e) := by
  unfold hoist
  rw [eraseE_eq]
  simp only [id]
  cases accE e .nil <;> rfl

/-! ## The output is flat -/

mutual
theorem erE_noFn : ∀ e, (erE e).NoFn
  | .constr x t ys e => by simp only [erE, Exp.NoFn]; exact erE_noFn e
  | .case x bs => by simp only [erE, Exp.NoFn]; exact erBs_noFn bs
  | .proj x t n y e => by simp only [erE, Exp.NoFn]; exact erE_noFn e
  | .letapp x f ft ys e => by simp only [erE, Exp.NoFn]; exact erE_noFn e
  | .fn B e => by simp only [erE]; exact erE_noFn e
  | .app f ft ys => by simp only [erE, Exp.NoFn]
  | .primVal x p e => by simp only [erE, Exp.NoFn]; exact erE_noFn e
  | .prim x p ys e => by simp only [erE, Exp.NoFn]; exact erE_noFn e
  | .halt x => by simp only [erE, Exp.NoFn]
theorem erBs_noFn : ∀ bs, (erBs bs).NoFn
  | .nil => by simp only [erBs, Brs.NoFn]
  | .cons t e bs => by simp only [erBs, Brs.NoFn]; exact ⟨erE_noFn e, erBs_noFn bs⟩
end

mutual
theorem accE_noFn : ∀ e d, d.NoFn → (accE e d).NoFn
  | .constr x t ys e, d, h => by simp only [accE]; exact accE_noFn e d h
  | .case x bs, d, h => by simp only [accE]; exact accBs_noFn bs d h
  | .proj x t n y e, d, h => by simp only [accE]; exact accE_noFn e d h
  | .letapp x f ft ys e, d, h => by simp only [accE]; exact accE_noFn e d h
  | .fn B e, d, h => by simp only [accE]; exact accB_noFn B _ (accE_noFn e d h)
  | .app f ft ys, d, h => by simp only [accE]; exact h
  | .primVal x p e, d, h => by simp only [accE]; exact accE_noFn e d h
  | .prim x p ys e, d, h => by simp only [accE]; exact accE_noFn e d h
  | .halt x, d, h => by simp only [accE]; exact h
theorem accBs_noFn : ∀ bs d, d.NoFn → (accBs bs d).NoFn
  | .nil, d, h => by simp only [accBs]; exact h
  | .cons t e bs, d, h => by simp only [accBs]; exact accE_noFn e _ (accBs_noFn bs d h)
theorem accB_noFn : ∀ B d, d.NoFn → (accB B d).NoFn
  | .nil, d, h => by simp only [accB]; exact h
  | .cons g t xs e B, d, h => by
    simp only [accB, Defs.NoFn]; exact ⟨erE_noFn e, accE_noFn e _ (accB_noFn B d h)⟩
end

theorem hoisted_of_noFn {e : Exp} (h : e.NoFn) : Hoisted e := by
  cases e <;> simp_all [Hoisted, Exp.NoFn]

theorem hoist_hoisted (e : Exp) : Hoisted (hoist e) := by
  rw [hoist_eq]
  have h := accE_noFn e .nil trivial
  cases hd : accE e .nil with
  | nil => exact hoisted_of_noFn (erE_noFn e)
  | cons => rw [hd] at h; exact ⟨h, erE_noFn e⟩

/-! ## Names -/

mutual
/-- The binders that are not function names. -/
def lvE : Exp → List Var
  | .constr x _ _ e => x :: lvE e
  | .case _ bs => lvBs bs
  | .proj x _ _ _ e => x :: lvE e
  | .letapp x _ _ _ e => x :: lvE e
  | .fn B e => lvB B ++ lvE e
  | .app _ _ _ => []
  | .primVal x _ e => x :: lvE e
  | .prim x _ _ e => x :: lvE e
  | .halt _ => []
def lvBs : Brs → List Var
  | .nil => []
  | .cons _ e bs => lvE e ++ lvBs bs
def lvB : Defs → List Var
  | .nil => []
  | .cons _ _ xs e B => xs ++ (lvE e ++ lvB B)
end

theorem perm_mix {a b c d e f : List Var} (h1 : a.Perm (b ++ c)) (h2 : d.Perm (e ++ f)) :
    (a ++ d).Perm ((b ++ e) ++ (c ++ f)) := by
  refine (h1.append h2).trans ?_
  rw [List.append_assoc, List.append_assoc]
  refine List.Perm.append_left b ?_
  rw [← List.append_assoc, ← List.append_assoc]
  exact List.Perm.append_right f List.perm_append_comm

theorem perm_consR {a b c : List Var} {x : Var} (h : a.Perm (b ++ c)) : (x :: a).Perm (b ++ x :: c) :=
  (h.cons x).trans List.perm_middle.symm

mutual
theorem bv_perm : ∀ e : Exp, e.bv.Perm (fnE e ++ lvE e)
  | .constr x t ys e => by simp only [Exp.bv, fnE, lvE]; exact perm_consR (bv_perm e)
  | .case x bs => by simp only [Exp.bv, fnE, lvE]; exact bvBs_perm bs
  | .proj x t n y e => by simp only [Exp.bv, fnE, lvE]; exact perm_consR (bv_perm e)
  | .letapp x f ft ys e => by simp only [Exp.bv, fnE, lvE]; exact perm_consR (bv_perm e)
  | .fn B e => by simp only [Exp.bv, fnE, lvE]; exact perm_mix (bvB_perm B) (bv_perm e)
  | .app f ft ys => by simp only [Exp.bv, fnE, lvE]; exact List.Perm.refl _
  | .primVal x p e => by simp only [Exp.bv, fnE, lvE]; exact perm_consR (bv_perm e)
  | .prim x p ys e => by simp only [Exp.bv, fnE, lvE]; exact perm_consR (bv_perm e)
  | .halt x => by simp only [Exp.bv, fnE, lvE]; exact List.Perm.refl _
theorem bvBs_perm : ∀ bs : Brs, bs.bv.Perm (fnBs bs ++ lvBs bs)
  | .nil => by simp only [Brs.bv, fnBs, lvBs]; exact List.Perm.refl _
  | .cons t e bs => by simp only [Brs.bv, fnBs, lvBs]; exact perm_mix (bv_perm e) (bvBs_perm bs)
theorem bvB_perm : ∀ B : Defs, B.bv.Perm (fnB B ++ lvB B)
  | .nil => by simp only [Defs.bv, fnB, lvB]; exact List.Perm.refl _
  | .cons f t xs e B => by
    simp only [Defs.bv, fnB, lvB, List.cons_append]
    exact (perm_mix (a := xs) (b := []) (c := xs) (List.Perm.refl _) (perm_mix (bv_perm e) (bvB_perm B))).cons f
end

mutual
theorem accE_names : ∀ e d, (accE e d).names = fnE e ++ d.names
  | .constr x t ys e, d => by simp only [accE, fnE, accE_names e]
  | .case x bs, d => by simp only [accE, fnE, accBs_names bs]
  | .proj x t n y e, d => by simp only [accE, fnE, accE_names e]
  | .letapp x f ft ys e, d => by simp only [accE, fnE, accE_names e]
  | .fn B e, d => by simp only [accE, fnE, accE_names e, accB_names B, List.append_assoc]
  | .app f ft ys, d => by simp only [accE, fnE, List.nil_append]
  | .primVal x p e, d => by simp only [accE, fnE, accE_names e]
  | .prim x p ys e, d => by simp only [accE, fnE, accE_names e]
  | .halt x, d => by simp only [accE, fnE, List.nil_append]
theorem accBs_names : ∀ bs d, (accBs bs d).names = fnBs bs ++ d.names
  | .nil, d => by simp only [accBs, fnBs, List.nil_append]
  | .cons t e bs, d => by simp only [accBs, fnBs, accE_names e, accBs_names bs, List.append_assoc]
theorem accB_names : ∀ B d, (accB B d).names = fnB B ++ d.names
  | .nil, d => by simp only [accB, fnB, List.nil_append]
  | .cons g t xs e B, d => by
    simp only [accB, fnB, Defs.names, accE_names e, accB_names B, List.append_assoc, List.cons_append]
end

mutual
theorem accE_toList : ∀ e d, (accE e d).toList = (accE e .nil).toList ++ d.toList
  | .constr x t ys e, d => by simp only [accE]; exact accE_toList e d
  | .case x bs, d => by simp only [accE]; exact accBs_toList bs d
  | .proj x t n y e, d => by simp only [accE]; exact accE_toList e d
  | .letapp x f ft ys e, d => by simp only [accE]; exact accE_toList e d
  | .fn B e, d => by
    simp only [accE]; rw [accB_toList B, accB_toList B (accE e .nil), accE_toList e d, List.append_assoc]
  | .app f ft ys, d => by simp only [accE, Defs.toList, List.nil_append]
  | .primVal x p e, d => by simp only [accE]; exact accE_toList e d
  | .prim x p ys e, d => by simp only [accE]; exact accE_toList e d
  | .halt x, d => by simp only [accE, Defs.toList, List.nil_append]
theorem accBs_toList : ∀ bs d, (accBs bs d).toList = (accBs bs .nil).toList ++ d.toList
  | .nil, d => by simp only [accBs, Defs.toList, List.nil_append]
  | .cons t e bs, d => by
    simp only [accBs]; rw [accE_toList e, accE_toList e (accBs bs .nil), accBs_toList bs d, List.append_assoc]
theorem accB_toList : ∀ B d, (accB B d).toList = (accB B .nil).toList ++ d.toList
  | .nil, d => by simp only [accB, Defs.toList, List.nil_append]
  | .cons g t xs e B, d => by
    simp only [accB, Defs.toList]
    rw [accE_toList e, accE_toList e (accB B .nil), accB_toList B d, List.cons_append, List.append_assoc]
end

/-! ## The simulation -/

section sim
variable (S : Sig) (G : Defs)

mutual
/-- The part of a program the simulation needs to know about: definitions are in `G`, binders are not names of `G`,
free variables of bundles are. -/
def OkE : Exp → Prop
  | .constr x _ _ e => x ∉ G.names ∧ OkE e
  | .case _ bs => OkBs bs
  | .proj x _ _ _ e => x ∉ G.names ∧ OkE e
  | .letapp x _ _ _ e => x ∉ G.names ∧ OkE e
  | .fn B e => (∀ x ∈ B.fv, x ∈ G.names) ∧ OkB B ∧ OkE e
  | .app _ _ _ => True
  | .primVal x _ e => x ∉ G.names ∧ OkE e
  | .prim x _ _ e => x ∉ G.names ∧ OkE e
  | .halt _ => True
def OkBs : Brs → Prop
  | .nil => True
  | .cons _ e bs => OkE e ∧ OkBs bs
def OkB : Defs → Prop
  | .nil => True
  | .cons f ft xs e B => findDef f G = some (ft, xs, erE e) ∧ (∀ x ∈ xs, x ∉ G.names) ∧ OkE e ∧ OkB B
end

theorem okB_find : ∀ {B f ft xs e}, OkB G B → findDef f B = some (ft, xs, e) →
    findDef f G = some (ft, xs, erE e) ∧ (∀ x ∈ xs, x ∉ G.names) ∧ OkE G e := by
  intro B
  induction B using Defs.ind with
  | nil => intro f ft xs e _ h; simp [findDef] at h
  | cons g gt ys e' B ih =>
    intro f ft xs e h hf
    simp only [OkB] at h
    simp only [findDef] at hf
    split at hf
    · next hfg => cases hf; subst hfg; exact ⟨h.1, h.2.1, h.2.2.1⟩
    · exact ih h.2.2.2 hf

theorem okBs_find : ∀ {bs t e}, OkBs G bs → findTag t bs = some e → OkE G e ∧ findTag t (erBs bs) = some (erE e) ∧
    ∀ x ∈ e.fv, x ∈ bs.fv := by
  intro bs
  induction bs using Brs.ind with
  | nil => intro t e _ h; simp [findTag] at h
  | cons t' e' bs ih =>
    intro t e h hf
    simp only [OkBs] at h
    simp only [findTag, erBs, Brs.fv, Finset.mem_union] at hf ⊢
    split at hf
    · next ht => cases hf; rw [if_pos ht]; exact ⟨h.1, rfl, fun x hx => .inl hx⟩
    · next ht =>
      rw [if_neg ht]
      obtain ⟨a, b, c⟩ := ih h.2 hf
      exact ⟨a, b, fun x hx => .inr (c x hx)⟩

theorem erBs_tags : ∀ bs, (erBs bs).tags = bs.tags := by
  intro bs
  induction bs using Brs.ind with
  | nil => rfl
  | cons t e bs ih => simp only [erBs, Brs.tags, ih]

/-- Source and target values. -/
inductive HRel : Val → Val → Prop
  | constr {t : Tag} {vs vs' : List Val} (len : vs.length = vs'.length)
      (args : ∀ (i : Nat) v v', vs[i]? = some v → vs'[i]? = some v' → HRel v v') : HRel (.constr t vs) (.constr t vs')
  | prim {p : PVal} : HRel (.prim p) (.prim p)
  | fn {ρ : Env} {B f} (inG : ∀ x ∈ B.fv, x ∈ G.names) (env : ∀ x ∈ B.fv, ∀ v, ρ x = some v → HRel v (.fn emp G x))
      (ok : OkB G B) (mem : f ∈ B.names) : HRel (.fn ρ B f) (.fn emp G f)

/-- All names of `G` are bound to their functions. -/
def Glob (ρ' : Env) : Prop := ∀ g, g ∈ G.names → ρ' g = some (.fn emp G g)

variable {G}

theorem HRel.obs {v v'} (h : HRel G v v') : Obs v v' := by
  induction h with
  | constr len _ ih => exact .constr len ih
  | prim => exact .prim
  | fn => exact .fn .fn

theorem Glob.set {ρ' : Env} (h : Glob G ρ') {x v} (hx : x ∉ G.names) : Glob G (ρ'.set x v) := by
  intro g hg
  rw [set_other (by rintro rfl; exact hx hg)]
  exact h g hg

/-- The environment a called function starts in. -/
theorem callee_sim {ρ ρ' : Env} {f ft ys ρ1 e1} (h : ERel (HRel G) (fun x => x = f ∨ x ∈ ys) id ρ ρ')
    (hc : callee ρ f ft ys = some (ρ1, e1)) : ∃ ρ1', callee ρ' f ft ys = some (ρ1', erE e1) ∧ OkE G e1 ∧
      ERel (HRel G) (· ∈ e1.fv) id ρ1 ρ1' ∧ Glob G ρ1' := by
  obtain ⟨ρc, B, f', vs, xs, a, b, c, d⟩ := callee_some hc
  obtain ⟨w, hw, hr⟩ := h f (.inl rfl) _ a
  cases hr with
  | fn inG env ok mem =>
  obtain ⟨vs', hvs', hrs⟩ := h.getList (ys := ys) (fun y hy => .inr hy) b
  rw [List.map_id] at hvs'
  obtain ⟨hG, hxs, hok⟩ := okB_find G ok c
  have hbase : ERel (HRel G) (fun x => x ∈ B.names ∨ x ∈ B.fv) id (defFuns B B ρc ρc) (defFuns G G emp emp) := by
    intro x hx v hv
    by_cases hxB : x ∈ B.names
    · rw [defFuns_mem hxB] at hv; cases hv
      obtain ⟨r, hr⟩ := findDef_some hxB
      obtain ⟨hG', _, _⟩ := okB_find G ok (show findDef x B = some (r.1, r.2.1, r.2.2) from hr)
      exact ⟨_, defFuns_mem (findDef_mem hG'), .fn inG env ok hxB⟩
    · have hx' := hx.resolve_left hxB
      rw [defFuns_not_mem hxB] at hv
      exact ⟨_, defFuns_mem (inG x hx'), env x hx' v hv⟩
  obtain ⟨ρ1', e1', h1⟩ := hbase.setLists hrs d
  refine ⟨ρ1', callee_eq hw hvs' hG e1', hok, h1.mono (fun x hx => fv_body c x hx), ?_⟩
  intro g hg
  rw [setLists_not_mem e1' g (fun hgx => hxs g hgx hg)]
  exact defFuns_mem hg

theorem evalE_sim {call call' : Env → Exp → Res}
    (hcall : ∀ ρ ρ' e, OkE G e → ERel (HRel G) (· ∈ e.fv) id ρ ρ' → Glob G ρ' →
      RRel (HRel G) (call ρ e) (call' ρ' (erE e))) :
    ∀ e ρ ρ', OkE G e → ERel (HRel G) (· ∈ e.fv) id ρ ρ' → Glob G ρ' →
      RRel (HRel G) (evalE S call e ρ) (evalE S call' (erE e) ρ')
  | .constr x t ys e, ρ, ρ', ok, hρ, hg => by
    simp only [evalE, erE]
    rcases hys : getList ρ ys with _ | vs
    · trivial
    obtain ⟨vs', hvs', hrs⟩ := hρ.getList (ys := ys) (fun y hy => by simp [Exp.fv, hy]) hys
    rw [List.map_id] at hvs'
    simp only [hvs']
    refine evalE_sim hcall e _ _ ok.2 ?_ (hg.set ok.1)
    exact hρ.set (HRel.constr hrs.1 hrs.2) (fun y hy hyx => ⟨by simp [Exp.fv, hy, hyx], hyx⟩)
  | .case y bs, ρ, ρ', ok, hρ, hg => by
    simp only [evalE, erE]
    rcases hy : ρ y with _ | v
    · trivial
    obtain ⟨v', hv', hr⟩ := hρ y (by simp [Exp.fv]) _ hy
    simp only [id] at hv'
    rw [hv']
    cases hr with
    | prim => trivial
    | fn => trivial
    | @constr t vs vs' len args =>
      dsimp only
      rw [erBs_tags]
      split
      · simp only [evalB_findTag]
        rcases hf : findTag t bs with _ | e
        · trivial
        obtain ⟨h1, h2, h3⟩ := okBs_find G ok hf
        rw [h2]
        dsimp only
        have hsz : sizeOf e < sizeOf bs := findTag_sizeOf hf
        exact evalE_sim hcall e _ _ h1 (hρ.mono (fun x hx => by simp [Exp.fv, h3 x hx])) hg
      · trivial
  | .proj x t n y e, ρ, ρ', ok, hρ, hg => by
    simp only [evalE, erE]
    rcases hy : ρ y with _ | v
    · trivial
    obtain ⟨v', hv', hr⟩ := hρ y (by simp [Exp.fv]) _ hy
    simp only [id] at hv'
    rw [hv']
    cases hr with
    | prim => trivial
    | fn => trivial
    | @constr t' vs vs' len args =>
      dsimp only
      split
      · rcases hn : vs[n]? with _ | w
        · trivial
        obtain ⟨w', hw', hrw⟩ := All2.get ⟨len, args⟩ hn
        rw [hw']
        exact evalE_sim hcall e _ _ ok.2 (hρ.set hrw (fun y hy hyx => ⟨by simp [Exp.fv, hy, hyx], hyx⟩)) (hg.set ok.1)
      · trivial
  | .letapp x f ft ys e, ρ, ρ', ok, hρ, hg => by
    simp only [evalE, erE]
    rcases hc : callee ρ f ft ys with _ | ⟨ρ1, e1⟩
    · trivial
    obtain ⟨ρ1', hc', ok1, hρ1, hg1⟩ := callee_sim (hρ.mono (Q := fun x => x = f ∨ x ∈ ys) (by
      rintro z (rfl | hz) <;> simp_all [Exp.fv])) hc
    rw [hc']
    dsimp only
    have hb := hcall ρ1 ρ1' e1 ok1 hρ1 hg1
    rcases hr : call ρ1 e1 with v | _ | _ <;> rcases hr' : call' ρ1' (erE e1) with v' | _ | _ <;>
      rw [hr, hr'] at hb <;> try (first | trivial | exact hb.elim)
    exact evalE_sim hcall e _ _ ok.2 (hρ.set hb (fun y hy hyx => ⟨by simp [Exp.fv, hy, hyx], hyx⟩)) (hg.set ok.1)
  | .fn B e, ρ, ρ', ok, hρ, hg => by
    simp only [evalE, erE]
    refine evalE_sim hcall e _ _ ok.2.2 ?_ hg
    intro x hx v hv
    by_cases hxB : x ∈ B.names
    · rw [defFuns_mem hxB] at hv; cases hv
      obtain ⟨r, hr⟩ := findDef_some hxB
      obtain ⟨hG', _, _⟩ := okB_find G ok.2.1 (show findDef x B = some (r.1, r.2.1, r.2.2) from hr)
      refine ⟨_, hg x (findDef_mem hG'), .fn ok.1 ?_ ok.2.1 hxB⟩
      intro z hz w hw
      have hz' : z ∈ (Exp.fn B e).fv := by
        simp only [Defs.fv, Finset.mem_sdiff] at hz
        simp only [Exp.fv, Finset.mem_sdiff, Finset.mem_union]
        exact ⟨.inl hz.1, hz.2⟩
      obtain ⟨w', hw', hr⟩ := hρ z hz' w hw
      simp only [id, hg z (ok.1 z hz)] at hw'
      cases hw'; exact hr
    · rw [defFuns_not_mem hxB] at hv
      exact hρ x (by simp [Exp.fv, hx, hxB]) v hv
  | .app f ft ys, ρ, ρ', ok, hρ, hg => by
    simp only [evalE, erE]
    rcases hc : callee ρ f ft ys with _ | ⟨ρ1, e1⟩
    · trivial
    obtain ⟨ρ1', hc', ok1, hρ1, hg1⟩ := callee_sim (hρ.mono (Q := fun x => x = f ∨ x ∈ ys) (by
      rintro z (rfl | hz) <;> simp_all [Exp.fv])) hc
    rw [hc']
    exact hcall ρ1 ρ1' e1 ok1 hρ1 hg1
  | .primVal x p e, ρ, ρ', ok, hρ, hg => by
    simp only [evalE, erE]
    exact evalE_sim hcall e _ _ ok.2 (hρ.set .prim (fun y hy hyx => ⟨by simp [Exp.fv, hy, hyx], hyx⟩)) (hg.set ok.1)
  | .prim x p ys e, ρ, ρ', ok, hρ, hg => by
    simp only [evalE, erE]
    rcases hys : getList ρ ys with _ | vs
    · trivial
    obtain ⟨vs', hvs', hrs⟩ := hρ.getList (ys := ys) (fun y hy => by simp [Exp.fv, hy]) hys
    rw [List.map_id] at hvs'
    simp only [hvs']
    rcases ho : S.op p vs with _ | v
    · trivial
    obtain ⟨ho', d, rfl⟩ := op_rel (R := HRel G) (fun p v h => by cases h; rfl) hrs ho
    rw [ho']
    have hd : HRel G d.toVal d.toVal := toVal_refl (fun _ => .prim) (fun _ _ _ h => .constr h.1 h.2) d
    exact evalE_sim hcall e _ _ ok.2 (hρ.set hd (fun y hy hyx => ⟨by simp [Exp.fv, hy, hyx], hyx⟩)) (hg.set ok.1)
  | .halt x, ρ, ρ', ok, hρ, hg => by
    simp only [evalE, erE]
    rcases hx : ρ x with _ | v
    · trivial
    obtain ⟨v', hv', hr⟩ := hρ x (by simp [Exp.fv]) _ hx
    simp only [id] at hv'
    rw [hv']
    exact hr
termination_by e => sizeOf e

theorem run_sim : ∀ n ρ ρ' e, OkE G e → ERel (HRel G) (· ∈ e.fv) id ρ ρ' → Glob G ρ' →
    RRel (HRel G) (run S n ρ e) (run S n ρ' (erE e))
  | 0, ρ, ρ', e => evalE_sim S (call := fun _ _ => .oot) (call' := fun _ _ => .oot) (fun _ _ _ _ _ _ => trivial) e ρ ρ'
  | n + 1, ρ, ρ', e => evalE_sim S (run_sim n) e ρ ρ'

end sim

/-! ## The hypotheses of the simulation hold -/

mutual
theorem okE_of {G : Defs} (hn : G.names.Nodup) : ∀ e : Exp, (∀ x ∈ lvE e, x ∉ G.names) →
    (∀ d ∈ (accE e .nil).toList, d ∈ G.toList) → e.FnsClosed G.names → OkE G e
  | .constr x t ys e, hl, hm, hc => by
    simp only [lvE, List.mem_cons, accE, Exp.FnsClosed, OkE] at *
    exact ⟨hl x (.inl rfl), okE_of hn e (fun y hy => hl y (.inr hy)) hm hc⟩
  | .case x bs, hl, hm, hc => by
    simp only [lvE, accE, Exp.FnsClosed, OkE] at *
    exact okBs_of hn bs hl hm hc
  | .proj x t n y e, hl, hm, hc => by
    simp only [lvE, List.mem_cons, accE, Exp.FnsClosed, OkE] at *
    exact ⟨hl x (.inl rfl), okE_of hn e (fun y hy => hl y (.inr hy)) hm hc⟩
  | .letapp x f ft ys e, hl, hm, hc => by
    simp only [lvE, List.mem_cons, accE, Exp.FnsClosed, OkE] at *
    exact ⟨hl x (.inl rfl), okE_of hn e (fun y hy => hl y (.inr hy)) hm hc⟩
  | .fn B e, hl, hm, hc => by
    simp only [lvE, List.mem_append, accE, Exp.FnsClosed, OkE] at *
    rw [accB_toList] at hm
    simp only [List.mem_append] at hm
    exact ⟨hc.1, okB_of hn B (fun y hy => hl y (.inl hy)) (fun d hd => hm d (.inl hd)) hc.2.1,
      okE_of hn e (fun y hy => hl y (.inr hy)) (fun d hd => hm d (.inr hd)) hc.2.2⟩
  | .app f ft ys, hl, hm, hc => by simp only [OkE]
  | .primVal x p e, hl, hm, hc => by
    simp only [lvE, List.mem_cons, accE, Exp.FnsClosed, OkE] at *
    exact ⟨hl x (.inl rfl), okE_of hn e (fun y hy => hl y (.inr hy)) hm hc⟩
  | .prim x p ys e, hl, hm, hc => by
    simp only [lvE, List.mem_cons, accE, Exp.FnsClosed, OkE] at *
    exact ⟨hl x (.inl rfl), okE_of hn e (fun y hy => hl y (.inr hy)) hm hc⟩
  | .halt x, hl, hm, hc => by simp only [OkE]
theorem okBs_of {G : Defs} (hn : G.names.Nodup) : ∀ bs : Brs, (∀ x ∈ lvBs bs, x ∉ G.names) →
    (∀ d ∈ (accBs bs .nil).toList, d ∈ G.toList) → bs.FnsClosed G.names → OkBs G bs
  | .nil, hl, hm, hc => by simp only [OkBs]
  | .cons t e bs, hl, hm, hc => by
    simp only [lvBs, List.mem_append, accBs, Brs.FnsClosed, OkBs] at *
    rw [accE_toList] at hm
    simp only [List.mem_append] at hm
    exact ⟨okE_of hn e (fun y hy => hl y (.inl hy)) (fun d hd => hm d (.inl hd)) hc.1,
      okBs_of hn bs (fun y hy => hl y (.inr hy)) (fun d hd => hm d (.inr hd)) hc.2⟩
theorem okB_of {G : Defs} (hn : G.names.Nodup) : ∀ B : Defs, (∀ x ∈ lvB B, x ∉ G.names) →
    (∀ d ∈ (accB B .nil).toList, d ∈ G.toList) → B.FnsClosed G.names → OkB G B
  | .nil, hl, hm, hc => by simp only [OkB]
  | .cons f ft xs e B, hl, hm, hc => by
    simp only [lvB, List.mem_append, accB, Defs.FnsClosed, Defs.toList, List.mem_cons, OkB] at *
    rw [accE_toList] at hm
    simp only [List.mem_append] at hm
    exact ⟨findDef_of_mem hn (hm _ (.inl rfl)), fun x hx => hl x (.inl hx),
      okE_of hn e (fun y hy => hl y (.inr (.inl hy))) (fun d hd => hm d (.inr (.inl hd))) hc.1,
      okB_of hn B (fun y hy => hl y (.inr (.inr hy))) (fun d hd => hm d (.inr (.inr hd))) hc.2⟩
end

theorem hoist_lockstep (S : Sig) {e : Exp} (hn : e.bv.Nodup) (hc : e.FnsClosed (fnE e)) (n : Nat) :
    RRel (HRel (accE e .nil)) (run S n emp e) (run S n emp (hoist e)) := by
  have hp := (bv_perm e).nodup_iff.mp hn
  rw [List.nodup_append] at hp
  have hnames : (accE e .nil).names = fnE e := by rw [accE_names]; simp [Defs.names]
  have hok : OkE (accE e .nil) e := okE_of (by rw [hnames]; exact hp.1) e
    (fun x hx hx' => by rw [hnames] at hx'; exact hp.2.2 x hx' x hx rfl) (fun d hd => hd) (by rw [hnames]; exact hc)
  have hsim : ∀ ρ', Glob (accE e .nil) ρ' → RRel (HRel (accE e .nil)) (run S n emp e) (run S n ρ' (erE e)) :=
    fun ρ' hg => run_sim S n emp ρ' e hok (fun x _ v hv => by cases hv) hg
  rw [hoist_eq]
  generalize hG : accE e .nil = G at *
  cases G with
  | nil => exact hsim emp (fun g hg => by simp [Defs.names] at hg)
  | cons f ft xs eb B =>
    rw [run_fn]
    exact hsim _ (fun g hg => defFuns_mem hg)

/-! ## Binders -/

mutual
theorem erE_bv : ∀ e d, ((accE e d).bv ++ (erE e).bv).Perm (e.bv ++ d.bv)
  | .constr x t ys e, d => by simp only [accE, erE, Exp.bv]; exact List.perm_middle.trans ((erE_bv e d).cons x)
  | .case x bs, d => by simp only [accE, erE, Exp.bv]; exact erBs_bv bs d
  | .proj x t n y e, d => by simp only [accE, erE, Exp.bv]; exact List.perm_middle.trans ((erE_bv e d).cons x)
  | .letapp x f ft ys e, d => by simp only [accE, erE, Exp.bv]; exact List.perm_middle.trans ((erE_bv e d).cons x)
  | .fn B e, d => by
    simp only [accE, erE, Exp.bv]
    refine ((accB_bv B (accE e d)).append_right (erE e).bv).trans ?_
    rw [List.append_assoc, List.append_assoc]
    exact (erE_bv e d).append_left B.bv
  | .app f ft ys, d => by simp only [accE, erE, Exp.bv, List.append_nil, List.nil_append]; exact List.Perm.refl _
  | .primVal x p e, d => by simp only [accE, erE, Exp.bv]; exact List.perm_middle.trans ((erE_bv e d).cons x)
  | .prim x p ys e, d => by simp only [accE, erE, Exp.bv]; exact List.perm_middle.trans ((erE_bv e d).cons x)
  | .halt x, d => by simp only [accE, erE, Exp.bv, List.append_nil, List.nil_append]; exact List.Perm.refl _
theorem erBs_bv : ∀ bs d, ((accBs bs d).bv ++ (erBs bs).bv).Perm (bs.bv ++ d.bv)
  | .nil, d => by simp only [accBs, erBs, Brs.bv, List.append_nil, List.nil_append]; exact List.Perm.refl _
  | .cons t e bs, d => by
    simp only [accBs, erBs, Brs.bv]
    rw [← List.append_assoc]
    refine ((erE_bv e (accBs bs d)).append_right (erBs bs).bv).trans ?_
    rw [List.append_assoc, List.append_assoc]
    exact (erBs_bv bs d).append_left e.bv
theorem accB_bv : ∀ B d, (accB B d).bv.Perm (B.bv ++ d.bv)
  | .nil, d => by simp only [accB, Defs.bv, List.nil_append]; exact List.Perm.refl _
  | .cons g t xs e B, d => by
    simp only [accB, Defs.bv, List.cons_append]
    refine List.Perm.cons g ?_
    rw [List.append_assoc xs]
    refine List.Perm.append_left xs ?_
    refine List.perm_append_comm.trans ?_
    refine (erE_bv e (accB B d)).trans ?_
    rw [List.append_assoc]
    exact (accB_bv B d).append_left e.bv
end

theorem hoist_bv (e : Exp) : (hoist e).bv.Perm e.bv := by
  have h := erE_bv e .nil
  rw [show Defs.bv .nil = [] by simp only [Defs.bv], List.append_nil] at h
  rw [hoist_eq]
  cases hd : accE e .nil with
  | nil => rw [hd] at h; simpa only [Defs.bv, List.nil_append] using h
  | cons => rw [hd] at h; simpa only [Exp.bv] using h

/-! ## Free variables -/

mutual
theorem erE_fv : ∀ (e : Exp) x, x ∈ (erE e).fv → x ∈ e.fv ∨ x ∈ fnE e
  | .constr y t ys e, x, h => by
    simp only [erE, Exp.fv, fnE, Finset.mem_union, Finset.mem_erase] at h ⊢
    rcases h with h | h
    · exact .inl (.inl h)
    · rcases erE_fv e x h.2 with h' | h'
      · exact .inl (.inr ⟨h.1, h'⟩)
      · exact .inr h'
  | .case y bs, x, h => by
    simp only [erE, Exp.fv, fnE, Finset.mem_insert] at h ⊢
    rcases h with h | h
    · exact .inl (.inl h)
    · rcases erBs_fv bs x h with h' | h'
      · exact .inl (.inr h')
      · exact .inr h'
  | .proj y t n z e, x, h => by
    simp only [erE, Exp.fv, fnE, Finset.mem_insert, Finset.mem_erase] at h ⊢
    rcases h with h | h
    · exact .inl (.inl h)
    · rcases erE_fv e x h.2 with h' | h'
      · exact .inl (.inr ⟨h.1, h'⟩)
      · exact .inr h'
  | .letapp y f ft ys e, x, h => by
    simp only [erE, Exp.fv, fnE, Finset.mem_insert, Finset.mem_union, Finset.mem_erase] at h ⊢
    rcases h with h | h | h
    · exact .inl (.inl h)
    · exact .inl (.inr (.inl h))
    · rcases erE_fv e x h.2 with h' | h'
      · exact .inl (.inr (.inr ⟨h.1, h'⟩))
      · exact .inr h'
  | .fn B e, x, h => by
    simp only [erE] at h
    simp only [Exp.fv, fnE, Finset.mem_sdiff, Finset.mem_union, List.mem_toFinset, List.mem_append]
    by_cases hx : x ∈ fnB B
    · exact .inr (.inl hx)
    · rcases erE_fv e x h with h' | h'
      · exact .inl ⟨.inr h', fun hn => hx (names_fnB B x hn)⟩
      · exact .inr (.inr h')
  | .app f ft ys, x, h => .inl h
  | .primVal y p e, x, h => by
    simp only [erE, Exp.fv, fnE, Finset.mem_erase] at h ⊢
    rcases erE_fv e x h.2 with h' | h'
    · exact .inl ⟨h.1, h'⟩
    · exact .inr h'
  | .prim y p ys e, x, h => by
    simp only [erE, Exp.fv, fnE, Finset.mem_union, Finset.mem_erase] at h ⊢
    rcases h with h | h
    · exact .inl (.inl h)
    · rcases erE_fv e x h.2 with h' | h'
      · exact .inl (.inr ⟨h.1, h'⟩)
      · exact .inr h'
  | .halt y, x, h => .inl h
theorem erBs_fv : ∀ (bs : Brs) x, x ∈ (erBs bs).fv → x ∈ bs.fv ∨ x ∈ fnBs bs
  | .nil, x, h => .inl h
  | .cons t e bs, x, h => by
    simp only [erBs, Brs.fv, fnBs, Finset.mem_union, List.mem_append] at h ⊢
    rcases h with h | h
    · rcases erE_fv e x h with h' | h' <;> tauto
    · rcases erBs_fv bs x h with h' | h' <;> tauto
theorem names_fnB : ∀ (B : Defs) x, x ∈ B.names → x ∈ fnB B
  | .nil, x, h => by simp [Defs.names] at h
  | .cons g t xs e B, x, h => by
    simp only [Defs.names, List.mem_cons] at h
    simp only [fnB, List.mem_cons, List.mem_append]
    rcases h with h | h
    · exact .inl h
    · exact .inr (.inr (names_fnB B x h))
end

mutual
theorem accE_fvRaw {G : List Var} : ∀ (e : Exp) d, e.FnsClosed G → (∀ x ∈ fnE e, x ∈ G) →
    ∀ x ∈ (accE e d).fvRaw, x ∈ G ∨ x ∈ d.fvRaw
  | .constr _ _ _ e, d, hc, hg, x, h => accE_fvRaw e d hc hg x h
  | .case _ bs, d, hc, hg, x, h => accBs_fvRaw bs d hc hg x h
  | .proj _ _ _ _ e, d, hc, hg, x, h => accE_fvRaw e d hc hg x h
  | .letapp _ _ _ _ e, d, hc, hg, x, h => accE_fvRaw e d hc hg x h
  | .fn B e, d, hc, hg, x, h => by
    simp only [Exp.FnsClosed] at hc
    simp only [fnE, List.mem_append] at hg
    simp only [accE] at h
    have hB : ∀ x ∈ B.fvRaw, x ∈ G := by
      intro y hy
      by_cases hn : y ∈ B.names
      · exact hg y (.inl (names_fnB B y hn))
      · exact hc.1 y (by simp [Defs.fv, hy, hn])
    rcases accB_fvRaw B _ hc.2.1 (fun y hy => hg y (.inl hy)) hB x h with h | h
    · exact .inl h
    · exact accE_fvRaw e d hc.2.2 (fun y hy => hg y (.inr hy)) x h
  | .app _ _ _, d, hc, hg, x, h => .inr h
  | .primVal _ _ e, d, hc, hg, x, h => accE_fvRaw e d hc hg x h
  | .prim _ _ _ e, d, hc, hg, x, h => accE_fvRaw e d hc hg x h
  | .halt _, d, hc, hg, x, h => .inr h
theorem accBs_fvRaw {G : List Var} : ∀ (bs : Brs) d, bs.FnsClosed G → (∀ x ∈ fnBs bs, x ∈ G) →
    ∀ x ∈ (accBs bs d).fvRaw, x ∈ G ∨ x ∈ d.fvRaw
  | .nil, d, hc, hg, x, h => .inr h
  | .cons t e bs, d, hc, hg, x, h => by
    simp only [fnBs, List.mem_append] at hg
    simp only [accBs] at h
    rcases accE_fvRaw e _ hc.1 (fun y hy => hg y (.inl hy)) x h with h | h
    · exact .inl h
    · exact accBs_fvRaw bs d hc.2 (fun y hy => hg y (.inr hy)) x h
theorem accB_fvRaw {G : List Var} : ∀ (B : Defs) d, B.FnsClosed G → (∀ x ∈ fnB B, x ∈ G) → (∀ x ∈ B.fvRaw, x ∈ G) →
    ∀ x ∈ (accB B d).fvRaw, x ∈ G ∨ x ∈ d.fvRaw
  | .nil, d, hc, hg, hB, x, h => .inr h
  | .cons g t xs e B, d, hc, hg, hB, x, h => by
    simp only [fnB, List.mem_append, List.mem_cons] at hg
    simp only [accB, Defs.fvRaw, Finset.mem_union, Finset.mem_sdiff] at h
    simp only [Defs.fvRaw, Finset.mem_union, Finset.mem_sdiff] at hB
    rcases h with h | h
    · rcases erE_fv e x h.1 with h' | h'
      · exact .inl (hB x (.inl ⟨h', h.2⟩))
      · exact .inl (hg x (.inr (.inl h')))
    · rcases accE_fvRaw e _ hc.1 (fun y hy => hg y (.inr (.inl hy))) x h with h | h
      · exact .inl h
      · exact accB_fvRaw B d hc.2 (fun y hy => hg y (.inr (.inr hy))) (fun y hy => hB y (.inr hy)) x h
end

theorem hoist_fv {e : Exp} (hc : e.FnsClosed (fnE e)) : ∀ x ∈ (hoist e).fv, x ∈ e.fv := by
  intro x hx
  have hnames : (accE e .nil).names = fnE e := by rw [accE_names]; simp [Defs.names]
  have h1 := erE_fv e x
  have h2 := accE_fvRaw e .nil hc (fun _ h => h) x
  rw [hoist_eq] at hx
  generalize hG : accE e .nil = G at *
  cases G with
  | nil =>
    simp only [Defs.names] at hnames
    rcases h1 hx with h | h
    · exact h
    · rw [← hnames] at h; simp at h
  | cons f ft xs eb B =>
    simp only [Exp.fv, Finset.mem_sdiff, Finset.mem_union, List.mem_toFinset] at hx
    rw [hnames] at hx
    rcases hx.1 with h | h
    · rcases h2 h with h | h
      · exact absurd h hx.2
      · simp [Defs.fvRaw] at h
    · exact (h1 h).resolve_right hx.2

end ANF
