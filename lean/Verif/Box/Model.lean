import Verif.Src.Link

/-!
# Erased λ-box programs and their conversion to LambdaBoxMut

The input of CertiRocq is the output of MetaRocq's verified erasure: λ-box terms with constructors as blocks, no
constructor parameters, fixpoints that unfold on any argument and matches on proofs already removed (the flags of
theories/LambdaBoxMut/stripEvalCommute.v:32-66 and `block_wcbv_flags`).  This file models that language, its evaluation
and theories/LambdaBoxMut/compile.v:241-443.

The λ-box language itself is MetaRocq's (`EAst.term`, `EWcbvEval.eval`, `EWellformed.wellformed`), which /repo imports and
does not contain; it is modelled after its published definition and after the cases of `compile` and `WcbvEval_hom` that
consume it.

Simplifications: binder names, names of variables, arguments of existential variables and recursive-argument numbers are
dropped (a branch keeps the number of names it binds); global names and inductive types are numbers; the declarations of
inductive types are one table rather than entries of the global environment.
-/

namespace Box

open Mut (Name)

mutual
/-- `EAst.term`, as matched by `compile` (compile.v:381-405). -/
inductive Term
  | box
  | rel (n : Nat)
  | var
  | evar
  | lam (t : Term)
  | letin (t u : Term)
  | app (t u : Term)
  | const (c : Name)
  | con (i n : Nat) (ts : Terms)
  | case (i pars : Nat) (t : Term) (bs : Brs)
  | proj (t : Term)
  | fix (ds : Defs) (n : Nat)
  | cofix (ds : Defs) (n : Nat)
  | prim (p : ANF.PVal)
  | array (ts : Terms)
  | lazy (t : Term)
  | force (t : Term)
/-- The arguments of a constructor block. -/
inductive Terms
  | nil
  | cons (t : Term) (ts : Terms)
/-- The branches of `tCase`: the number of names bound and the body. -/
inductive Brs
  | nil
  | cons (m : Nat) (t : Term) (bs : Brs)
/-- The definitions of `tFix`. -/
inductive Defs
  | nil
  | cons (t : Term) (ds : Defs)
end

deriving instance DecidableEq for Term, Terms, Brs, Defs

theorem Terms.ind {P : Terms → Prop} (h0 : P .nil) (h1 : ∀ e es, P es → P (.cons e es)) : ∀ es, P es
  | .nil => h0
  | .cons e es => h1 e es (Terms.ind h0 h1 es)

theorem Defs.ind {P : Defs → Prop} (h0 : P .nil) (h1 : ∀ e es, P es → P (.cons e es)) : ∀ es, P es
  | .nil => h0
  | .cons e es => h1 e es (Defs.ind h0 h1 es)

theorem Brs.ind {P : Brs → Prop} (h0 : P .nil) (h1 : ∀ n e es, P es → P (.cons n e es)) : ∀ es, P es
  | .nil => h0
  | .cons n e es => h1 n e es (Brs.ind h0 h1 es)

def Terms.list : Terms → List Term
  | .nil => []
  | .cons t ts => t :: ts.list

def Terms.len : Terms → Nat
  | .nil => 0
  | .cons _ ts => ts.len + 1

def Brs.len : Brs → Nat
  | .nil => 0
  | .cons _ _ bs => bs.len + 1

def Defs.len : Defs → Nat
  | .nil => 0
  | .cons _ ds => ds.len + 1

def Brs.nth : Nat → Brs → Option (Nat × Term)
  | _, .nil => none
  | 0, .cons m t _ => some (m, t)
  | n + 1, .cons _ _ bs => Brs.nth n bs

def Defs.nth : Nat → Defs → Option Term
  | _, .nil => none
  | 0, .cons t _ => some t
  | n + 1, .cons _ ds => Defs.nth n ds

/-! ## Evaluation (the language being compiled) -/

mutual
/-- `ECSubst.csubst`: substitution of a closed term. -/
def csubst (a : Term) : Nat → Term → Term
  | k, .rel n => if n = k then a else if n < k then .rel n else .rel (n - 1)
  | _, .box => .box
  | _, .var => .var
  | _, .evar => .evar
  | k, .lam t => .lam (csubst a (k + 1) t)
  | k, .letin t u => .letin (csubst a k t) (csubst a (k + 1) u)
  | k, .app t u => .app (csubst a k t) (csubst a k u)
  | _, .const c => .const c
  | k, .con i n ts => .con i n (csubsts a k ts)
  | k, .case i p t bs => .case i p (csubst a k t) (csubstB a k bs)
  | k, .proj t => .proj (csubst a k t)
  | k, .fix ds n => .fix (csubstD a (ds.len + k) ds) n
  | k, .cofix ds n => .cofix (csubstD a (ds.len + k) ds) n
  | _, .prim p => .prim p
  | k, .array ts => .array (csubsts a k ts)
  | k, .lazy t => .lazy (csubst a k t)
  | k, .force t => .force (csubst a k t)
/-- The same in an argument list. -/
def csubsts (a : Term) : Nat → Terms → Terms
  | _, .nil => .nil
  | k, .cons t ts => .cons (csubst a k t) (csubsts a k ts)
/-- The same in branches. -/
def csubstB (a : Term) : Nat → Brs → Brs
  | _, .nil => .nil
  | k, .cons m t bs => .cons m (csubst a (m + k) t) (csubstB a k bs)
/-- The same in definitions. -/
def csubstD (a : Term) : Nat → Defs → Defs
  | _, .nil => .nil
  | k, .cons t ds => .cons (csubst a k t) (csubstD a k ds)
end

/-- `ECSubst.substl`: the first term of the list replaces variable 0, and so on. -/
def substl (l : List Term) (b : Term) : Term := l.foldl (fun b t => csubst t 0 b) b

/-- `EGlobalEnv.fix_subst`: the bundle's functions, the last one first. -/
def fixSubst (ds : Defs) : Nat → List Term
  | 0 => []
  | n + 1 => .fix ds n :: fixSubst ds n

/-- `EGlobalEnv.cunfold_fix`. -/
def unfoldFix (ds : Defs) (n : Nat) : Option Term := (ds.nth n).map (substl (fixSubst ds ds.len))

/-- `EGlobalEnv.iota_red`: the constructor's arguments after the parameters, the last one being variable 0 of the branch. -/
def iota (pars : Nat) (args : Terms) (b : Term) : Term := substl (args.list.drop pars).reverse b

/-- An inductive type: whether it is a proposition, its number of parameters, and each constructor's number of arguments
(`one_inductive_body`). -/
structure Ind where
  prop : Bool
  pars : Nat
  ctors : List Nat

/-- The table of inductive types. -/
abbrev Inds := Nat → Option Ind

/-- `lookup_constructor`: the type's propositionality and parameters, the constructor's arguments. -/
def lookupCtor (I : Inds) (i n : Nat) : Option (Bool × Nat × Nat) :=
  match I i with
  | some d => (d.ctors[n]?).map fun a => (d.prop, d.pars, a)
  | none => none

/-- `global_decl`: a constant with or without a body, or a block of inductive types. -/
inductive Decl
  | constant (body : Option Term)
  | inductives

/-- `global_context`. -/
abbrev Ctx := List (Name × Decl)

/-- `lookup_env`. -/
def lookup (c : Name) : Ctx → Option Decl
  | [] => none
  | (d, e) :: p => if c = d then some e else lookup c p

/-- The values whose application is a redex or stuck: the side condition of `eval_app_cong` (with unguarded fixpoints). -/
def Term.headed : Term → Bool
  | .lam _ => true
  | .fix _ _ => true
  | .box => true
  | t => applied t
where
  /-- `isConstructApp`, `isPrimApp`, `isLazyApp`. -/
  applied : Term → Bool
  | .con _ _ _ => true
  | .prim _ => true
  | .array _ => true
  | .lazy _ => true
  | .app f _ => applied f
  | _ => false

mutual
/-- `EWcbvEval.eval` under `block_wcbv_flags` (no `with_prop_case`, no `with_guarded_fix`, constructors as blocks).  The
rules for cofixpoints, projections and arrays are left out: no well-formed term contains them. -/
inductive Eval (I : Inds) (E : Ctx) : Term → Term → Prop
  | appBox {f a a'} : Eval I E f .box → Eval I E a a' → Eval I E (.app f a) .box
  | beta {f b a a' v} : Eval I E f (.lam b) → Eval I E a a' → Eval I E (csubst a' 0 b) v → Eval I E (.app f a) v
  | zeta {d d' b v} : Eval I E d d' → Eval I E (csubst d' 0 b) v → Eval I E (.letin d b) v
  | iota {i p t n ts bs pars k m b v} : Eval I E t (.con i n ts) → lookupCtor I i n = some (false, pars, k) →
      bs.nth n = some (m, b) → ts.len = pars + k → (ts.list.drop pars).length = m → Eval I E (iota pars ts b) v →
      Eval I E (.case i p t bs) v
  | fix {f ds n x a a' v} : Eval I E f (.fix ds n) → unfoldFix ds n = some x → Eval I E a a' →
      Eval I E (.app x a') v → Eval I E (.app f a) v
  | delta {c t v} : lookup c E = some (.constant (some t)) → Eval I E t v → Eval I E (.const c) v
  | con {i n ts ts' p pars k} : lookupCtor I i n = some (p, pars, k) → ts.len = pars + k → Evals I E ts ts' →
      Eval I E (.con i n ts) (.con i n ts')
  | appCong {f f' a a'} : Eval I E f f' → f'.headed = false → Eval I E a a' → Eval I E (.app f a) (.app f' a')
  | prim (p) : Eval I E (.prim p) (.prim p)
  | force {t u v} : Eval I E t (.lazy u) → Eval I E u v → Eval I E (.force t) v
  | box : Eval I E .box .box
  | lam (t) : Eval I E (.lam t) (.lam t)
  | fixAtom (ds n) : Eval I E (.fix ds n) (.fix ds n)
  | lazy (t) : Eval I E (.lazy t) (.lazy t)
/-- `All2 (eval Σ)`. -/
inductive Evals (I : Inds) (E : Ctx) : Terms → Terms → Prop
  | nil : Evals I E .nil .nil
  | cons {t t' ts ts'} : Eval I E t t' → Evals I E ts ts' → Evals I E (.cons t ts) (.cons t' ts')
end

mutual
/-- `EWellformed.wellformed` with `env_flags` (stripEvalCommute.v:32-66): closed, constants declared with a body,
constructors fully applied, one branch per constructor, fixpoint bodies are functions, nothing unsupported. -/
def Term.wf (I : Inds) (E : Ctx) : Nat → Term → Prop
  | _, .box => True
  | k, .rel n => n < k
  | _, .var => False
  | _, .evar => False
  | k, .lam t => t.wf I E (k + 1)
  | k, .letin t u => t.wf I E k ∧ u.wf I E (k + 1)
  | k, .app t u => t.wf I E k ∧ u.wf I E k
  | _, .const c => ∃ t, lookup c E = some (.constant (some t))
  | k, .con i n ts => (∃ p pars a, lookupCtor I i n = some (p, pars, a) ∧ pars + a = ts.len) ∧ ts.wf I E k
  | k, .case i _ t bs => (∃ d, I i = some d ∧ d.ctors.length = bs.len) ∧ t.wf I E k ∧ bs.wf I E k
  | _, .proj _ => False
  | k, .fix ds n => n < ds.len ∧ ds.wf I E (ds.len + k)
  | _, .cofix _ _ => False
  | _, .prim _ => True
  | _, .array _ => False
  | k, .lazy t => t.wf I E k
  | k, .force t => t.wf I E k
/-- The same for argument lists. -/
def Terms.wf (I : Inds) (E : Ctx) : Nat → Terms → Prop
  | _, .nil => True
  | k, .cons t ts => t.wf I E k ∧ ts.wf I E k
/-- The same for branches. -/
def Brs.wf (I : Inds) (E : Ctx) : Nat → Brs → Prop
  | _, .nil => True
  | k, .cons m t bs => t.wf I E (m + k) ∧ bs.wf I E k
/-- The same for definitions. -/
def Defs.wf (I : Inds) (E : Ctx) : Nat → Defs → Prop
  | _, .nil => True
  | k, .cons t ds => t.wf I E k ∧ (∃ b, t = .lam b) ∧ ds.wf I E k
end

/-- `wf_glob` (with `has_axioms := false`): every name is declared once, and every constant has a body, well formed in the
declarations before it. -/
def WfCtx (I : Inds) : Ctx → Prop
  | [] => True
  | (c, .constant (some t)) :: E => WfCtx I E ∧ lookup c E = none ∧ t.wf I E 0
  | (_, .constant none) :: _ => False
  | (c, .inductives) :: E => WfCtx I E ∧ lookup c E = none

/-- `has_cstr_params := false`: no inductive type has parameters left. -/
def NoPars (I : Inds) : Prop := ∀ i d, I i = some d → d.pars = 0

/-! ## The conversion -/

mutual
/-- `lift` (compile.v:242-256). -/
def lift : Nat → Mut.Term → Mut.Term
  | n, .rel m => .rel (if m < n then m else m + 1)
  | _, .proof => .proof
  | n, .lam t => .lam (lift (n + 1) t)
  | n, .letin t u => .letin (lift n t) (lift (n + 1) u)
  | n, .app t u => .app (lift n t) (lift n u)
  | _, .const c => .const c
  | n, .con i x ts => .con i x (lifts n ts)
  | n, .case i t bs => .case i (lift n t) (liftB n bs)
  | n, .fix ds y => .fix (liftD (n + ds.len) ds) y
  | _, .prim p => .prim p
  | _, .wrong => .wrong
/-- `lifts` (compile.v:257-261). -/
def lifts : Nat → Mut.Terms → Mut.Terms
  | _, .nil => .nil
  | n, .cons t ts => .cons (lift n t) (lifts n ts)
/-- `liftBs` (compile.v:262-266). -/
def liftB : Nat → Mut.Brs → Mut.Brs
  | _, .nil => .nil
  | n, .cons m t bs => .cons m (lift (m + n) t) (liftB n bs)
/-- `liftDs` (compile.v:267-271). -/
def liftD : Nat → Mut.Defs → Mut.Defs
  | _, .nil => .nil
  | n, .cons t ds => .cons (lift n t) (liftD n ds)
end

mutual
/-- `compile` (compile.v:381-405).  The source goes through a view of applications as a head with a list of arguments and
rebuilds them with `TmkApps`; the recursion here is on binary applications, and `C54_spine` shows that the two agree. -/
def compile : Term → Mut.Term
  | .rel n => .rel n
  | .box => .proof
  | .lam t => .lam (compile t)
  | .letin t u => .letin (compile t) (compile u)
  | .app t u => .app (compile t) (compile u)
  | .const c => .const c
  | .con i n ts => .con i n (compiles ts)
  | .case i _ t bs => .case i (compile t) (compileB bs)
  | .fix ds n => .fix (compileD ds) n
  | .proj _ => .wrong
  | .cofix _ _ => .wrong
  | .prim p => .prim p
  | .array _ => .wrong
  | .lazy t => .lam (lift 0 (compile t))
  | .force t => .app (compile t) .proof
  | .var => .wrong
  | .evar => .wrong
/-- `list_terms (map compile args)` (compile.v:322-326, 388-390). -/
def compiles : Terms → Mut.Terms
  | .nil => .nil
  | .cons t ts => .cons (compile t) (compiles ts)
/-- `list_Brs` of the compiled branches (compile.v:328-332, 391-393). -/
def compileB : Brs → Mut.Brs
  | .nil => .nil
  | .cons m t bs => .cons m (compile t) (compileB bs)
/-- `list_Defs` of the compiled definitions (compile.v:334-338, 394-396). -/
def compileD : Defs → Mut.Defs
  | .nil => .nil
  | .cons t ds => .cons (compile t) (compileD ds)
end

/-- `compile_global_decl` (compile.v:427-436); an axiom becomes an empty inductive block (`ecAx`). -/
def compileDecl : Decl → Mut.Entry
  | .inductives => .typ
  | .constant (some t) => .trm (compile t)
  | .constant none => .typ

/-- `compile_ctx` (compile.v:438-443). -/
def compileCtx : Ctx → Mut.Environ
  | [] => []
  | (n, d) :: E => (n, compileDecl d) :: compileCtx E

/-- `TmkApps` (compile.v:316-320). -/
def TmkApps (u : Mut.Term) : Mut.Terms → Mut.Term
  | .nil => u
  | .cons t ts => TmkApps (.app u t) ts

/-- `EAst.mkApps`. -/
def mkApps (f : Term) : Terms → Term
  | .nil => f
  | .cons t ts => mkApps (.app f t) ts

end Box
