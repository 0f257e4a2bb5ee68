import Verif.Conv.EnvSem
import Verif.ANF.Util

/-!
# Conversion to A-normal form

Models `convert_anf` and its companions (theories/LambdaANF/LambdaBoxLocal_to_LambdaANF.v:600-785) and the contexts of
theories/LambdaANF/ctx.v.

Simplifications: the state monad is a counter (the next fresh variable) with `Option` for failure, the table of pretty
names is dropped; the map from de Bruijn indices to variables (`var_map`, a tree with a depth) is the list of variables,
innermost first; constructor tags come from a function `tag`.
-/

namespace Conv

open Src (Dcon)
open ANF (Var Tag)

/-- `exp_ctx` (ctx.v:20-36), the forms the conversion uses. -/
inductive Ctx
  | hole
  | constr (x : Var) (t : Tag) (ys : List Var) (C : Ctx)
  | proj (x : Var) (t : Tag) (n : Nat) (y : Var) (C : Ctx)
  | letapp (x f : Var) (ft : Tag) (ys : List Var) (C : Ctx)
  | primVal (x : Var) (p : ANF.PVal) (C : Ctx)
  | prim (x : Var) (p : Tag) (ys : List Var) (C : Ctx)
  | fn (B : ANF.Defs) (C : Ctx)

/-- `app_ctx_f` (ctx.v:69-81). -/
def Ctx.fill : Ctx → ANF.Exp → ANF.Exp
  | .hole, e => e
  | .constr x t ys C, e => .constr x t ys (C.fill e)
  | .proj x t n y C, e => .proj x t n y (C.fill e)
  | .letapp x f ft ys C, e => .letapp x f ft ys (C.fill e)
  | .primVal x p C, e => .primVal x p (C.fill e)
  | .prim x p ys C, e => .prim x p ys (C.fill e)
  | .fn B C, e => .fn B (C.fill e)

/-- `comp_ctx_f` (ctx.v:126-137). -/
def Ctx.comp : Ctx → Ctx → Ctx
  | .hole, D => D
  | .constr x t ys C, D => .constr x t ys (C.comp D)
  | .proj x t n y C, D => .proj x t n y (C.comp D)
  | .letapp x f ft ys C, D => .letapp x f ft ys (C.comp D)
  | .primVal x p C, D => .primVal x p (C.comp D)
  | .prim x p ys C, D => .prim x p ys (C.comp D)
  | .fn B C, D => .fn B (C.comp D)

/-- Parameters of the conversion: `func_tag`, `kon_tag`, `default_tag`, the constructor map `dcon_to_tag · tgm` and the
arities of `prim_map` (LambdaBoxLocal_to_LambdaANF.v:21-24, 48, 68-69). -/
structure Params where
  funTag : Tag
  konTag : Tag
  defaultTag : Tag
  tag : Dcon → Tag
  arity : Nat → Option Nat

/-- `ctx_bind_proj` (:88-97). -/
def ctxBindProj (t : Tag) (r : Var) : List Var → Nat → Ctx
  | [], _ => .hole
  | v :: vars, args => .proj v t (args - 1) r (ctxBindProj t r vars (args - 1))

/-- `get_named_lst` on `n` names (state.v:90): `n` consecutive fresh variables. -/
def freshList : Nat → Nat → List Var × Nat
  | 0, k => ([], k)
  | n + 1, k => let (xs, k') := freshList n (k + 1); (k :: xs, k')

/-- `add_fix_names` (:654-662). -/
def addFixNames : Src.Fns → List Var → Nat → List Var × List Var × Nat
  | .nil, vn, k => ([], vn, k)
  | .cons _ fs, vn, k => let (names, vn', k') := addFixNames fs (k :: vn) (k + 1); (k :: names, vn', k')

/-- `convert_prim_anf` (:664-676). -/
def convPrim (P : Params) (p : Tag) : Nat → List Var → Nat → Var × Ctx × Nat
  | 0, args, k => (k, .prim k p args.reverse .hole, k + 1)
  | n + 1, args, k =>
    let (x, C, k') := convPrim P p n (k :: args) (k + 2)
    (k + 1, .fn (.cons (k + 1) P.funTag [k] (C.fill (.halt x)) .nil) .hole, k')

mutual
/-- `convert_anf` (:679-733). -/
def conv (P : Params) : Src.Exp → List Var → Nat → Option (Var × Ctx × Nat)
  | .var i, vn, k => match vn[i]? with
    | some v => some (v, .hole, k)
    | none => none
  | .app e₁ e₂, vn, k => match conv P e₁ vn k with
    | some (x₁, C₁, k₁) => match conv P e₂ vn k₁ with
      | some (x₂, C₂, k₂) => some (k₂, C₁.comp (C₂.comp (.letapp k₂ x₁ P.funTag [x₂] .hole)), k₂ + 1)
      | none => none
    | none => none
  | .lam e, vn, k => match conv P e (k :: vn) (k + 2) with
    | some (r, C, k') => some (k + 1, .fn (.cons (k + 1) P.funTag [k] (C.fill (.halt r)) .nil) .hole, k')
    | none => none
  | .letin e₁ e₂, vn, k => match conv P e₁ vn k with
    | some (x, C₁, k₁) => match conv P e₂ (x :: vn) k₁ with
      | some (r, C₂, k₂) => some (r, C₁.comp C₂, k₂)
      | none => none
    | none => none
  | .con d es, vn, k => match convs P es vn (k + 1) with
    | some (ys, C, k') => some (k, C.comp (.constr k (P.tag d) ys .hole), k')
    | none => none
  | .fix fs i, vn, k =>
    let (names, vn', k₁) := addFixNames fs vn k
    match convF P fs names i vn' k₁ with
    | some (x, B, k') => some (x, .fn B .hole, k')
    | none => none
  | .mtch e bs, vn, k => match conv P e vn (k + 2) with
    | some (x₁, C₁, k₁) => match convB P bs (k + 1) vn k₁ with
      | some (pats, k₂) => some (k₂, .fn (.cons k P.funTag [k + 1] (.case (k + 1) pats) .nil)
          (C₁.comp (.letapp k₂ k P.funTag [x₁] .hole)), k₂ + 1)
      | none => none
    | none => none
  | .prf, _, k => some (k, .constr k P.defaultTag [] .hole, k + 1)
  | .pval p, _, k => some (k, .primVal k p .hole, k + 1)
  | .prim p, _, k => match P.arity p with
    | some n => some (convPrim P p n [] k)
    | none => none
/-- `convert_anf_exps` (:734-741). -/
def convs (P : Params) : Src.Exps → List Var → Nat → Option (List Var × Ctx × Nat)
  | .nil, _, k => some ([], .hole, k)
  | .cons e es, vn, k => match conv P e vn k with
    | some (y, C₁, k₁) => match convs P es vn k₁ with
      | some (ys, C₂, k₂) => some (y :: ys, C₁.comp C₂, k₂)
      | none => none
    | none => none
/-- `convert_anf_efnlst` (:742-760); the dummy variable is 1. -/
def convF (P : Params) : Src.Fns → List Var → Nat → List Var → Nat → Option (Var × ANF.Defs × Nat)
  | .nil, [], _, _, k => some (1, .nil, k)
  | .cons (.lam e) fs, f :: names, i, vn, k => match conv P e (k :: vn) (k + 1) with
    | some (r, C, k₁) => match convF P fs names (i - 1) vn k₁ with
      | some (fi, B, k₂) => some (if i = 0 then f else fi, .cons f P.funTag [k] (C.fill (.halt r)) B, k₂)
      | none => none
    | none => none
  | _, _, _, _, _ => none
/-- `convert_anf_branches` (:761-771) with `proj_ctx` (:645-652). -/
def convB (P : Params) : Src.Brs → Var → List Var → Nat → Option (ANF.Brs × Nat)
  | .nil, _, _, k => some (.nil, k)
  | .cons d n e bs, y, vn, k => match convB P bs y vn k with
    | some (pats, k₁) =>
      let (vars, k₂) := freshList n k₁
      match conv P e (vars ++ vn) k₂ with
      | some (r, C, k₃) =>
        some (.cons (P.tag d) ((ctxBindProj (P.tag d) y vars vars.length).fill (C.fill (.halt r))) pats, k₃)
      | none => none
    | none => none
end

/-- `convert_anf_exp` (:774-776), from the first fresh variable. -/
def convExp (P : Params) (e : Src.Exp) (k : Nat) : Option (ANF.Exp × Nat) :=
  match conv P e [] k with
  | some (x, C, k') => some (C.fill (.halt x), k')
  | none => none

end Conv
