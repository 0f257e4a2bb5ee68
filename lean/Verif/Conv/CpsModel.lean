import Verif.Conv.AnfModel

/-!
# Conversion to continuation-passing style

Models `cps_cvt` and its companions (theories/LambdaANF/LambdaBoxLocal_to_LambdaANF.v:204-388), with the simplifications
of Verif.Conv.AnfModel: the state is the next fresh variable, failure is `none`, names are dropped.
-/

namespace Conv

open Src (Dcon)
open ANF (Var Tag)

/-- A bundle with one function. -/
abbrev one (f : Var) (t : Tag) (xs : List Var) (e : ANF.Exp) : ANF.Defs := .cons f t xs e .nil

/-- `convert_prim` (:213-225). -/
def cpsPrim (P : Params) (p : Tag) : Nat → List Var → Var → Nat → ANF.Exp × Nat
  | 0, args, k, n => (.prim n p args.reverse (.app k P.konTag [n]), n + 1)
  | m + 1, args, k, n =>
    let (e, n') := cpsPrim P p m (n :: args) (n + 1) (n + 3)
    (.fn (one (n + 2) P.funTag [n + 1, n] e) (.app k P.konTag [n + 2]), n')

mutual
/-- `cps_cvt` (:247-327); `n` is the next fresh variable. -/
def cps (P : Params) : Src.Exp → List Var → Var → Nat → Option (ANF.Exp × Nat)
  | .var i, vn, k, n => match vn[i]? with
    | some v => some (.app k P.konTag [v], n)
    | none => none
  | .app e₁ e₂, vn, k, n => match cps P e₁ vn (n + 1) (n + 4) with
    | some (e₁', n₁) => match cps P e₂ vn (n + 3) n₁ with
      | some (e₂', n₂) => some (.fn (one (n + 1) P.konTag [n]
          (.fn (one (n + 3) P.konTag [n + 2] (.app n P.funTag [k, n + 2])) e₂')) e₁', n₂)
      | none => none
    | none => none
  | .lam e, vn, k, n => match cps P e (n :: vn) (n + 2) (n + 3) with
    | some (e', n') => some (.fn (one (n + 1) P.funTag [n + 2, n] e') (.app k P.konTag [n + 1]), n')
    | none => none
  | .letin e₁ e₂, vn, k, n => match cps P e₂ (n :: vn) k (n + 2) with
    | some (e₂', n₁) => match cps P e₁ vn (n + 1) n₁ with
      | some (e₁', n₂) => some (.fn (one (n + 1) P.konTag [n] e₂') e₁', n₂)
      | none => none
    | none => none
  | .con d es, vn, k, n =>
    let (xs, n₁) := freshList es.len (n + 1)
    let (ks, n₂) := freshList es.len n₁
    cpss P es vn (.constr n (P.tag d) xs (.app k P.konTag [n])) xs ks n₂
  | .fix fs i, vn, k, n =>
    let (names, n₁) := freshList fs.len n
    match cpsF P fs (names.reverse ++ vn) names n₁ with
    | some (B, n₂) => match names[i]? with
      | some f => some (.fn B (.app k P.konTag [f]), n₂)
      | none => none
    | none => none
  | .mtch e bs, vn, k, n => match cps P e vn (n + 1) (n + 2) with
    | some (e', n₁) => match cpsB P bs vn k n n₁ with
      | some (pats, n₂) => some (.fn (one (n + 1) P.konTag [n] (.case n pats)) e', n₂)
      | none => none
    | none => none
  | .prf, _, k, n => some (.constr n P.defaultTag [] (.app k P.konTag [n]), n + 1)
  | .pval p, _, k, n => some (.primVal n p (.app k P.konTag [n]), n + 1)
  | .prim p, _, k, n => match P.arity p with
    | some m => some (cpsPrim P p m [] k n)
    | none => none
/-- `cps_cvt_exps` (:330-342). -/
def cpss (P : Params) : Src.Exps → List Var → ANF.Exp → List Var → List Var → Nat → Option (ANF.Exp × Nat)
  | .nil, _, eapp, _, _, n => some (eapp, n)
  | .cons e es, vn, eapp, x :: xs, k :: ks, n => match cps P e vn k n with
    | some (e', n₁) => match cpss P es vn eapp xs ks n₁ with
      | some (e'', n₂) => some (.fn (one k P.konTag [x] e'') e', n₂)
      | none => none
    | none => none
  | .cons _ _, _, _, _, _, _ => none
/-- `cps_cvt_efnlst` (:344-360); `hd 1 nlst` and `tl nlst` for the name. -/
def cpsF (P : Params) : Src.Fns → List Var → List Var → Nat → Option (ANF.Defs × Nat)
  | .nil, _, _, n => some (.nil, n)
  | .cons (.lam e) fs, vn, names, n => match cps P e (n :: vn) (n + 1) (n + 2) with
    | some (e', n₁) => match cpsF P fs vn names.tail n₁ with
      | some (B, n₂) => some (.cons (names.headD 1) P.funTag [n + 1, n] e' B, n₂)
      | none => none
    | none => none
  | .cons _ _, _, _, _ => none
/-- `cps_cvt_branches` (:362-377). -/
def cpsB (P : Params) : Src.Brs → List Var → Var → Var → Nat → Option (ANF.Brs × Nat)
  | .nil, _, _, _, n => some (.nil, n)
  | .cons d m e bs, vn, k, r, n => match cpsB P bs vn k r n with
    | some (pats, n₁) =>
      let (vars, n₂) := freshList m n₁
      match cps P e (vars ++ vn) k n₂ with
      | some (e', n₃) => some (.cons (P.tag d) ((ctxBindProj (P.tag d) r vars vars.length).fill e') pats, n₃)
      | none => none
    | none => none
end

/-- `convert_whole_exp` (:380-388). -/
def cpsWhole (P : Params) (e : Src.Exp) (n : Nat) : Option (ANF.Exp × Nat) :=
  match cps P e [] n (n + 3) with
  | some (e', n') => some (.fn (.cons (n + 1) P.konTag [n] e' (one n P.konTag [n + 2] (.halt (n + 2))))
      (.app (n + 1) P.konTag [n]), n')
  | none => none

end Conv
