import Verif.ANF.State

/-!
# Lambda lifting

Models theories/LambdaANF/lambda_lifting.v:85-516.

Simplifications: `VarInfoMap` is kept as the renaming it denotes (`rename` treats both kinds of entries alike); sets are
finite sets; `FunInfo` keeps the free variables once (as a set); `active_funs`, `fv_no` and `GFunInfo`'s two cases, which
nothing depends on, are dropped; `failwith` is `none`.
-/

namespace ANF
namespace Ll

/-- `FunInfo` (lambda_lifting.v:107-119). -/
inductive FInfo
  | lift (f' : Var) (ft' : Tag) (sfvs : Finset Var) (args : List Var)
  | keep (sfvs : Finset Var)

/-- `FunInfoMap` (lambda_lifting.v:123). -/
abbrev FMap := Var → Option FInfo

/-- Setting one entry of a map (`M.set`). -/
def put {α : Type} (m : Var → α) (x : Var) (a : α) : Var → α := fun y => if y = x then a else m y

/-- `add_functions` (lambda_lifting.v:134-157). -/
def addFuns (fvs : List Var) (sfvs : Finset Var) (args : List Var) : Defs → FMap → Finset Var → Comp →
    FMap × Finset Var × Comp
  | .nil, fm, gf, s => (fm, gf, s)
  | .cons f _ _ _ B, fm, gf, s =>
    let r := addFuns fvs sfvs args B fm gf s
    let gf := if fvs = [] then insert f r.2.1 else r.2.1
    if fvs.length = args.length then
      (put r.1 f (some (.lift r.2.2.next r.2.2.ftag sfvs args)), insert r.2.2.next gf,
        { r.2.2 with next := r.2.2.next + 1, ftag := r.2.2.ftag + 1 })
    else (put r.1 f (some (.keep sfvs)), gf, r.2.2)

/-- `add_free_vars` (lambda_lifting.v:173-182). -/
def addFree : List Var → (Var → Var) → Comp → List Var × (Var → Var) × Comp
  | [], σ, s => ([], σ, s)
  | y :: ys, σ, s =>
    let r := addFree ys σ s
    (r.2.2.next :: r.1, put r.2.1 y r.2.2.next, r.2.2.bump)

/-- `make_wrappers` (lambda_lifting.v:187-210). -/
def wrappers (σ : Var → Var) (fm : FMap) : Defs → Comp → Option (Option Defs × (Var → Var) × Comp)
  | .nil, s => some (some .nil, σ, s)
  | .cons f ft xs _ B, s => match fm f with
    | some (.lift f' ft' _ args) =>
      let xs' := List.range' (s.next + 1) xs.length
      match wrappers σ fm B { s with next := s.next + 1 + xs.length } with
      | some (mb, σ', s') =>
        some (some (.cons s.next ft xs' (.app f' ft' (xs' ++ args.map σ)) (mb.getD .nil)), put σ' f s.next, s')
      | none => none
    | some (.keep _) => some (none, σ, s)
    | none => none

/-- `fundefs_max_params` (lambda_lifting.v:212-219), as written: the accumulator is dropped at the end of the bundle. -/
def maxParams : Defs → Nat → Nat
  | .nil, _ => 0
  | .cons _ _ xs _ B, p => maxParams B (max xs.length p)

/-- `add_list` (lib/set_util.v): adds the members of a list that are not in scope. -/
def addList (Z S : Finset Var) (ys : List Var) : Finset Var := S ∪ (ys.toFinset \ Z)

/-- Adds a variable that is not in scope. -/
def addVar (Z S : Finset Var) (y : Var) : Finset Var := if y ∈ Z then S else insert y S

/-- The variables a call mentions (lambda_lifting.v:249-255, 263-269). -/
def trueCall (dec : List Var → Finset Var → Bool) (fm : FMap) (f : Var) (Z S : Finset Var) : Finset Var :=
  match fm f with
  | some (.lift f' _ _ args) => if dec args S then S ∪ (f' :: args).toFinset else addVar Z S f
  | _ => addVar Z S f

mutual
/-- `exp_true_fv_aux` (lambda_lifting.v:235-277). -/
def trueE (dec : List Var → Finset Var → Bool) (fm : FMap) : Exp → Finset Var → Finset Var → Finset Var
  | .constr x _ ys e, Z, S => trueE dec fm e (insert x Z) (addList Z S ys)
  | .case x bs, Z, S => addVar Z (trueB dec fm bs Z S) x
  | .proj x _ _ y e, Z, S => trueE dec fm e (insert x Z) (addVar Z S y)
  | .letapp x f _ ys e, Z, S => trueE dec fm e (insert x Z) (addList Z (trueCall dec fm f Z S) ys)
  | .fn B e, Z, S => let r := trueD dec fm B Z S; trueE dec fm e r.1 r.2
  | .app f _ xs, Z, S => addList Z (trueCall dec fm f Z S) xs
  | .primVal x _ e, Z, S => trueE dec fm e (insert x Z) S
  | .prim x _ ys e, Z, S => trueE dec fm e (insert x Z) (addList Z S ys)
  | .halt x, Z, S => addVar Z S x
/-- The branches of a match (lambda_lifting.v:243). -/
def trueB (dec : List Var → Finset Var → Bool) (fm : FMap) : Brs → Finset Var → Finset Var → Finset Var
  | .nil, _, S => S
  | .cons _ e bs, Z, S => trueB dec fm bs Z (trueE dec fm e Z S)
/-- `fundefs_true_fv_aux` (lambda_lifting.v:278-284). -/
def trueD (dec : List Var → Finset Var → Bool) (fm : FMap) : Defs → Finset Var → Finset Var → Finset Var × Finset Var
  | .nil, Z, S => (Z, S)
  | .cons f _ ys e B, Z, S =>
    let r := trueD dec fm B (insert f Z) S
    (r.1, trueE dec fm e (r.1 ∪ ys.toFinset) r.2)
end

mutual
/-- `occurs_in_exp` (lambda_lifting.v:307-333). -/
def occE (k : Var) (cur : Finset Var) : Exp → Bool
  | .constr z _ xs e => z == k || xs.contains k || occE k cur e
  | .case x bs => k == x || occB k cur bs
  | .proj z _ _ x e => z == k || k == x || occE k cur e
  | .letapp z f _ xs e => z == k || f == k || decide (f ∈ cur) || xs.contains k || occE k cur e
  | .fn B e => occD k cur B || occE k cur e
  | .app x _ xs => k == x || decide (x ∈ cur) || xs.contains k
  | .primVal z _ e => z == k || occE k cur e
  | .prim z _ xs e => z == k || xs.contains k || occE k cur e
  | .halt x => x == k
/-- The branches of a match (lambda_lifting.v:311-319). -/
def occB (k : Var) (cur : Finset Var) : Brs → Bool
  | .nil => false
  | .cons _ e bs => occE k cur e || occB k cur bs
/-- `occurs_in_fundefs` (lambda_lifting.v:335-341). -/
def occD (k : Var) (cur : Finset Var) : Defs → Bool
  | .nil => false
  | .cons z _ zs e B => z == k || zs.contains k || occE k cur e || occD k cur B
end

mutual
/-- `stack_push` (lambda_lifting.v:347-363). -/
def pushE (x : Var) (cur : Finset Var) : Exp → Nat
  | .constr _ _ _ e => pushE x cur e
  | .proj _ _ _ _ e => pushE x cur e
  | .primVal _ _ e => pushE x cur e
  | .prim _ _ _ e => pushE x cur e
  | .fn _ e => pushE x cur e
  | .app _ _ _ => 0
  | .halt _ => 0
  | .case _ bs => pushB x cur bs 0
  | .letapp _ _ _ _ e => if occE x cur e then pushE x cur e + 1 else pushE x cur e
/-- The branches of a match (lambda_lifting.v:357-358). -/
def pushB (x : Var) (cur : Finset Var) : Brs → Nat → Nat
  | .nil, n => n
  | .cons _ e bs, n => pushB x cur bs (max n (pushE x cur e))
end

/-- `stack_push_fundefs_aux` (lambda_lifting.v:365-370). -/
def pushD (x : Var) (cur : Finset Var) : Defs → Nat
  | .nil => 0
  | .cons _ _ _ e B => max (pushE x cur e) (pushD x cur B)

/-- The free variables of a bundle that are not global functions (lambda_lifting.v:406-411). -/
def bundleFvs (dec : List Var → Finset Var → Bool) (fm : FMap) (gf : Finset Var) (B : Defs) : Finset Var :=
  (trueD dec fm B ∅ ∅).2 \ gf

/-- The variables to lift (lambda_lifting.v:412-422). -/
def liftVars (maxArgs maxPush : Nat) (B : Defs) (fvs : List Var) : List Var :=
  let l := if fvs.any (fun x => maxPush < pushD x B.names.toFinset B) then [] else fvs
  if maxArgs - maxParams B 0 < l.length then [] else l

/-- The function, its tag and the arguments of a call (lambda_lifting.v:395-404, 434-445). -/
def call (dec : List Var → Finset Var → Bool) (Z : Finset Var) (σ : Var → Var) (fm : FMap) (f : Var) (ft : Tag)
    (ys : List Var) : Var × Tag × List Var :=
  match fm f with
  | some (.lift f' ft' _ args) => if dec args Z then (σ f', ft', (ys ++ args).map σ) else (σ f, ft, ys.map σ)
  | _ => (σ f, ft, ys.map σ)

mutual
/-- `exp_lambda_lift` (lambda_lifting.v:375-453). -/
def llE (maxArgs maxPush : Nat) (dec : List Var → Finset Var → Bool) : Exp → Finset Var → (Var → Var) → FMap →
    Finset Var → Comp → Option (Exp × Comp)
  | .constr x t ys e, Z, σ, fm, gf, s => match llE maxArgs maxPush dec e (insert x Z) σ fm gf s with
    | some (e', s') => some (.constr x t (ys.map σ) e', s')
    | none => none
  | .case x bs, Z, σ, fm, gf, s => match llB maxArgs maxPush dec bs Z σ fm gf s with
    | some (bs', s') => some (.case (σ x) bs', s')
    | none => none
  | .proj x t n y e, Z, σ, fm, gf, s => match llE maxArgs maxPush dec e (insert x Z) σ fm gf s with
    | some (e', s') => some (.proj x t n (σ y) e', s')
    | none => none
  | .letapp x f ft ys e, Z, σ, fm, gf, s => match llE maxArgs maxPush dec e (insert x Z) σ fm gf s with
    | some (e', s') =>
      let c := call dec Z σ fm f ft ys
      some (.letapp x c.1 c.2.1 c.2.2 e', s')
    | none => none
  | .fn B e, Z, σ, fm, gf, s =>
    let sfvs := bundleFvs dec fm gf B
    let fvs := elements sfvs
    let args := liftVars maxArgs maxPush B fvs
    let r := addFuns fvs sfvs args B fm gf s
    match llD maxArgs maxPush dec B B B.names.toFinset σ r.1 r.2.1 r.2.2 with
    | some (B', s₁) => match wrappers σ r.1 B s₁ with
      | some (ob, σ', s₂) => match llE maxArgs maxPush dec e (B.names.toFinset ∪ Z) σ' r.1 r.2.1 s₂ with
        | some (e', s₃) => match ob with
          | some Bw => some (.fn B' (.fn Bw e'), s₃)
          | none => some (.fn B' e', s₃)
        | none => none
      | none => none
    | none => none
  | .app f ft ys, Z, σ, fm, _, s =>
    let c := call dec Z σ fm f ft ys
    some (.app c.1 c.2.1 c.2.2, s)
  | .primVal x p e, Z, σ, fm, gf, s => match llE maxArgs maxPush dec e (insert x Z) σ fm gf s with
    | some (e', s') => some (.primVal x p e', s')
    | none => none
  | .prim x p ys e, Z, σ, fm, gf, s => match llE maxArgs maxPush dec e (insert x Z) σ fm gf s with
    | some (e', s') => some (.prim x p (ys.map σ) e', s')
    | none => none
  | .halt x, _, σ, _, _, s => some (.halt (σ x), s)
/-- The branches of a match (lambda_lifting.v:381-390). -/
def llB (maxArgs maxPush : Nat) (dec : List Var → Finset Var → Bool) : Brs → Finset Var → (Var → Var) → FMap →
    Finset Var → Comp → Option (Brs × Comp)
  | .nil, _, _, _, _, s => some (.nil, s)
  | .cons t e bs, Z, σ, fm, gf, s => match llE maxArgs maxPush dec e Z σ fm gf s with
    | some (e', s₁) => match llB maxArgs maxPush dec bs Z σ fm gf s₁ with
      | some (bs', s₂) => some (.cons t e' bs', s₂)
      | none => none
    | none => none
/-- `fundefs_lambda_lift` (lambda_lifting.v:454-486). -/
def llD (maxArgs maxPush : Nat) (dec : List Var → Finset Var → Bool) : Defs → Defs → Finset Var → (Var → Var) → FMap →
    Finset Var → Comp → Option (Defs × Comp)
  | .nil, _, _, _, _, _, s => some (.nil, s)
  | .cons f ft xs e B, Bf, N, σ, fm, gf, s => match fm f with
    | some (.lift f' ft' sfvs args) =>
      let r := addFree args σ s
      match wrappers r.2.1 fm Bf r.2.2 with
      | some (ob, σ', s₁) => match llE maxArgs maxPush dec e (N ∪ (sfvs ∪ xs.toFinset)) σ' fm gf s₁ with
        | some (e', s₂) => match llD maxArgs maxPush dec B Bf N σ fm gf s₂ with
          | some (B', s₃) => match ob with
            | some Bw => some (.cons f' ft' (xs ++ r.1) (.fn Bw e') B', s₃)
            | none => none
          | none => none
        | none => none
      | none => none
    | some (.keep sfvs) => match llE maxArgs maxPush dec e (N ∪ (sfvs ∪ xs.toFinset)) σ fm gf s with
      | some (e', s₁) => match llD maxArgs maxPush dec B Bf N σ fm gf s₁ with
        | some (B', s₂) => some (.cons f ft xs e' B', s₂)
        | none => none
      | none => none
    | none => none
end

/-- `lift_all` (lambda_lifting.v:506). -/
def liftAll (_ : List Var) (_ : Finset Var) : Bool := true

/-- `lift_conservative` (lambda_lifting.v:509). -/
def liftConservative (fvs : List Var) (Z : Finset Var) : Bool := decide (fvs.toFinset ⊆ Z)

/-- `lambda_lift` (lambda_lifting.v:511-516). -/
def lambdaLift (maxArgs maxPush : Nat) (inl : Bool) (e : Exp) (c : Comp) : Option (Exp × Comp) :=
  llE maxArgs maxPush (if inl then liftAll else liftConservative) e ∅ id (fun _ => none) ∅ c

end Ll
end ANF
