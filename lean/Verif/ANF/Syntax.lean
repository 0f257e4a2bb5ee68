import Mathlib.Data.Finset.Basic
import Mathlib.Data.Finset.Union
import Verif.Ctor.Model

/-!
# LambdaANF: syntax and environments

Models theories/LambdaANF/cps.v (terms, values, environments) and map_util.v (`get_list`, `set_lists`).

Simplifications: positives and `N` are `Nat`; environments (`M.t val`) are functions to `Option`; the branch list of a
`case` is a type of its own, mutual with terms, instead of `list (ctor_tag * exp)`; `Vint` is left out (no function of
the compiler builds it); primitive values are integers, float bit patterns and byte strings.
-/

namespace ANF

/-- `var` (cps.v:29). -/
abbrev Var := Nat
/-- `ctor_tag`, `fun_tag`, `prim` (cps.v:30-37). -/
abbrev Tag := Nat

/-- `primitive_value` (common/AstCommon.v:574): 63-bit integer, float bits, byte string. -/
inductive PVal
  | int (n : Nat)
  | float (bits : Nat)
  | str (s : List Nat)
  deriving DecidableEq, Repr

mutual
/-- `exp` (cps.v:56-68). -/
inductive Exp
  | constr (x : Var) (t : Tag) (ys : List Var) (e : Exp)
  | case (x : Var) (bs : Brs)
  | proj (x : Var) (t : Tag) (n : Nat) (y : Var) (e : Exp)
  | letapp (x : Var) (f : Var) (ft : Tag) (ys : List Var) (e : Exp)
  | fn (B : Defs) (e : Exp)
  | app (f : Var) (ft : Tag) (ys : List Var)
  | primVal (x : Var) (p : PVal) (e : Exp)
  | prim (x : Var) (p : Tag) (ys : List Var) (e : Exp)
  | halt (x : Var)
/-- The branches of `Ecase`: `list (ctor_tag * exp)`. -/
inductive Brs
  | nil
  | cons (t : Tag) (e : Exp) (bs : Brs)
/-- `fundefs` (cps.v:66-68). -/
inductive Defs
  | nil
  | cons (f : Var) (ft : Tag) (xs : List Var) (e : Exp) (B : Defs)
end

deriving instance DecidableEq for Exp, Brs, Defs

/-- `val` (cps.v:333-340). -/
inductive Val
  | constr (t : Tag) (vs : List Val)
  | fn (ρ : Var → Option Val) (B : Defs) (f : Var)
  | prim (p : PVal)

/-- `env`: `M.t val`. -/
abbrev Env := Var → Option Val

/-- `M.set`. -/
def Env.set (ρ : Env) (x : Var) (v : Val) : Env := fun y => if y = x then some v else ρ y

/-- `get_list` (map_util.v:145-152). -/
def getList (ρ : Env) : List Var → Option (List Val)
  | [] => some []
  | x :: xs => match ρ x, getList ρ xs with
    | some v, some vs => some (v :: vs)
    | _, _ => none

/-- `set_lists` (map_util.v:154-162). -/
def setLists : List Var → List Val → Env → Option Env
  | x :: xs, v :: vs, ρ => match setLists xs vs ρ with
    | some ρ' => some (ρ'.set x v)
    | none => none
  | [], [], ρ => some ρ
  | _, _, _ => none

/-- `def_funs` (cps.v:360-364). -/
def defFuns (B0 : Defs) : Defs → Env → Env → Env
  | .cons f _ _ _ B, ρ0, ρ => (defFuns B0 B ρ0 ρ).set f (.fn ρ0 B0 f)
  | .nil, _, ρ => ρ

/-- `find_def` (cps.v:366-371). -/
def findDef (f : Var) : Defs → Option (Tag × List Var × Exp)
  | .cons f' t ys e B => if f = f' then some (t, ys, e) else findDef f B
  | .nil => none

/-- `find_tag_nth` (cps_util.v:143-151) as a function: the body of the first branch with the tag (the position is not
used by the semantics). -/
def findTag (t : Tag) : Brs → Option Exp
  | .cons t' e bs => if t' = t then some e else findTag t bs
  | .nil => none

/-- The tags of a branch list. -/
def Brs.tags : Brs → List Tag
  | .nil => []
  | .cons t _ bs => t :: bs.tags

/-- Branches as a list of pairs. -/
def Brs.toList : Brs → List (Tag × Exp)
  | .nil => []
  | .cons t e bs => (t, e) :: bs.toList

/-- The names defined by a bundle (`name_in_fundefs`, cps_util.v; `all_fun_name`). -/
def Defs.names : Defs → List Var
  | .nil => []
  | .cons f _ _ _ B => f :: B.names

/-- Concatenation of bundles (`fundefs_append`, cps.v). -/
def Defs.append : Defs → Defs → Defs
  | .nil, B' => B'
  | .cons f ft xs e B, B' => .cons f ft xs e (B.append B')

/-- `caseConsistent_f` (cps_util.v:385-399): the tag and all branch tags belong to the same type. -/
def consistent (cenv : Ctor.PMap Ctor.Info) (t : Tag) : List Tag → Bool
  | [] => true
  | t' :: ts => consistent cenv t ts && match cenv t, cenv t' with
    | some i, some i' => i.indTag == i'.indTag
    | _, _ => false

mutual
/-- Free variables of a term (`occurs_free`, identifiers.v; computed by `exp_fv`). -/
def Exp.fv : Exp → Finset Var
  | .constr x _ ys e => ys.toFinset ∪ e.fv.erase x
  | .case x bs => insert x bs.fv
  | .proj x _ _ y e => insert y (e.fv.erase x)
  | .letapp x f _ ys e => insert f (ys.toFinset ∪ e.fv.erase x)
  | .fn B e => (B.fvRaw ∪ e.fv) \ B.names.toFinset
  | .app f _ ys => insert f ys.toFinset
  | .primVal x _ e => e.fv.erase x
  | .prim x _ ys e => ys.toFinset ∪ e.fv.erase x
  | .halt x => {x}
/-- Free variables of the branches. -/
def Brs.fv : Brs → Finset Var
  | .nil => ∅
  | .cons _ e bs => e.fv ∪ bs.fv
/-- Free variables of the bodies of a bundle, minus their parameters (the bundle's own names still included). -/
def Defs.fvRaw : Defs → Finset Var
  | .nil => ∅
  | .cons _ _ xs e B => (e.fv \ xs.toFinset) ∪ B.fvRaw
end

/-- Free variables of a bundle (`occurs_free_fundefs`, identifiers.v; `fundefs_fv`). -/
def Defs.fv (B : Defs) : Finset Var := B.fvRaw \ B.names.toFinset

mutual
/-- Bound variables of a term, in order of occurrence (`bound_var`, identifiers.v). -/
def Exp.bv : Exp → List Var
  | .constr x _ _ e => x :: e.bv
  | .case _ bs => bs.bv
  | .proj x _ _ _ e => x :: e.bv
  | .letapp x _ _ _ e => x :: e.bv
  | .fn B e => B.bv ++ e.bv
  | .app _ _ _ => []
  | .primVal x _ e => x :: e.bv
  | .prim x _ _ e => x :: e.bv
  | .halt _ => []
/-- Bound variables of branches. -/
def Brs.bv : Brs → List Var
  | .nil => []
  | .cons _ e bs => e.bv ++ bs.bv
/-- Bound variables of a bundle (`bound_var_fundefs`). -/
def Defs.bv : Defs → List Var
  | .nil => []
  | .cons f _ xs e B => f :: (xs ++ (e.bv ++ B.bv))
end

end ANF
