import Verif.ANF.State

/-!
# Uncurrying

Models theories/LambdaANF/uncurry_proto.v, the version the pipeline runs (toplevel.v:171).  The traversal is generated
by tactics (Prototype.v:2143-2225): at each bundle entry the two rules are tried first; if one applies, the new entry is
kept as it is and the rest of the bundle, which now begins with the uncurried function, is visited; otherwise the parts
are visited from left to right.

Simplifications: the entry just added is visited by a function of its own (`uncBody`) before the rest of the bundle; the
table of functions to inline and the pretty names are dropped (they do not influence the term); `occurs_in_exp` and
`max_var` are stated with free and bound variables (uncurry_proto.v proves `occurs_in_exp_iff_used_vars`).
-/

namespace ANF
namespace Unc

/-- The state: the fresh variable of `I_S_fresh`, and from `S_misc` (uncurry_proto.v:48-57) the tags by arity, the
functions already uncurried and the next function tag. -/
structure St where
  next : Var
  ftag : Tag
  arities : Nat → Option Tag
  done : Var → Bool

/-- `get_fun_tag` (uncurry_proto.v:60-72). -/
def getFunTag (n : Nat) (s : St) : Tag × St :=
  match s.arities n with
  | some ft => (ft, s)
  | none => (s.ftag, { s with ftag := s.ftag + 1, arities := fun m => if m = n then some s.ftag else s.arities m })

/-- `occurs_in_exp` (uncurry.v:38-76). -/
def occurs (k : Var) (e : Exp) : Bool := decide (k ∈ e.fv ∨ k ∈ e.bv)

/-- The side conditions of the two rules (uncurry_proto.v:74-135, 161-350): splits the parameters of the outer
function into the continuation and the rest. -/
def peel (cps : Bool) (xs : List Var) (g : Var) (ge tail : Exp) (s : St) : Option (List Var × List Var) :=
  match cps, xs, tail with
  | true, k :: fv, .app k' _ [g'] =>
    if k' = k ∧ g' = g ∧ s.done g = false ∧ occurs g ge = false ∧ occurs k ge = false then some ([k], fv) else none
  | false, xs, .halt g' => if g' = g ∧ s.done g = false ∧ occurs g ge = false then some ([], xs) else none
  | _, _, _ => none

/-- The fresh names and the state after a rewrite (uncurry_proto.v:145-159, 161-350): `gv1`, `fv1`, `f1`, the tag. -/
def fresh (gv fv : List Var) (g : Var) (s : St) : List Var × List Var × Var × Tag × St :=
  let (ft, s') := getFunTag (fv.length + gv.length) s
  let n := s.next
  (List.range' n gv.length, List.range' (n + gv.length) fv.length, n + gv.length + fv.length, ft,
    { s' with next := n + gv.length + fv.length + 1, done := fun x => if x = g then true else s'.done x })

mutual
/-- The traversal of a term (uncurry_proto.v:161-350, Prototype.v:2143-2225). -/
def uncE (cps : Bool) : Exp → St → Exp × St
  | .constr x t ys e, s => let (e', s') := uncE cps e s; (.constr x t ys e', s')
  | .case x bs, s => let (bs', s') := uncBs cps bs s; (.case x bs', s')
  | .proj x t n y e, s => let (e', s') := uncE cps e s; (.proj x t n y e', s')
  | .letapp x f ft ys e, s => let (e', s') := uncE cps e s; (.letapp x f ft ys e', s')
  | .fn B e, s => let (B', s') := uncD cps B s; let (e', s'') := uncE cps e s'; (.fn B' e', s'')
  | .app f ft ys, s => (.app f ft ys, s)
  | .primVal x p e, s => let (e', s') := uncE cps e s; (.primVal x p e', s')
  | .prim x p ys e, s => let (e', s') := uncE cps e s; (.prim x p ys e', s')
  | .halt x, s => (.halt x, s)
/-- The traversal of branches (uncurry_proto.v:161-350). -/
def uncBs (cps : Bool) : Brs → St → Brs × St
  | .nil, s => (.nil, s)
  | .cons t e bs, s => let (e', s') := uncE cps e s; let (bs', s'') := uncBs cps bs s'; (.cons t e' bs', s'')
/-- The traversal of a bundle (uncurry_proto.v:161-350). -/
def uncD (cps : Bool) : Defs → St → Defs × St
  | .nil, s => (.nil, s)
  | .cons f ft xs e B, s =>
    let (D, s') := uncBody cps f ft xs e s
    let (B', s'') := uncD cps B s'
    (D.append B', s'')
/-- One entry of a bundle: the rules `uncurry_cps` and `uncurry_anf` (uncurry_proto.v:74-135) as long as they apply, then
the body. -/
def uncBody (cps : Bool) (f : Var) (ft : Tag) (xs : List Var) : Exp → St → Defs × St
  | .fn (.cons g gt gv ge .nil) tail, s => match peel cps xs g ge tail s with
    | some (pre, fv) =>
      let (gv1, fv1, f1, ft1, s1) := fresh gv fv g s
      let (D, s') := uncBody cps f1 ft1 (gv ++ fv) ge s1
      (.cons f ft (pre ++ fv1) (.fn (.cons g gt gv1 (.app f1 ft1 (gv1 ++ fv1)) .nil) tail) D, s')
    | none =>
      let (B', s') := uncD cps (.cons g gt gv ge .nil) s
      let (e', s'') := uncE cps tail s'
      (.cons f ft xs (.fn B' e') .nil, s'')
  | .fn B e, s =>
    let (B', s') := uncD cps B s
    let (e', s'') := uncE cps e s'
    (.cons f ft xs (.fn B' e') .nil, s'')
  | .constr x t ys e, s => let (e', s') := uncE cps e s; (.cons f ft xs (.constr x t ys e') .nil, s')
  | .case x bs, s => let (bs', s') := uncBs cps bs s; (.cons f ft xs (.case x bs') .nil, s')
  | .proj x t n y e, s => let (e', s') := uncE cps e s; (.cons f ft xs (.proj x t n y e') .nil, s')
  | .letapp x h ht ys e, s => let (e', s') := uncE cps e s; (.cons f ft xs (.letapp x h ht ys e') .nil, s')
  | .app h ht ys, s => (.cons f ft xs (.app h ht ys) .nil, s)
  | .primVal x p e, s => let (e', s') := uncE cps e s; (.cons f ft xs (.primVal x p e') .nil, s')
  | .prim x p ys e, s => let (e', s') := uncE cps e s; (.cons f ft xs (.prim x p ys e') .nil, s')
  | .halt x, s => (.cons f ft xs (.halt x) .nil, s)
end

/-- `max_var e 1` (identifiers.v:2936). -/
def maxVar (e : Exp) : Var := max ((e.fv ∪ e.bv.toFinset).sup id) 1

/-- `uncurry_top` (uncurry_proto.v:353-368): `none` when the counter is not above the variables of the program. -/
def uncurryTop (cps : Bool) (e : Exp) (c : Comp) : Option (Exp × Comp) :=
  if maxVar e < c.next then
    let (e', s) := uncE cps e ⟨c.next, c.ftag, fun _ => none, fun _ => false⟩
    some (e', { c with next := s.next, ftag := s.ftag })
  else none

end Unc
end ANF
