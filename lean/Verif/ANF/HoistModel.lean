import Verif.ANF.Sem

/-! # Hoisting: model of theories/LambdaANF/hoisting.v:24-92 -/

namespace ANF

mutual
/-- `erase_fundefs` (hoisting.v:24-70), in the code's continuation-passing style. -/
def eraseE : Exp → Defs → (Exp × Defs × Nat → Exp × Defs × Nat) → Exp × Defs × Nat
  | .constr x t ys e', defs, f => eraseE e' defs (fun (e, defs, n) => f (.constr x t ys e, defs, n))
  | .case x tes, defs, f => eraseBs x tes f (.case x .nil, defs, 0)
  | .proj x t n y e', defs, f => eraseE e' defs (fun (e, defs, m) => f (.proj x t n y e, defs, m))
  | .letapp x g ft ys e', defs, f => eraseE e' defs (fun (e, defs, n) => f (.letapp x g ft ys e, defs, n))
  | .fn B e', defs, f => eraseE e' defs (fun (e'', defs'', n) =>
      eraseNested B e'' defs'' (fun (e, defs, m) => f (e, defs, 1 + max n m)))
  | .app g ft xs, defs, f => f (.app g ft xs, defs, 0)
  | .primVal x p e', defs, f => eraseE e' defs (fun (e, defs, n) => f (.primVal x p e, defs, n))
  | .prim x p ys e', defs, f => eraseE e' defs (fun (e, defs, n) => f (.prim x p ys e, defs, n))
  | .halt x, defs, f => f (.halt x, defs, 0)
/-- The `fold_left` over branches (hoisting.v:30-44). -/
def eraseBs (x : Var) : Brs → (Exp × Defs × Nat → Exp × Defs × Nat) → Exp × Defs × Nat → Exp × Defs × Nat
  | .nil, f => f
  | .cons c e bs, f => eraseBs x bs (fun (e1, defs1, n1) =>
      eraseE e defs1 (fun (e2, defs2, n2) =>
        match e1 with
        | .case x' tes' => f (.case x' (.cons c e2 tes'), defs2, max n1 n2)
        | _ => f (.case x (.cons c e2 .nil), defs2, max n1 n2)))
/-- `erase_nested_fundefs` (hoisting.v:71-84). -/
def eraseNested : Defs → Exp → Defs → (Exp × Defs × Nat → Exp × Defs × Nat) → Exp × Defs × Nat
  | .cons g t xs e' B, e, hdefs, f => eraseNested B e hdefs (fun (e1, defs1, n1) =>
      eraseE e' defs1 (fun (e2, defs2, n2) => f (e1, .cons g t xs e2 defs2, max n1 n2)))
  | .nil, e, hdefs, f => f (e, hdefs, 0)
end

/-- `exp_hoist` (hoisting.v:87-92), without the returned statistics counter. -/
def hoist (e : Exp) : Exp :=
  match eraseE e .nil id with
  | (e', .nil, _) => e'
  | (e', defs, _) => .fn defs e'

end ANF
