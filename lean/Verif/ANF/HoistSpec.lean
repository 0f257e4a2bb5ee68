import Verif.ANF.Obs

/-! # Hoisting: specification -/

namespace ANF

mutual
/-- No function definition anywhere in the term. -/
def Exp.NoFn : Exp → Prop
  | .constr _ _ _ e => e.NoFn
  | .case _ bs => bs.NoFn
  | .proj _ _ _ _ e => e.NoFn
  | .letapp _ _ _ _ e => e.NoFn
  | .fn _ _ => False
  | .app _ _ _ => True
  | .primVal _ _ e => e.NoFn
  | .prim _ _ _ e => e.NoFn
  | .halt _ => True
/-- The same for branches. -/
def Brs.NoFn : Brs → Prop
  | .nil => True
  | .cons _ e bs => e.NoFn ∧ bs.NoFn
end

/-- All bodies of the bundle are without function definitions. -/
def Defs.NoFn : Defs → Prop
  | .nil => True
  | .cons _ _ _ e B => e.NoFn ∧ B.NoFn

/-- A hoisted program: at most one bundle, at the top, and no function definitions below. -/
def Hoisted : Exp → Prop
  | .fn B e => B.NoFn ∧ e.NoFn
  | e => e.NoFn

mutual
/-- The names of all functions defined in a term. -/
def fnE : Exp → List Var
  | .constr _ _ _ e => fnE e
  | .case _ bs => fnBs bs
  | .proj _ _ _ _ e => fnE e
  | .letapp _ _ _ _ e => fnE e
  | .fn B e => fnB B ++ fnE e
  | .app _ _ _ => []
  | .primVal _ _ e => fnE e
  | .prim _ _ _ e => fnE e
  | .halt _ => []
/-- The same for branches. -/
def fnBs : Brs → List Var
  | .nil => []
  | .cons _ e bs => fnE e ++ fnBs bs
/-- The same for a bundle. -/
def fnB : Defs → List Var
  | .nil => []
  | .cons g _ _ e B => g :: (fnE e ++ fnB B)
end

mutual
/-- The free variables of every bundle in the term are among `G`, the functions of the program.  This is what closure
conversion establishes: it leaves references to functions of enclosing closed bundles alone
(closure_conversion.v:293-302). -/
def Exp.FnsClosed (G : List Var) : Exp → Prop
  | .constr _ _ _ e => e.FnsClosed G
  | .case _ bs => bs.FnsClosed G
  | .proj _ _ _ _ e => e.FnsClosed G
  | .letapp _ _ _ _ e => e.FnsClosed G
  | .fn B e => (∀ x ∈ B.fv, x ∈ G) ∧ B.FnsClosed G ∧ e.FnsClosed G
  | .app _ _ _ => True
  | .primVal _ _ e => e.FnsClosed G
  | .prim _ _ _ e => e.FnsClosed G
  | .halt _ => True
/-- The same for branches. -/
def Brs.FnsClosed (G : List Var) : Brs → Prop
  | .nil => True
  | .cons _ e bs => e.FnsClosed G ∧ bs.FnsClosed G
/-- The same for the bodies of a bundle. -/
def Defs.FnsClosed (G : List Var) : Defs → Prop
  | .nil => True
  | .cons _ _ _ e B => e.FnsClosed G ∧ B.FnsClosed G
end

end ANF
