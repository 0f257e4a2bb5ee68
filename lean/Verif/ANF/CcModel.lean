import Verif.ANF.State

/-!
# Closure conversion: model of theories/LambdaANF/closure_conversion.v:242-497

The state monad is written out: a function that uses the state takes it as last argument and returns it second.
Pretty names are left out.
-/

namespace ANF
open Ctor (PMap cloTag cloIndTag)

/-- `VarInfo` (247-254). -/
inductive VInfo
  | fvar (n : Nat)
  | mrfun (env : Var)
  | bound

/-- `get_var` (279-306). -/
def getVar (x : Var) (m : PMap VInfo) (g : Var → Bool) (c : Tag) (Γ : Var) (s : Comp) : (Var × (Exp → Exp)) × Comp :=
  match m x with
  | some (.fvar n) => ((s.next, fun e => .proj s.next c n Γ e), s.bump)
  | some (.mrfun env) => ((s.next, fun e => .constr s.next cloTag [x, env] e), s.bump)
  | some .bound => ((x, id), s)
  | none =>
    if g x then
      let s1 := s.record 0
      ((s1.next, fun e => .constr (s1.next + 1) s.ctag [] (.constr s1.next cloTag [x, s1.next + 1] e)), s1.bump.bump)
    else ((x, id), s)

/-- `get_vars` (308-318). -/
def getVars : List Var → PMap VInfo → (Var → Bool) → Tag → Var → Comp → (List Var × (Exp → Exp)) × Comp
  | [], _, _, _, _, s => (([], id), s)
  | x :: xs, m, g, c, Γ, s =>
    let t1 := getVar x m g c Γ s
    let t2 := getVars xs m g c Γ t1.2
    ((t1.1.1 :: t2.1.1, fun e => t1.1.2 (t2.1.2 e)), t2.2)

/-- `add_params` (321-326). -/
def addParams : List Var → PMap VInfo → PMap VInfo
  | [], m => m
  | x :: xs, m => (addParams xs m).set x .bound

/-- `add_fvs` in `make_env` (334-339). -/
def addFvs : List Var → Nat → PMap VInfo → PMap VInfo × Nat
  | [], n, m => (m, n)
  | x :: xs, n, m => addFvs xs (n + 1) (m.set x (.fvar n))

/-- `make_env` (329-344): tag and variable map of the new environment, and the code that builds it. -/
def makeEnv (fvs : List Var) (mOld : PMap VInfo) (cOld : Tag) (Γnew Γold : Var) (g : Var → Bool) (s : Comp) :
    (Tag × PMap VInfo × (Exp → Exp)) × Comp :=
  let mn := addFvs fvs 0 PMap.empty
  let t1 := getVars fvs mOld g cOld Γold s
  ((t1.2.ctag, mn.1, fun e => t1.1.2 (.constr Γnew t1.2.ctag t1.1.1 e)), t1.2.record mn.2)

/-- `add_closures` (347-355). -/
def addClosures : Defs → PMap VInfo → Var → PMap VInfo
  | .cons f _ _ _ B, m, env => (addClosures B m env).set f (.mrfun env)
  | .nil, m, _ => m

/-- `add_closures_gfuns` (358-368). -/
def addGFuns : Defs → (Var → Bool) → Bool → Var → Bool
  | .cons f _ _ _ B, g, closed => if closed then fun x => if x = f then true else addGFuns B g closed x else g
  | .nil, g, _ => g

mutual
/-- `exp_closure_conv` (375-455). -/
def ccE : Exp → PMap VInfo → (Var → Bool) → Tag → Var → Comp → (Exp × (Exp → Exp)) × Comp
  | .constr x t ys e, m, g, c, Γ, s =>
    let t1 := getVars ys m g c Γ s
    let ef := ccE e (m.set x .bound) g c Γ t1.2
    ((.constr x t t1.1.1 (ef.1.2 ef.1.1), t1.1.2), ef.2)
  | .case x bs, m, g, c, Γ, s =>
    let bs' := ccBs bs m g c Γ s
    let t1 := getVar x m g c Γ bs'.2
    ((.case t1.1.1 bs'.1, t1.1.2), t1.2)
  | .proj x t n y e, m, g, c, Γ, s =>
    let t1 := getVar y m g c Γ s
    let ef := ccE e (m.set x .bound) g c Γ t1.2
    ((.proj x t n t1.1.1 (ef.1.2 ef.1.1), t1.1.2), ef.2)
  | .letapp x f ft xs e, m, g, c, Γ, s =>
    let t1 := getVar f m g c Γ s
    let t2 := getVars xs m g c Γ t1.2
    let ptr := t2.2.next
    let Γ' := t2.2.next + 1
    let ef := ccE e (m.set x .bound) g c Γ t2.2.bump.bump
    ((.proj ptr cloTag 0 t1.1.1 (.proj Γ' cloTag 1 t1.1.1 (.letapp x ptr ft (Γ' :: t2.1.1) (ef.1.2 ef.1.1))),
      fun e => t1.1.2 (t2.1.2 e)), ef.2)
  | .fn B e, m, g, c, Γ, s =>
    let fvs := (elements B.fv).filter (fun x => !g x)
    let Γ' := s.next
    let t1 := makeEnv fvs m c Γ' Γ g s.bump
    let m' := addClosures B m Γ'
    let g' := addGFuns B g fvs.isEmpty
    let B' := ccB B B t1.1.2.1 g' t1.1.1 t1.2
    let ef := ccE e m' g' c Γ B'.2
    ((.fn B'.1 (ef.1.2 ef.1.1), t1.1.2.2), ef.2)
  | .app f ft xs, m, g, c, Γ, s =>
    let t1 := getVar f m g c Γ s
    let t2 := getVars xs m g c Γ t1.2
    let ptr := t2.2.next
    let Γ' := t2.2.next + 1
    ((.proj ptr cloTag 0 t1.1.1 (.proj Γ' cloTag 1 t1.1.1 (.app ptr ft (Γ' :: t2.1.1))),
      fun e => t1.1.2 (t2.1.2 e)), t2.2.bump.bump)
  | .primVal x p e, m, g, c, Γ, s =>
    let ef := ccE e (m.set x .bound) g c Γ s
    ((.primVal x p (ef.1.2 ef.1.1), id), ef.2)
  | .prim x p ys e, m, g, c, Γ, s =>
    let t1 := getVars ys m g c Γ s
    let ef := ccE e (m.set x .bound) g c Γ t1.2
    ((.prim x p t1.1.1 (ef.1.2 ef.1.1), t1.1.2), ef.2)
  | .halt x, m, g, c, Γ, s =>
    let t1 := getVar x m g c Γ s
    ((.halt t1.1.1, t1.1.2), t1.2)
/-- `mapM_cc` (385-393). -/
def ccBs : Brs → PMap VInfo → (Var → Bool) → Tag → Var → Comp → Brs × Comp
  | .nil, _, _, _, _, s => (.nil, s)
  | .cons t e bs, m, g, c, Γ, s =>
    let ef := ccE e m g c Γ s
    let bs' := ccBs bs m g c Γ ef.2
    (.cons t (ef.1.2 ef.1.1) bs'.1, bs'.2)
/-- `fundefs_closure_conv` (456-470). -/
def ccB (B0 : Defs) : Defs → PMap VInfo → (Var → Bool) → Tag → Comp → Defs × Comp
  | .cons f ft ys e B, m, g, c, s =>
    let Γ := s.next
    let m' := addParams ys (addClosures B0 m Γ)
    let ef := ccE e m' g c Γ s.bump
    let B' := ccB B0 B m g c ef.2
    (.cons f ft (Γ :: ys) (ef.1.2 ef.1.1) B'.1, B'.2)
  | .nil, _, _, _, s => (.nil, s)
end

/-- `add_closure_tag` (cps.v:411-418). -/
def addClosureTag (cenv : PMap Ctor.Info) : PMap Ctor.Info := cenv.set cloTag ⟨none, none, cloIndTag, 2, 0⟩

/-- `closure_conversion_top` (482-497). -/
def closureConversion (e : Exp) (s : Comp) : Exp × Comp :=
  let Γ := s.next
  let m : PMap VInfo := fun x => if x ∈ e.fv then some .bound else none
  let r := ccE e m (fun _ => false) 1 Γ s.bump
  (r.1.2 r.1.1, { r.2 with cenv := addClosureTag r.2.cenv })

end ANF
