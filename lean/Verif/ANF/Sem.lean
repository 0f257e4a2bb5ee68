import Verif.ANF.Syntax

/-!
# LambdaANF: semantics

`Bstep`/`Bfuel` transcribe the big-step relation of theories/LambdaANF/eval.v:46-135 (fuel and trace are natural
numbers and every term costs one unit, an instance of the resource algebra of algebra.v).  `run` is a total
interpreter with a bound on the nesting of calls only; it is proved equivalent to the relation in `SemLemmas`.

eval.v has no rule for primitive literals and operations (the rule for operations is commented out, lines 113-122):
terms with primitives are stuck there.  The model adds the two rules; an operation is interpreted by a partial function
from primitive arguments to a first-order result, a parameter of the semantics.
-/

namespace ANF

/-- First-order data: the observable results of a program. -/
inductive FO
  | con (t : Tag) (vs : List FO)
  | prim (p : PVal)

mutual
/-- A first-order result as a value. -/
def FO.toVal : FO → Val
  | .con t vs => .constr t (FO.toVals vs)
  | .prim p => .prim p
/-- The same for lists. -/
def FO.toVals : List FO → List Val
  | [] => []
  | v :: vs => v.toVal :: FO.toVals vs
end

/-- Parameters of the semantics: the constructor environment (`cenv` of eval.v:30) and the meaning of primitive
operations (`pr` in the commented rule eval.v:113-122). -/
structure Sig where
  cenv : Ctor.PMap Ctor.Info
  prims : Tag → List PVal → Option FO

/-- The primitive values in a list of values, if all of them are. -/
def asPrims : List Val → Option (List PVal)
  | [] => some []
  | .prim p :: vs => (asPrims vs).map (p :: ·)
  | _ :: _ => none

/-- Meaning of a primitive operation on values. -/
def Sig.op (S : Sig) (p : Tag) (vs : List Val) : Option Val :=
  match asPrims vs with
  | some ps => (S.prims p ps).map FO.toVal
  | none => none

/-- The target of a call (premises of `BStept_app`, eval.v:75-88): closure, arguments, definition with the call's tag,
parameters bound in the environment of the bundle. -/
def callee (ρ : Env) (f : Var) (ft : Tag) (ys : List Var) : Option (Env × Exp) :=
  match ρ f, getList ρ ys with
  | some (.fn ρ' B f'), some vs => match findDef f' B with
    | some (ft', xs, e) => if ft' = ft then (setLists xs vs (defFuns B B ρ' ρ')).map (·, e) else none
    | none => none
  | _, _ => none

/-- `res` (eval.v:37-39). -/
inductive BRes
  | oot
  | res (v : Val)

mutual
/-- `bstep` (eval.v:46-125) with natural-number fuel and trace. -/
inductive Bstep (S : Sig) : Env → Exp → Nat → BRes → Nat → Prop
  | constr {ρ x t ys e vs r c o} : getList ρ ys = some vs → Bfuel S (ρ.set x (.constr t vs)) e c r o →
      Bstep S ρ (.constr x t ys e) c r o
  | proj {ρ x t n y e vs v r c o} : ρ y = some (.constr t vs) → vs[n]? = some v → Bfuel S (ρ.set x v) e c r o →
      Bstep S ρ (.proj x t n y e) c r o
  | case {ρ y bs t vs e r c o} : ρ y = some (.constr t vs) → consistent S.cenv t bs.tags = true →
      findTag t bs = some e → Bfuel S ρ e c r o → Bstep S ρ (.case y bs) c r o
  | app {ρ ρ' f ft ys vs B f' xs e ρ'' r c o} : ρ f = some (.fn ρ' B f') → getList ρ ys = some vs →
      findDef f' B = some (ft, xs, e) → setLists xs vs (defFuns B B ρ' ρ') = some ρ'' → Bfuel S ρ'' e c r o →
      Bstep S ρ (.app f ft ys) c r o
  | letapp {ρ ρ' x f ft ys vs B f' xs eb e ρ'' v r c1 c2 o1 o2} : ρ f = some (.fn ρ' B f') → getList ρ ys = some vs →
      findDef f' B = some (ft, xs, eb) → setLists xs vs (defFuns B B ρ' ρ') = some ρ'' →
      Bfuel S ρ'' eb c1 (.res v) o1 → Bfuel S (ρ.set x v) e c2 r o2 →
      Bstep S ρ (.letapp x f ft ys e) (c1 + c2) r (o1 + o2)
  | letappOot {ρ ρ' x f ft ys vs B f' xs eb e ρ'' c o} : ρ f = some (.fn ρ' B f') → getList ρ ys = some vs →
      findDef f' B = some (ft, xs, eb) → setLists xs vs (defFuns B B ρ' ρ') = some ρ'' →
      Bfuel S ρ'' eb c .oot o → Bstep S ρ (.letapp x f ft ys e) c .oot o
  | fn {ρ B e r c o} : Bfuel S (defFuns B B ρ ρ) e c r o → Bstep S ρ (.fn B e) c r o
  | primVal {ρ x p e r c o} : Bfuel S (ρ.set x (.prim p)) e c r o → Bstep S ρ (.primVal x p e) c r o
  | prim {ρ x p ys e vs v r c o} : getList ρ ys = some vs → S.op p vs = some v → Bfuel S (ρ.set x v) e c r o →
      Bstep S ρ (.prim x p ys e) c r o
  | halt {ρ x v} : ρ x = some v → Bstep S ρ (.halt x) 0 (.res v) 0
/-- `bstep_fuel` (eval.v:126-135): stop when there is no fuel for the next step, otherwise pay one unit and step. -/
inductive Bfuel (S : Sig) : Env → Exp → Nat → BRes → Nat → Prop
  | oot {ρ e c} : c < 1 → Bfuel S ρ e c .oot 0
  | run {ρ e c r o} : Bstep S ρ e c r o → Bfuel S ρ e (c + 1) r (o + 1)
end

/-- Results of the interpreter. -/
inductive Res
  | val (v : Val)
  | oot
  | stuck

mutual
/-- One call level of the interpreter: runs a term, handing the bodies of called functions to `call`. -/
def evalE (S : Sig) (call : Env → Exp → Res) : Exp → Env → Res
  | .constr x t ys e, ρ => match getList ρ ys with
    | some vs => evalE S call e (ρ.set x (.constr t vs))
    | none => .stuck
  | .case y bs, ρ => match ρ y with
    | some (.constr t _) => if consistent S.cenv t bs.tags then evalB S call t bs ρ else .stuck
    | _ => .stuck
  | .proj x t n y e, ρ => match ρ y with
    | some (.constr t' vs) => if t' = t then
        match vs[n]? with
        | some v => evalE S call e (ρ.set x v)
        | none => .stuck
      else .stuck
    | _ => .stuck
  | .letapp x f ft ys e, ρ => match callee ρ f ft ys with
    | some (ρ', eb) => match call ρ' eb with
      | .val v => evalE S call e (ρ.set x v)
      | .oot => .oot
      | .stuck => .stuck
    | none => .stuck
  | .fn B e, ρ => evalE S call e (defFuns B B ρ ρ)
  | .app f ft ys, ρ => match callee ρ f ft ys with
    | some (ρ', eb) => call ρ' eb
    | none => .stuck
  | .primVal x p e, ρ => evalE S call e (ρ.set x (.prim p))
  | .prim x p ys e, ρ => match getList ρ ys with
    | some vs => match S.op p vs with
      | some v => evalE S call e (ρ.set x v)
      | none => .stuck
    | none => .stuck
  | .halt x, ρ => match ρ x with
    | some v => .val v
    | none => .stuck
/-- Runs the first branch with the given tag. -/
def evalB (S : Sig) (call : Env → Exp → Res) (t : Tag) : Brs → Env → Res
  | .nil, _ => .stuck
  | .cons t' e bs, ρ => if t' = t then evalE S call e ρ else evalB S call t bs ρ
end

/-- The interpreter with at most `n` nested calls. -/
def run (S : Sig) : Nat → Env → Exp → Res
  | 0, ρ, e => evalE S (fun _ _ => .oot) e ρ
  | n + 1, ρ, e => evalE S (run S n) e ρ

/-- The program returns the value. -/
def Returns (S : Sig) (ρ : Env) (e : Exp) (v : Val) : Prop := ∃ n, run S n ρ e = .val v

/-- The program never stops. -/
def Diverges (S : Sig) (ρ : Env) (e : Exp) : Prop := ∀ n, run S n ρ e = .oot

/-- The program goes wrong. -/
def GoesWrong (S : Sig) (ρ : Env) (e : Exp) : Prop := ∃ n, run S n ρ e = .stuck

/-- The empty environment. -/
def emp : Env := fun _ => none

end ANF
