import Verif.Src.Subst

/-!
# LambdaBoxLocal: environment semantics

Models the values and rules of theories/LambdaBoxLocal/fuel_sem.v (`value`, `eval_env_step`) as a total interpreter with
a bound on the nesting of function and branch bodies.  fuel_sem.v has no rules for erased proofs and primitive
literals; they are values here, as in expression.v, and `bx` says whether applying an erased proof gives an erased proof
(`eval_ProofApp_e` of expression.v) or is stuck.  Neither file has a rule for primitive operations (`Prim_e`).  Here a
primitive operation is a curried function of a given arity that computes data from primitive values; a program without
the operations is run with `Mode.plain`, in which there are none.
-/

namespace Src

/-- `value` (fuel_sem.v:10-14), with erased proofs and primitive literals; `pap p n vs` is the primitive operation
`p` applied to the arguments `vs`, waiting for `n + 1` more. -/
inductive SVal
  | con (d : Dcon) (vs : List SVal)
  | clos (ρ : List SVal) (e : Exp)
  | fixc (ρ : List SVal) (fs : Fns) (n : Nat)
  | prf
  | prim (p : ANF.PVal)
  | pap (p n : Nat) (vs : List SVal)

/-- What a program is run with: whether erased proofs can be applied, and the arities and meanings of the primitive
operations. -/
structure Mode where
  bx : Bool
  arity : Nat → Option Nat
  op : Nat → List ANF.PVal → Option Data

/-- No primitive operations. -/
abbrev Mode.plain (bx : Bool) : Mode := ⟨bx, fun _ => none, fun _ _ => none⟩

instance : Coe Bool Mode := ⟨Mode.plain⟩

mutual
/-- Data as a value. -/
def Data.toSVal : Data → SVal
  | .con i n ds => .con (i, n) (Data.toSVals ds)
  | .prim p => .prim p
  | .box => .prf
/-- The same for lists. -/
def Data.toSVals : List Data → List SVal
  | [] => []
  | d :: ds => d.toSVal :: Data.toSVals ds
end

/-- The primitive values in a list of values, if all are. -/
def asPrims : List SVal → Option (List ANF.PVal)
  | [] => some []
  | .prim p :: vs => (asPrims vs).map (p :: ·)
  | _ :: _ => none

/-- `result` (fuel_sem.v:37-39), with stuck evaluation as a third outcome. -/
inductive SRes
  | val (v : SVal)
  | oot
  | stuck

/-- Results of argument lists. -/
inductive SRess
  | vals (vs : List SVal)
  | oot
  | stuck

/-- `make_rec_env_rev_order` (fuel_sem.v:62-72). -/
def recEnv (fs : Fns) (ρ : List SVal) : List SVal := (listToZero fs.len).map (fun n => .fixc ρ fs n) ++ ρ

/-- A primitive operation applied to all its arguments. -/
def sprim (Q : Mode) (p : Nat) (vs : List SVal) : SRes := match asPrims vs with
  | some ps => match Q.op p ps with
    | some d => .val d.toSVal
    | none => .stuck
  | none => .stuck

/-- A primitive operation applied to `vs`, with `n` arguments missing. -/
def spap (Q : Mode) (p : Nat) : Nat → List SVal → SRes
  | 0, vs => sprim Q p vs
  | n + 1, vs => .val (.pap p n vs)

/-- The result `r` if there is room for a nested body. -/
def nest (call : List SVal → Exp → SRes) (r : SRes) : SRes := match call [] .prf with
  | .oot => .oot
  | _ => r

/-- Application of a value to a value (`eval_App_step`, `eval_FixApp_step`, fuel_sem.v:150-195).  Passing an argument to a
primitive operation takes a nested body, like passing one to a closure. -/
def sapply (Q : Mode) (call : List SVal → Exp → SRes) : SVal → SVal → SRes
  | .clos ρ e, v => call (v :: ρ) e
  | .fixc ρ fs n, v => match fs.nth n with
    | some (.lam e) => call (v :: recEnv fs ρ) e
    | _ => .stuck
  | .prf, _ => if Q.bx then .val .prf else .stuck
  | .pap p n vs, v => nest call (spap Q p n (vs ++ [v]))
  | _, _ => .stuck

/-- The branch taken by a match (`eval_Match_step`, fuel_sem.v:215-225). -/
def sbranch (call : List SVal → Exp → SRes) (bs : Brs) (ρ : List SVal) : SVal → SRes
  | .con d vs => match findBranch d vs.length bs with
    | some e => call (vs.reverse ++ ρ) e
    | none => .stuck
  | _ => .stuck

mutual
/-- One level of the interpreter; function and branch bodies are handed to `call`. -/
def seval (Q : Mode) (call : List SVal → Exp → SRes) : Exp → List SVal → SRes
  | .var i, ρ => match ρ[i]? with
    | some v => .val v
    | none => .stuck
  | .lam e, ρ => .val (.clos ρ e)
  | .app e₁ e₂, ρ => match seval Q call e₁ ρ with
    | .val f => match seval Q call e₂ ρ with
      | .val v => sapply Q call f v
      | .oot => .oot
      | .stuck => .stuck
    | .oot => .oot
    | .stuck => .stuck
  | .con d es, ρ => match sevals Q call es ρ with
    | .vals vs => .val (.con d vs)
    | .oot => .oot
    | .stuck => .stuck
  | .mtch e bs, ρ => match seval Q call e ρ with
    | .val v => sbranch call bs ρ v
    | .oot => .oot
    | .stuck => .stuck
  | .letin e₁ e₂, ρ => match seval Q call e₁ ρ with
    | .val v => seval Q call e₂ (v :: ρ)
    | .oot => .oot
    | .stuck => .stuck
  | .fix fs n, ρ => .val (.fixc ρ fs n)
  | .prf, _ => .val .prf
  | .pval p, _ => .val (.prim p)
  | .prim p, _ => match Q.arity p with
    | some n => spap Q p n []
    | none => .stuck
/-- Argument lists, left to right (`eval_fuel_many`, fuel_sem.v:240-252). -/
def sevals (Q : Mode) (call : List SVal → Exp → SRes) : Exps → List SVal → SRess
  | .nil, _ => .vals []
  | .cons e es, ρ => match seval Q call e ρ with
    | .val v => match sevals Q call es ρ with
      | .vals vs => .vals (v :: vs)
      | .oot => .oot
      | .stuck => .stuck
    | .oot => .oot
    | .stuck => .stuck
end

/-- The interpreter with at most `n` nested bodies. -/
def srun (Q : Mode) : Nat → List SVal → Exp → SRes
  | 0, ρ, e => seval Q (fun _ _ => .oot) e ρ
  | n + 1, ρ, e => seval Q (srun Q n) e ρ

/-- Calls as seen at level `n`. -/
def scall (Q : Mode) : Nat → List SVal → Exp → SRes
  | 0 => fun _ _ => .oot
  | n + 1 => srun Q n

theorem srun_scall (Q : Mode) (n : Nat) (ρ : List SVal) (e : Exp) : srun Q n ρ e = seval Q (scall Q n) e ρ := by
  cases n <;> rfl

end Src
