import Verif.CGen.Model
import Verif.CPrint.NameModel

/-!
# The direct-style C backend with the C syntax it builds: theories/Codegen/LambdaANF_to_Clight_stack.v

CGen/Model.lean leaves out types, casts, signs of constants and names.  Here the same functions build the Clight syntax of
CPrint/Model.lean, which is what is printed.  What does not depend on the syntax (`funEnv`, `localsE`, `maxAllocsE`, `ctorRep`) is taken
from CGen/Model.lean.  Constants of strings and floating-point numbers are left out (`none`).
-/

namespace CGen.Text

open ANF
open CPrint (CE CS LS CTy CTys CFn Name)

/-- The names of functions and variables, and of temporaries without their `$` (`extern_atom` and `temp_name`, CPrint/NameModel.lean). -/
structure Names where
  ext : Var → Name
  tmp : Var → Name

/-- The names used when a program is printed. -/
def Names.of (t : Nat → Option Name) : Names := ⟨CPrint.externAtom t, fun x => (t x).getD (Nat.toDigits 10 x)⟩

variable (N : Names)

/-- `val` (LambdaANF_to_Clight_stack.v:361): printed `value`. -/
def val : CTy := .base .value

/-- `valPtr` (388). -/
def valPtr : CTy := .ptr val

/-- `threadInf` (341-342); `threadInfIdent` is 31 (Codegen/toplevel.v). -/
def threadInf : CTy := .ptr (.base (.struct (N.ext 31)))

/-- `stackframeT` (488); `stackframeTIdent` is 78. -/
def stackframeT : CTy := .base (.struct (N.ext 78))

/-- `mkFunTyList` (398-402). -/
def funTyList : Nat → CTys
  | 0 => .nil
  | n + 1 => .cons val (funTyList n)

/-- `mkFunTy` (404-405), `mkPrimTyTinfo` (410-411). -/
def mkFunTy (n : Nat) : CTy := .fn (.cons (threadInf N) (funTyList n)) false val

/-- `mkPrimTy` (407-408). -/
def mkPrimTy (n : Nat) : CTy := .fn (funTyList n) false val

/-- `c_int n val` (457), `make_cint` (368): a signed constant of 64 bits. -/
def lit (z : Int) : CE := .clong (z % 2 ^ 64).toNat false

/-- `Econst_long n (Tlong Unsigned noattr)` (880). -/
def ulit (z : Int) : CE := .clong (z % 2 ^ 64).toNat true

/-- `var x` (414). -/
def tvar (x : Var) : CE := .temp (N.tmp x)

/-- `tinf` (428); `tinfIdent` is 91. -/
def tinf : CE := .temp (N.tmp 91)

/-- `Efield tinfd f` (429). -/
def tfield (f : Var) : CE := .field (.deref (tinf N)) (N.ext f)

/-- `Efield (Evar frameIdent stackframeT) f` (509-513); `frameIdent` is 79. -/
def ffield (f : Var) : CE := .field (.var (N.ext 79)) (N.ext f)

/-- `allocPtr` (421); `allocIdent` is 28. -/
def allocP : CE := .temp (N.tmp 28)

/-- `limitPtr` (422); `limitIdent` is 29. -/
def limitP : CE := .temp (N.tmp 29)

/-- `Field(var x, n)` (468-469). -/
def fieldE (x : Var) (n : Int) : CE := .deref (.binop .add (.cast (tvar N x) valPtr) (lit n))

/-- `args[n]` (471-472); `argsIdent` is 26. -/
def argE (n : Nat) : CE := .deref (.binop .add (.temp (N.tmp 26)) (lit n))

/-- `roots` (503); `rootIdent` is 84. -/
def roots : CE := .var (N.ext 84)

/-- `roots[n]` (504). -/
def rootE (n : Nat) : CE := .deref (.binop .add (roots N) (lit n))

/-- `init_stack` (507-513); `nextFld` is 87, `rootFld` 84, `prevFld` 89, `fpIdent` 86. -/
def initStack : CS :=
  .seq (.assign (ffield N 87) (roots N)) (.seq (.assign (ffield N 84) (roots N)) (.assign (ffield N 89) (tfield N 86)))

/-- `set_stack` (518-521). -/
def setStack (sp : Nat) (b : Bool) : CS :=
  if sp = 0 ∨ b = true then .skip else .assign (tfield N 86) (.addrof (.var (N.ext 79)))

/-- `update_stack` (524-527). -/
def updateStack (sp : Nat) : CS := if sp = 0 then .skip else .assign (ffield N 87) (.binop .add (roots N) (lit sp))

/-- `reset_stack` (531-534). -/
def resetStack (sp : Nat) (b : Bool) : CS := if sp = 0 ∨ b = true then .skip else .assign (tfield N 86) (ffield N 89)

/-- `push_live_vars_offset` (544-549) with `push_var` (537-538). -/
def pushAux : List Var → Nat → CS → CS × Nat
  | [], n, s => (s, n)
  | x :: xs, n, s => pushAux xs (n + 1) (.seq (.assign (rootE N n) (tvar N x)) s)

/-- `pop_live_vars_offset` (551-556) with `pop_var` (541-542). -/
def popAux : List Var → Nat → CS → CS
  | [], _, s => s
  | x :: xs, n, s => popAux xs (n + 1) (.seq (.set (N.tmp x) (rootE N n)) s)

/-- `makeVar` (578-587). -/
def makeVar (fns : List Var) (x : Var) : CE := if x ∈ fns then .var (N.ext x) else tvar N x

/-- `assignConstructorS'` (589-606). -/
def assignFields (fns : List Var) (x : Var) : Nat → List Var → CS
  | _, [] => .skip
  | cur, [v] => .assign (fieldE N x cur) (makeVar N fns v)
  | cur, v :: w :: vs => .seq (.assign (fieldE N x cur) (makeVar N fns v)) (assignFields fns x (cur + 1) (w :: vs))

/-- `assignConstructorS` (608-627). -/
def assignConstructor (cenv : Ctor.PMap Ctor.Info) (fns : List Var) (x : Var) (t : Tag) (vs : List Var) : Option CS :=
  match ctorRep cenv t with
  | some (.enum o) => some (.set (N.tmp x) (lit (Rep.enum o).tag))
  | some (.boxed o a) => some (.seq (.set (N.tmp x) (.cast (.binop .add (allocP N) (lit 1)) val))
      (.seq (.set (N.tmp 28) (.binop .add (allocP N) (lit (a + 1))))
        (.seq (.assign (fieldE N x (-1)) (lit (Rep.boxed o a).tag)) (assignFields N fns x 0 vs))))
  | none => none

/-- `isPtr` (630-634). -/
def isPtr (x : Var) : CE := .binop .eq (.binop .and (tvar N x) (.cint 1 false)) (.cint 0 false)

/-- `mkCallVars` (637-649). -/
def mkCallVars (fns : List Var) : Nat → List Var → Option (List CE)
  | 0, [] => some []
  | n + 1, v :: vs => (mkCallVars fns n vs).map (makeVar N fns v :: ·)
  | _, _ => none

/-- `mkCall` (651-659), with the cast of the function (966, 1001). -/
def mkCall (np : Nat) (fns : List Var) (x : Var) (f : CE) (n : Nat) (vs : List Var) : Option CS :=
  (mkCallVars N fns n (vs.take np)).map fun as => .call (some (N.tmp x)) (.cast f (.ptr (mkFunTy N n))) (tinf N :: as)

/-- `mkPrimCall` (661-669). -/
def mkPrimCall (x : Var) (p : Tag) (fns : List Var) (vs : List Var) : Option CS :=
  (mkCallVars N fns vs.length vs).map fun as => .call (some (N.tmp x)) (.cast (.var (N.ext p)) (mkPrimTy vs.length)) as

/-- `mkPrimCallTinfo` (671-679). -/
def mkPrimCallTinfo (x : Var) (p : Tag) (fns : List Var) (vs : List Var) : Option CS :=
  (mkCallVars N fns vs.length vs).map fun as =>
    .call (some (N.tmp x)) (.cast (.var (N.ext p)) (mkFunTy N vs.length)) (tinf N :: as)

/-- `asgnFunVars'` (682-696). -/
def asgnFunVars' : List Var → List Nat → Option CS
  | [], [] => some .skip
  | v :: vs, i :: ind => (asgnFunVars' vs ind).map (.seq (.set (N.tmp v) (argE N i)) ·)
  | _, _ => none

/-- `asgnFunVars` (698-699). -/
def asgnFunVars (np : Nat) (vs : List Var) (ind : List Nat) : Option CS := asgnFunVars' N (vs.drop np) (ind.drop np)

/-- `asgnAppVars''` (702-715). -/
def asgnAppVars' (fns : List Var) : List Var → List Nat → Option CS
  | [], [] => some .skip
  | v :: vs, i :: ind => (asgnAppVars' fns vs ind).map (.seq · (.assign (argE N i) (makeVar N fns v)))
  | _, _ => none

/-- `asgnAppVars` (760-762). -/
def asgnAppVars (np : Nat) (fns : List Var) (vs : List Var) (ind : List Nat) : Option CS :=
  (asgnAppVars' N fns (vs.drop np) (ind.drop np)).map (.seq (.set (N.tmp 26) (tfield N 26)) ·)

/-- `allocIdent ::= Efield tinfd allocIdent valPtr` (976). -/
def loadAlloc : CS := .set (N.tmp 28) (tfield N 28)

/-- `limitIdent ::= Efield tinfd limitIdent valPtr` (977). -/
def loadLimit : CS := .set (N.tmp 29) (tfield N 29)

/-- `argsIdent ::= Efield tinfd argsIdent (Tarray uval maxArgs noattr)` (762). -/
def loadArgs : CS := .set (N.tmp 26) (tfield N 26)

/-- `Efield tinfd allocIdent valPtr :::= allocPtr` (973). -/
def saveAlloc : CS := .assign (tfield N 28) (allocP N)

/-- `Efield tinfd limitIdent valPtr :::= limitPtr` (973). -/
def saveLimit : CS := .assign (tfield N 29) (limitP N)

/-- `make_GC_call` (772-786); `nallocIdent` is 92, `gcIdent` 80. -/
def gcCall (n : Nat) (xs : List Var) (off : Nat) : CS × Nat :=
  let p := pushAux N xs off .skip
  if n = 0 then (.skip, off) else
    (.ite (.unop .notbool (.binop .le (lit n) (.binop .sub (limitP N) (allocP N))))
      (.seq (.seq p.1 (.seq (updateStack N p.2) (setStack N p.2 (off ≠ 0))))
        (.seq (.assign (tfield N 92) (lit n)) (.seq (.call none (.var (N.ext 80)) [tinf N])
          (.seq (.seq (popAux N xs off .skip) (resetStack N p.2 (off ≠ 0))) (.seq (loadAlloc N) (loadLimit N))))))
      .skip, p.2)

/-- `make_case_switch` (788-797). -/
def caseSwitch (x : Var) (ls ls' : LS) : CS :=
  .ite (isPtr N x) (.switch (.binop .and (fieldE N x (-1)) (lit 255)) ls) (.switch (.binop .shr (tvar N x) (lit 1)) ls')

/-- `compile_primitive` (878-883), integers only. -/
def compilePrim (x : Var) : PVal → Option CS
  | .int n => some (.set (N.tmp x) (ulit (n * 2 + 1)))
  | _ => none

/-- The statements around a call (`Eletapp` 941-982, `Eprim` 1017-1044): saving, the call `c`, restoring, then `k`. -/
def aroundCall (loc : Finset Var) (x : Var) (e' : Exp) (c k : CS) : CS :=
  let post := e'.fv ∩ loc
  let fvs := elements (post.erase x)
  let fvGc := if x ∈ post then [x] else []
  let p := pushAux N fvs 0 .skip
  .seq (saveAlloc N) (.seq (saveLimit N) (.seq (.seq p.1 (.seq (updateStack N p.2) (setStack N p.2 false)))
    (.seq c (.seq (loadAlloc N) (.seq (loadLimit N) (.seq (gcCall N (maxAllocsE e') fvGc p.2).1
      (.seq (.seq (popAux N fvs 0 .skip) (resetStack N p.2 false)) k)))))))

/-- The slots needed by the statements around a call (969-972). -/
def slotsAround (loc : Finset Var) (x : Var) (e' : Exp) : Nat :=
  let post := e'.fv ∩ loc
  (gcCall N (maxAllocsE e') (if x ∈ post then [x] else []) (pushAux N (elements (post.erase x)) 0 .skip).2).2

mutual
/-- `translate_body` (899-1054). -/
def genE (C : Cfg) (fenv : FEnv) (fns : List Var) (loc : Finset Var) : Exp → Nat → Option (CS × Nat)
  | .constr x t vs e, sl => match assignConstructor N C.cenv fns x t vs, genE C fenv fns loc e sl with
    | some p, some (s, n) => some (.seq p s, n)
    | _, _ => none
  | .case x bs, sl => match genBs C fenv fns loc bs sl with
    | some (ls, ls', n) => some (caseSwitch N x ls ls', n)
    | none => none
  | .proj x _ n v e, sl => match genE C fenv fns loc e sl with
    | some (s, m) => some (.seq (.set (N.tmp x) (fieldE N v n)) s, m)
    | none => none
  | .letapp x f t vs e, sl => match fenv t with
    | some (a, ind) => match asgnAppVars N C.nParam fns vs ind,
        mkCall N C.nParam fns x (makeVar N fns f) (min a C.nParam) vs with
      | some asgn, some c => match genE C fenv fns loc e (max sl (slotsAround N loc x e)) with
        | some (s, n) => some (.seq asgn (aroundCall N loc x e c s), n)
        | none => none
      | _, _ => none
    | none => none
  | .fn _ _, _ => none
  | .app f t vs, sl => match fenv t with
    | some (a, ind) => match asgnAppVars N C.nParam fns vs ind,
        mkCall N C.nParam fns C.result (makeVar N fns f) (min a C.nParam) vs with
      | some asgn, some c =>
        some (.seq asgn (.seq (saveAlloc N) (.seq (saveLimit N) (.seq c (.ret (some (makeVar N fns C.result)))))), sl)
      | _, _ => none
    | none => none
  | .primVal x p e, sl => match compilePrim N x p, genE C fenv fns loc e sl with
    | some c, some (s, n) => some (.seq c s, n)
    | _, _ => none
  | .prim x p vs e, sl => match C.prims p with
    | some false => match mkPrimCall N x p fns vs, genE C fenv fns loc e sl with
      | some c, some (s, n) => some (.seq c s, n)
      | _, _ => none
    | some true => match mkPrimCallTinfo N x p fns vs, genE C fenv fns loc e (max sl (slotsAround N loc x e)) with
      | some c, some (s, n) => some (aroundCall N loc x e c s, n)
      | _, _ => none
    | none => none
  | .halt x, sl => some (.seq (saveAlloc N) (.seq (saveLimit N) (.ret (some (makeVar N fns x)))), sl)
/-- `makeCases` (912-938). -/
def genBs (C : Cfg) (fenv : FEnv) (fns : List Var) (loc : Finset Var) : Brs → Nat → Option (LS × LS × Nat)
  | .nil, sl => some (.nil, .nil, sl)
  | .cons t e bs, sl => match genE C fenv fns loc e sl, genBs C fenv fns loc bs sl with
    | some (s, n), some (ls, ls', n') => match ctorRep C.cenv t with
      | some (.boxed o a) => match ls with
        | .nil => some (.cons none (.seq s .brk) .nil, ls', max n n')
        | .cons l s' r => some (.cons (some ((Rep.boxed o a).tag % 256)) (.seq s .brk) (.cons l s' r), ls', max n n')
      | some (.enum o) => match ls' with
        | .nil => some (ls, .cons none (.seq s .brk) .nil, max n n')
        | .cons l s' r => some (ls, .cons (some ((Rep.enum o).tag / 2)) (.seq s .brk) (.cons l s' r), max n n')
      | none => none
    | _, _ => none
end

/-- `stack_decl` (498-500). -/
def stackDecl (size : Nat) : List (Name × CTy) := [(N.ext 79, stackframeT N), (N.ext 84, .arr val size)]

/-- `mkFun` (1058-1070); `caseIdent` is 83, `resultIdent` 93. -/
def mkFun (np : Nat) (f : Var) (size : Nat) (vs loc : List Var) (body : CS) : CFn where
  name := N.ext f
  ret := val
  params := (N.tmp 91, threadInf N) :: (vs.take np).map fun x => (N.tmp x, val)
  va := false
  vars := stackDecl N size
  temps := ((vs.drop np ++ loc).map fun x => (N.tmp x, val)) ++
    [(N.tmp 28, valPtr), (N.tmp 29, valPtr), (N.tmp 26, valPtr), (N.tmp 83, .base .bool), (N.tmp 93, val)]
  body := body

/-- One function of `translate_fundefs` (1072-1107). -/
def genDef (C : Cfg) (fenv : FEnv) (fns : List Var) (f : Var) (t : Tag) (vs : List Var) (e : Exp) : Option CFn :=
  match fenv t with
  | none => none
  | some (_, ind) =>
    let live := elements (e.fv ∩ vs.toFinset)
    match asgnFunVars N C.nParam vs ind, genE N C fenv fns (vs.toFinset ∪ (localsE e).toFinset) e 0 with
    | some asgn, some (body, n) =>
      some (mkFun N C.nParam f (max live.length n) vs (localsE e)
        (.seq (loadAlloc N) (.seq (loadLimit N) (.seq (loadArgs N) (.seq asgn (.seq (initStack N)
          (.seq (gcCall N (maxAllocsE e) live 0).1 body)))))))
    | _, _ => none

/-- `translate_fundefs` (1072-1107). -/
def genDefs (C : Cfg) (fenv : FEnv) (fns : List Var) : Defs → Option (List CFn)
  | .nil => some []
  | .cons f t vs e B => match genDefs C fenv fns B, genDef N C fenv fns f t vs e with
    | some P, some F => some (F :: P)
    | _, _ => none

/-- `translate_program` (1160-1191); `bodyIdent` is 90. -/
def genProgram (C : Cfg) (body : Var) : Exp → Option (CFn × List CFn)
  | .fn B e =>
    let fenv := funEnv (.fn B e)
    let fns := B.names
    if infoOk fenv B then
      match genDefs N C fenv fns B, genE N C fenv fns (localsE e).toFinset e 0 with
      | some P, some (s, n) =>
        some ({ name := N.ext body, ret := val, params := [(N.tmp 91, threadInf N)], va := false, vars := stackDecl N n,
                temps := ((localsE e).map fun x => (N.tmp x, val)) ++ [(N.tmp 28, valPtr), (N.tmp 29, valPtr), (N.tmp 26, valPtr)],
                body := .seq (loadAlloc N) (.seq (loadLimit N) (.seq (loadArgs N) (.seq (initStack N)
                  (.seq (gcCall N (maxAllocsE e) [] 0).1 s)))) }, P)
      | _, _ => none
    else none
  | _ => none

/-- The text of the functions of a program (`print_function` for each, printClight.ml:259-276). -/
def functionTexts (M : CFn × List CFn) : List (List Char) := (M.1 :: M.2).map fun F => CPrint.text (CPrint.function F)

end CGen.Text
