import Verif.Wasm.PrimModel
import Verif.ANF.Sem

/-!
# The Wasm backend (`theories/CodegenWasm/LambdaANF_to_Wasm.v`, `LambdaANF_to_Wasm_restrictions.v`, `toplevel.v`)

Simplifications: the error monad is `Option` (messages dropped); maps are functions to `Option`; the
sections of the module other than the functions are in ModModel.lean (the table maps every index to the function of that index,
and type `n` is `i32^n → []`, which is how `Sem.lean` reads indirect calls: `C59_indirect`); the two lookups of a primitive (its entry in the
primitive environment, then its kernel name in `primop_map`) are one partial map.
-/

namespace Wasm
open Instr

/-- Constructor environments. -/
abbrev CEnv := Ctor.PMap Ctor.Info

/-- `localvar_env`, `fname_env` (LambdaANF_to_Wasm.v:56-57). -/
abbrev VMap := ANF.Var → Option Nat

/-! ## Restrictions -/

/-- `max_function_args` (LambdaANF_to_Wasm_restrictions.v:24). -/
def maxFunctionArgs : Nat := 100
/-- `max_num_functions` (LambdaANF_to_Wasm_restrictions.v:25). -/
def maxNumFunctions : Nat := 1000000
/-- `max_constr_args` (LambdaANF_to_Wasm_restrictions.v:26). -/
def maxConstrArgs : Nat := 1024

/-- The test of an ordinal (LambdaANF_to_Wasm_restrictions.v:33-37, 44-45, 52-53). -/
def ordOk (cenv : CEnv) (t : ANF.Tag) : Bool :=
  match cenv t with
  | some i => decide (i.ordinal < 2 ^ 31)
  | none => false

/-- `numOf_fundefs` (cps_util.v). -/
def numDefs : ANF.Defs → Nat
  | .nil => 0
  | .cons _ _ _ _ B => numDefs B + 1

mutual
/-- `check_restrictions` (LambdaANF_to_Wasm_restrictions.v:41-79). -/
def checkE (cenv : CEnv) : ANF.Exp → Bool
  | .constr _ t ys e => ordOk cenv t && decide (ys.length ≤ maxConstrArgs) && checkE cenv e
  | .case _ bs => checkB cenv bs
  | .proj _ _ _ _ e => checkE cenv e
  | .letapp _ _ _ ys e => decide (ys.length ≤ maxFunctionArgs) && checkE cenv e
  | .fn B e => decide (numDefs B ≤ maxNumFunctions) && checkD cenv B && checkE cenv e
  | .app _ _ ys => decide (ys.length ≤ maxFunctionArgs)
  | .primVal _ _ e => checkE cenv e
  | .prim _ _ _ e => checkE cenv e
  | .halt _ => true
/-- The branches of a match (LambdaANF_to_Wasm_restrictions.v:51-55). -/
def checkB (cenv : CEnv) : ANF.Brs → Bool
  | .nil => true
  | .cons t e bs => ordOk cenv t && checkE cenv e && checkB cenv bs
/-- The functions of a bundle (LambdaANF_to_Wasm_restrictions.v:64-72). -/
def checkD (cenv : CEnv) : ANF.Defs → Bool
  | .nil => true
  | .cons _ _ ys e B => decide (ys.length ≤ maxFunctionArgs) && checkD cenv B && checkE cenv e
end

/-! ## Expressions -/

/-- `Wasm_int.Int32.repr` of a natural number. -/
def w32 (n : Nat) : Instr := const (.i32 (n % 2 ^ 32))

/-- `instr_local_var_read` (LambdaANF_to_Wasm.v:114-121). -/
def readVar (lenv fenv : VMap) (x : ANF.Var) : Option Instr :=
  match fenv x with
  | some i => some (w32 i)
  | none => (lenv x).map localGet

/-- `pass_function_args` (LambdaANF_to_Wasm.v:137-144). -/
def passArgs (lenv fenv : VMap) : List ANF.Var → Option (List Instr)
  | [] => some []
  | y :: ys => do
    let i ← readVar lenv fenv y
    let is ← passArgs lenv fenv ys
    some (i :: is)

/-- `translate_call` (LambdaANF_to_Wasm.v:146-153). -/
def translateCall (lenv fenv : VMap) (f : ANF.Var) (ys : List ANF.Var) (tail : Bool) : Option (List Instr) := do
  let is ← passArgs lenv fenv ys
  let i ← readVar lenv fenv f
  some (is ++ [i] ++ [if tail then returnCallIndirect ys.length else callIndirect ys.length])

/-- `store_constructor_args` (LambdaANF_to_Wasm.v:171-191). -/
def storeArgs (lenv fenv : VMap) : List ANF.Var → Nat → Option (List Instr)
  | [], _ => some []
  | y :: ys, k => do
    let i ← readVar lenv fenv y
    let is ← storeArgs lenv fenv ys (1 + k)
    some ([globalGet globCap, w32 (4 * (1 + k)), binop .t32 .add, i, store .t32 0,
      globalGet globMemPtr, w32 4, binop .t32 .add, globalSet globMemPtr] ++ is)

/-- `store_constructor` (LambdaANF_to_Wasm.v:194-209). -/
def storeConstr (cenv : CEnv) (lenv fenv : VMap) (t : ANF.Tag) (ys : List ANF.Var) : Option (List Instr) := do
  let info ← cenv t
  let is ← storeArgs lenv fenv ys 0
  some ([globalGet globMemPtr, globalSet globCap, globalGet globCap, w32 info.ordinal, store .t32 0,
    globalGet globMemPtr, w32 4, binop .t32 .add, globalSet globMemPtr] ++ is)

/-- `create_case_nested_if_chain` (LambdaANF_to_Wasm.v:212-230). -/
def ifChain (boxed : Bool) (v : Nat) : List (Nat × List Instr) → List Instr
  | [] => [unreachable]
  | (ord, is) :: tl =>
    localGet v :: (if boxed then [load .t32 0, w32 ord] else [w32 (2 * ord + 1)]) ++
      [relop .t32 .eq, ifte [] is (ifChain boxed v tl)]

/-- `grow_memory_if_necessary` (LambdaANF_to_Wasm.v:274-296). -/
def growMem : List Instr :=
  [globalGet globMemPtr, w32 pageSize, binop .t32 .add, w32 (2 ^ 16), binop .t32 .divS, memorySize, relop .t32 .geS,
    ifte []
      [w32 1, memoryGrow, const (.i32 (2 ^ 32 - 1)), relop .t32 .eq,
        ifte [] [w32 1, globalSet globOutOfMem, ret] []]
      []]

/-- `call_grow_mem_if_necessary` (LambdaANF_to_Wasm.v:300-303). -/
def growIf (mem required : Nat) : List Instr × Nat :=
  if required ≤ mem then ([], mem - required) else (growMem, 65536 - required)

/-- `get_ctor_size` (LambdaANF_to_Wasm.v:129-131). -/
def ctorSize (i : Ctor.Info) : Nat := if i.arity = 0 then 0 else 4 * (i.arity + 1) + 24

/-- `translate_primitive_value` (LambdaANF_to_Wasm.v:235-240). -/
def literal : ANF.PVal → Option Nat
  | .int n => some (n % 2 ^ 64)
  | _ => none

section
variable (cenv : CEnv) (lenv fenv : VMap) (penv : ANF.Tag → Option Primop)

mutual
/-- `translate_body` (LambdaANF_to_Wasm.v:308-422). -/
def transE : ANF.Exp → Nat → Option (List Instr)
  | .fn _ _, _ => none
  | .constr x t ys e, mem => do
    let i ← lenv x
    match ys with
    | [] =>
      let info ← cenv t
      let is ← transE e mem
      some ([w32 (2 * info.ordinal + 1), localSet i] ++ is)
    | _ =>
      let st ← storeConstr cenv lenv fenv t ys
      let info ← cenv t
      let p := growIf mem (ctorSize info)
      let is ← transE e p.2
      some (p.1 ++ st ++ [globalGet globCap, localSet i] ++ is)
  | .case x bs, mem => do
    let i ← lenv x
    let (boxed, unboxed) ← transB bs mem
    some [localGet i, w32 1, binop .t32 .and, eqz .t32, ifte [] (ifChain true i boxed) (ifChain false i unboxed)]
  | .proj x _ n y e, mem => do
    let is ← transE e mem
    let j ← lenv y
    let i ← lenv x
    some ([localGet j, w32 ((n + 1) * 4), binop .t32 .add, load .t32 0, localSet i] ++ is)
  | .letapp x f _ ys e, _ => do
    let i ← lenv x
    let is ← transE e 0
    let call ← translateCall lenv fenv f ys false
    some (call ++ [globalGet globOutOfMem, ifte [] [ret] [], globalGet globResult, localSet i] ++ is)
  | .app f _ ys, _ => translateCall lenv fenv f ys true
  | .primVal x p e, mem => do
    let i ← lenv x
    let v ← literal p
    let g := growIf mem 32
    let is ← transE e g.2
    some (g.1 ++ [globalGet globMemPtr, const (.i64 v), store .t64 0, globalGet globMemPtr, localSet i,
      globalGet globMemPtr, w32 8, binop .t32 .add, globalSet globMemPtr] ++ is)
  | .prim x p ys e, mem => do
    let op ← penv p
    let i ← lenv x
    let js ← ys.mapM lenv
    let code ← translatePrimop op js
    let g := growIf mem 52
    let is ← transE e g.2
    some (g.1 ++ code ++ [localSet i] ++ is)
  | .halt x, _ => do
    let i ← lenv x
    some [localGet i, globalSet globResult, ret]
/-- `translate_case_branch_expressions` (LambdaANF_to_Wasm.v:335-350): the boxed and the unboxed branches. -/
def transB : ANF.Brs → Nat → Option (List (Nat × List Instr) × List (Nat × List Instr))
  | .nil, _ => some ([], [])
  | .cons t e bs, mem => do
    let is ← transE e mem
    let (boxed, unboxed) ← transB bs mem
    let info ← cenv t
    if info.arity = 0 then some (boxed, (info.ordinal, is) :: unboxed) else some ((info.ordinal, is) :: boxed, unboxed)
end

end

/-! ## Functions -/

mutual
/-- `collect_local_variables` (LambdaANF_to_Wasm.v:428-439). -/
def localVars : ANF.Exp → List ANF.Var
  | .fn _ e => localVars e
  | .constr x _ _ e => x :: localVars e
  | .case _ bs => localVarsB bs
  | .proj x _ _ _ e => x :: localVars e
  | .letapp x _ _ _ e => x :: localVars e
  | .prim x _ _ e => x :: localVars e
  | .primVal x _ e => x :: localVars e
  | .app _ _ _ => []
  | .halt _ => []
/-- The branches of a match (LambdaANF_to_Wasm.v:432). -/
def localVarsB : ANF.Brs → List ANF.Var
  | .nil => []
  | .cons _ e bs => localVars e ++ localVarsB bs
end

/-- `create_var_mapping` (LambdaANF_to_Wasm.v:442-447, 449-450) from the empty map. -/
def varMap : Nat → List ANF.Var → VMap
  | _, [], _ => none
  | k, v :: l, x => if x = v then some k else varMap (k + 1) l x

/-- `translate_function` (LambdaANF_to_Wasm.v:452-464). -/
def transFun (cenv : CEnv) (fenv : VMap) (penv : ANF.Tag → Option Primop) (f : ANF.Var) (xs : List ANF.Var) (e : ANF.Exp) :
    Option Func := do
  let _ ← fenv f
  let body ← transE cenv (varMap 0 (xs ++ localVars e)) fenv penv e 0
  some ⟨xs.length, (localVars e).length, body⟩

/-- `translate_functions` (LambdaANF_to_Wasm.v:466-474). -/
def transFuns (cenv : CEnv) (fenv : VMap) (penv : ANF.Tag → Option Primop) : ANF.Defs → Option (List Func)
  | .nil => some []
  | .cons f _ xs e B => do
    let fn ← transFun cenv fenv penv f xs e
    let fs ← transFuns cenv fenv penv B
    some (fn :: fs)

/-- `max_mem_pages` (LambdaANF_to_Wasm.v:28). -/
def maxMemPages : Nat := 30000

/-- `LambdaANF_to_Wasm` (LambdaANF_to_Wasm.v:527-628): the functions of the module, the main function first. -/
def transProg (cenv : CEnv) (penv : ANF.Tag → Option Primop) (e : ANF.Exp) : Option (List Func) :=
  if checkE cenv e then
    match e with
    | .fn B e => do
      let fenv := varMap 1 B.names
      let fns ← transFuns cenv fenv penv B
      let main ← transE cenv (varMap 0 (localVars e)) fenv penv e 0
      some (⟨0, (localVars e).length, main⟩ :: fns)
    | _ => none
  else none

/-- `ensure_top_level_Efun` (toplevel.v:14-18). -/
def topFun : ANF.Exp → ANF.Exp
  | .fn B e => .fn B e
  | e => .fn .nil e

/-- The state in which the exported main function is called (LambdaANF_to_Wasm.v:589-618: one page, globals 0). -/
def initSt (mem : Mem) (main : Func) : St :=
  ⟨mem, 1, fun i => if i < 4 then .i32 0 else .i64 0, List.replicate main.locals (.i32 0), []⟩

end Wasm
