import Verif.Wasm.GenModel
import Verif.Wasm.Valid

/-!
# The module the Wasm backend assembles (`theories/CodegenWasm/LambdaANF_to_Wasm.v:476-628`)

`GenModel.lean` models the functions; this file adds the other sections. Strings are lists of characters (the source
converts to and from byte lists); the name environment is any function from variables to strings.
-/

namespace Wasm
open Instr

/-- `sanitize_function_name` (LambdaANF_to_Wasm.v:476-481). -/
def sanitize (s : List Char) (i : Nat) : List Char :=
  '_' :: (Nat.toDigits 10 i ++ ['_', '_']) ++ s.map fun b => if b = '.' then '_' else b

/-- `list_function_types` (LambdaANF_to_Wasm.v:511-515). -/
def funTypes : Nat → List FuncType
  | 0 => [⟨[], []⟩]
  | n + 1 => ⟨[], []⟩ :: (funTypes n).map fun t => ⟨.t32 :: t.params, t.results⟩

/-- `table_element_mapping` (LambdaANF_to_Wasm.v:518-525). -/
def tableElems : Nat → Nat → List ModElem
  | 0, _ => []
  | len + 1, start => ⟨0, [w32 start], [start]⟩ :: tableElems len (start + 1)

/-- `main_function_name` (LambdaANF_to_Wasm.v:37). -/
def mainName : List Char := "main_function".toList

/-- The exports of the functions other than main (LambdaANF_to_Wasm.v:458-459, 484-492, 555-557): the index is the one
the function map gives to the name. -/
def funExports (names : ANF.Var → List Char) (fenv : VMap) : Nat → ANF.Defs → Option (List Export)
  | _, .nil => some []
  | i, .cons f _ _ _ B => do
    let idx ← fenv f
    let xs ← funExports names fenv (i + 1) B
    some (⟨sanitize (names f) i, .func idx⟩ :: xs)

/-- The exported globals and memory (LambdaANF_to_Wasm.v:558-569). -/
def dataExports : List Export :=
  [⟨"out_of_mem".toList, .global globOutOfMem⟩, ⟨"mem_ptr".toList, .global globMemPtr⟩, ⟨"result".toList, .global globResult⟩,
    ⟨"memory".toList, .mem 0⟩]

/-- The globals (LambdaANF_to_Wasm.v:595-618). -/
def modGlobals : List ModGlobal :=
  [⟨true, .t32, [w32 0]⟩, ⟨true, .t32, [w32 0]⟩, ⟨true, .t32, [w32 0]⟩, ⟨true, .t32, [w32 0]⟩,
    ⟨true, .t64, [const (.i64 0)]⟩, ⟨true, .t64, [const (.i64 0)]⟩, ⟨true, .t64, [const (.i64 0)]⟩,
    ⟨true, .t64, [const (.i64 0)]⟩]

/-- A function of the module (LambdaANF_to_Wasm.v:460-461, 548-549, 574-577): the number of arguments is the type index, all locals
are `i32`. -/
def modFunc (f : Func) : ModFunc := ⟨f.params, List.replicate f.locals .t32, f.body⟩

/-- `LambdaANF_to_Wasm` (LambdaANF_to_Wasm.v:527-628): the module. -/
def transModule (names : ANF.Var → List Char) (cenv : CEnv) (penv : ANF.Tag → Option Primop) (e : ANF.Exp) :
    Option Module := do
  let fns ← transProg cenv penv e
  match e with
  | .fn B _ => do
    let xs ← funExports names (varMap 1 B.names) 0 B
    some {
      types := funTypes maxFunctionArgs
      funcs := fns.map modFunc
      tables := [⟨fns.length, none⟩]
      mems := [⟨1, some maxMemPages⟩]
      globals := modGlobals
      elems := tableElems fns.length 0
      exports := ⟨mainName, .func 0⟩ :: (xs ++ dataExports) }
  | _ => none

end Wasm
