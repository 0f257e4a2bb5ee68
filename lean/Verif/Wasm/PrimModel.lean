import Verif.Wasm.Sem

/-!
# Wasm code for the 63-bit integer primitives (`theories/CodegenWasm/LambdaANF_to_Wasm_primitives.v`)

The functions below return the instruction lists the backend emits. Globals are numbered as in
`LambdaANF_to_Wasm.v:44-53`. Coq's `Z` constants coerced to `VAL_int64` are written as numbers below `2^64`.
-/

namespace Wasm
open Instr

/-- LambdaANF_to_Wasm.v:44-53 -/
def globMemPtr : Nat := 0
/-- LambdaANF_to_Wasm.v:45 -/
def globCap : Nat := 1
/-- LambdaANF_to_Wasm.v:46 -/
def globResult : Nat := 2
/-- LambdaANF_to_Wasm.v:47 -/
def globOutOfMem : Nat := 3
/-- LambdaANF_to_Wasm.v:50 -/
def globTmp1 : Nat := 4
/-- LambdaANF_to_Wasm.v:51 -/
def globTmp2 : Nat := 5
/-- LambdaANF_to_Wasm.v:52 -/
def globTmp3 : Nat := 6
/-- LambdaANF_to_Wasm.v:53 -/
def globTmp4 : Nat := 7

/-- LambdaANF_to_Wasm_primitives.v:26 -/
def maxuint63 : Nat := 9223372036854775807

/-- LambdaANF_to_Wasm_primitives.v:30-31, 33-35, 37-38, 40: ordinals of the constructors of `bool`, `comparison`,
`carry` and `prod`. -/
def trueOrd : Nat := 1
def falseOrd : Nat := 0
def eqOrd : Nat := 0
def ltOrd : Nat := 1
def gtOrd : Nat := 2
def c0Ord : Nat := 0
def c1Ord : Nat := 1
def pairOrd : Nat := 0

/-- 64-bit constant. -/
def c64 (n : Nat) : Instr := const (.i64 n)
/-- 32-bit constant. -/
def c32 (n : Nat) : Instr := const (.i32 n)
/-- 64-bit binary operation. -/
def b64 (op : Bin) : Instr := binop .t64 op

/-- LambdaANF_to_Wasm_primitives.v:101-102 -/
def loadLocal (i : Nat) : List Instr := [localGet i, load .t64 0]

/-- LambdaANF_to_Wasm_primitives.v:104-109 -/
def incMemPtr (i : Nat) : List Instr := [globalGet globMemPtr, c32 i, binop .t32 .add, globalSet globMemPtr]

/-- LambdaANF_to_Wasm_primitives.v:111 -/
def bitmask : List Instr := [c64 maxuint63, b64 .and]

/-- LambdaANF_to_Wasm_primitives.v:113-122 -/
def applyBinop (op : Bin) (x y : Nat) (mask : Bool) : List Instr :=
  globalGet globMemPtr :: loadLocal x ++ loadLocal y ++ [b64 op] ++ (if mask then bitmask else []) ++
  [store .t64 0, globalGet globMemPtr] ++ incMemPtr 8

/-- LambdaANF_to_Wasm_primitives.v:125-138 -/
def makeCarry (ord g : Nat) : List Instr :=
  [globalGet globMemPtr, globalGet g, store .t64 0,
   globalGet globMemPtr, c32 ord, store .t32 8,
   globalGet globMemPtr, globalGet globMemPtr, store .t32 12,
   globalGet globMemPtr, c32 8, binop .t32 .add] ++ incMemPtr 16

/-- LambdaANF_to_Wasm_primitives.v:140-151 -/
def addCarryInstrs (x y : Nat) (addone : Bool) : List Instr :=
  loadLocal x ++ loadLocal y ++ [b64 .add] ++ (if addone then [c64 1, b64 .add] else []) ++ bitmask ++
  [globalSet globTmp1, globalGet globTmp1] ++ loadLocal x ++
  [relop .t64 (if addone then .leU else .ltU),
   ifte [.t32] (makeCarry c1Ord globTmp1) (makeCarry c0Ord globTmp1)]

/-- LambdaANF_to_Wasm_primitives.v:153-165 -/
def subCarryInstrs (x y : Nat) (subone : Bool) : List Instr :=
  loadLocal x ++ loadLocal y ++ [b64 .sub] ++ (if subone then [c64 1, b64 .sub] else []) ++ bitmask ++
  [globalSet globTmp1] ++ loadLocal y ++ loadLocal x ++
  [relop .t64 (if subone then .ltU else .leU),
   ifte [.t32] (makeCarry c0Ord globTmp1) (makeCarry c1Ord globTmp1)]

/-- LambdaANF_to_Wasm_primitives.v:168-189 -/
def makeProduct (g1 g2 : Nat) : List Instr :=
  [globalGet globMemPtr, globalGet g1, store .t64 0,
   globalGet globMemPtr, globalGet g2, store .t64 8,
   globalGet globMemPtr, c32 pairOrd, store .t32 16,
   globalGet globMemPtr, globalGet globMemPtr, store .t32 20,
   globalGet globMemPtr, globalGet globMemPtr, c32 8, binop .t32 .add, store .t32 24,
   globalGet globMemPtr, c32 16, binop .t32 .add] ++ incMemPtr 28

/-- LambdaANF_to_Wasm_primitives.v:191-198 -/
def boolCompare (x y : Nat) (op : Rel) : List Instr :=
  loadLocal x ++ loadLocal y ++
  [relop .t64 op, ifte [.t32] [c32 (2 * trueOrd + 1)] [c32 (2 * falseOrd + 1)]]

/-- LambdaANF_to_Wasm_primitives.v:200-215 -/
def compareInstrs (x y : Nat) : List Instr :=
  loadLocal x ++ loadLocal y ++
  [relop .t64 .ltU,
   ifte [.t32] [c32 (2 * ltOrd + 1)]
     (loadLocal x ++ loadLocal y ++ [relop .t64 .eq, ifte [.t32] [c32 (2 * eqOrd + 1)] [c32 (2 * gtOrd + 1)]])]

/-- LambdaANF_to_Wasm_primitives.v:217-226 -/
def divInstrs (x y : Nat) : List Instr :=
  globalGet globMemPtr :: loadLocal y ++
  [eqz .t64, ifte [.t64] [c64 0] (loadLocal x ++ loadLocal y ++ [b64 .divU]), store .t64 0, globalGet globMemPtr] ++
  incMemPtr 8

/-- LambdaANF_to_Wasm_primitives.v:229-238 -/
def modInstrs (x y : Nat) : List Instr :=
  globalGet globMemPtr :: loadLocal y ++
  [eqz .t64, ifte [.t64] (loadLocal x) (loadLocal x ++ loadLocal y ++ [b64 .remU]), store .t64 0, globalGet globMemPtr] ++
  incMemPtr 8

/-- LambdaANF_to_Wasm_primitives.v:240-253 -/
def shiftInstrs (x y : Nat) (op : Bin) (mask : Bool) : List Instr :=
  globalGet globMemPtr :: loadLocal y ++
  [c64 63, relop .t64 .ltU,
   ifte [.t64] (loadLocal x ++ loadLocal y ++ b64 op :: (if mask then bitmask else [])) [c64 0],
   store .t64 0, globalGet globMemPtr] ++ incMemPtr 8

/-- LambdaANF_to_Wasm_primitives.v:255 -/
def low32 : List Instr := [c64 4294967295, b64 .and]
/-- LambdaANF_to_Wasm_primitives.v:256 -/
def high32 : List Instr := [c64 32, b64 .shrU]

/-- LambdaANF_to_Wasm_primitives.v:258-312 -/
def mulcInstrs (x y : Nat) : List Instr :=
  loadLocal x ++ low32 ++ loadLocal y ++ low32 ++ [b64 .mul, globalSet globTmp1] ++
  loadLocal x ++ high32 ++ loadLocal y ++ low32 ++ [b64 .mul, globalSet globTmp2] ++
  loadLocal x ++ low32 ++ loadLocal y ++ high32 ++ [b64 .mul, globalSet globTmp3] ++
  loadLocal x ++ high32 ++ loadLocal y ++ high32 ++ [b64 .mul, globalSet globTmp4] ++
  [globalGet globTmp1] ++ high32 ++ [globalGet globTmp2] ++ low32 ++
  [b64 .add, globalGet globTmp3, b64 .add, globalSet globTmp3] ++
  [globalGet globTmp2] ++ high32 ++ [globalGet globTmp3] ++ high32 ++ [b64 .add] ++
  [globalGet globTmp4, b64 .add, globalSet globTmp2] ++
  [globalGet globTmp3, c64 32, b64 .shl] ++ [globalGet globTmp1] ++ low32 ++ [b64 .or, globalSet globTmp1] ++
  [globalGet globTmp2, c64 1, b64 .shl, globalGet globTmp1, c64 63, b64 .shrU, b64 .add, globalSet globTmp2] ++
  [globalGet globTmp1, c64 maxuint63, b64 .and, globalSet globTmp1] ++ makeProduct globTmp2 globTmp1

/-- LambdaANF_to_Wasm_primitives.v:315-342 -/
def diveuclInstrs (x y : Nat) : List Instr :=
  loadLocal x ++
  [eqz .t64,
   ifte [] [c64 0, globalSet globTmp1, c64 0, globalSet globTmp2]
     (loadLocal y ++
      [eqz .t64,
       ifte [] ([c64 0, globalSet globTmp1] ++ loadLocal x ++ [globalSet globTmp2])
         (loadLocal x ++ loadLocal y ++ [b64 .divU, globalSet globTmp1] ++
          loadLocal x ++ loadLocal y ++ [b64 .remU, globalSet globTmp2])])] ++
  makeProduct globTmp1 globTmp2

/-- LambdaANF_to_Wasm_primitives.v:371-379 -/
def head0Instrs (x : Nat) : List Instr :=
  globalGet globMemPtr :: loadLocal x ++
  [unop .t64 .clz, c64 1, b64 .sub, store .t64 0, globalGet globMemPtr] ++ incMemPtr 8

/-- LambdaANF_to_Wasm_primitives.v:383-392 -/
def tail0Instrs (x : Nat) : List Instr :=
  globalGet globMemPtr :: loadLocal x ++
  [eqz .t64, ifte [.t64] [c64 63] (loadLocal x ++ [unop .t64 .ctz]), store .t64 0, globalGet globMemPtr] ++ incMemPtr 8

/-- LambdaANF_to_Wasm_primitives.v:401-442, with `xh xl y q` in `glob_tmp1 … glob_tmp4` (line 479). -/
def diveucl21Body : List Instr :=
  [globalGet globTmp2, c64 1, b64 .shl, globalSet globTmp2,
   globalGet globTmp1, c64 1, b64 .shl, globalGet globTmp2, c64 63, b64 .shrU, b64 .or, globalSet globTmp1,
   globalGet globTmp4, c64 1, b64 .shl, globalSet globTmp4,
   globalGet globTmp1, globalGet globTmp3, relop .t64 .geU,
   ifte []
     [globalGet globTmp4, c64 1, b64 .or, globalSet globTmp4,
      globalGet globTmp1, globalGet globTmp3, b64 .sub, globalSet globTmp1]
     []]

/-- LambdaANF_to_Wasm_primitives.v:444-457; the loop counter is the global `glob_cap` (LambdaANF_to_Wasm.v:264). -/
def diveucl21Loop (iterations : Nat) : List Instr :=
  [globalGet globCap, c32 iterations, relop .t32 .ltU,
   ifte [] (diveucl21Body ++ [globalGet globCap, c32 1, binop .t32 .add, globalSet globCap, br 1]) []]

/-- LambdaANF_to_Wasm_primitives.v:459-482 -/
def diveucl21Instrs (xh xl y : Nat) : List Instr :=
  loadLocal y ++ loadLocal xh ++
  [relop .t64 .leU,
   ifte [.t32] ([c64 0, globalSet globTmp1] ++ makeProduct globTmp1 globTmp1)
     (loadLocal xh ++ [globalSet globTmp1] ++ loadLocal xl ++ [globalSet globTmp2] ++
      loadLocal y ++ [globalSet globTmp3] ++
      [c64 0, globalSet globTmp4, c32 0, globalSet globCap, loop (diveucl21Loop 63)] ++
      makeProduct globTmp4 globTmp1)]

/-- LambdaANF_to_Wasm_primitives.v:485-510 -/
def addmuldivInstrs (p x y : Nat) : List Instr :=
  globalGet globMemPtr :: loadLocal p ++
  [c64 63, relop .t64 .gtU,
   ifte [.t64] [c64 0]
     (loadLocal x ++ loadLocal p ++ [b64 .shl] ++ loadLocal y ++ [c64 63] ++ loadLocal p ++
      [b64 .sub, b64 .shrU, b64 .or, c64 maxuint63, b64 .and]),
   store .t64 0, globalGet globMemPtr] ++ incMemPtr 8

/-- LambdaANF_to_Wasm_primitives.v:47-72 -/
inductive Primop where
  | add | sub | mul | div | mod | lsl | lsr | land | lor | lxor | eqb | ltb | leb | compare
  | addc | addcarryc | subc | subcarryc | mulc | head0 | tail0 | diveucl | diveucl21 | addmuldiv
deriving DecidableEq, Repr

/-- LambdaANF_to_Wasm_primitives.v:344-367; `none` is the error result. -/
def translateBinary (op : Primop) (x y : Nat) : Option (List Instr) :=
  match op with
  | .add => some (applyBinop .add x y true)
  | .sub => some (applyBinop .sub x y true)
  | .mul => some (applyBinop .mul x y true)
  | .div => some (divInstrs x y)
  | .mod => some (modInstrs x y)
  | .lsl => some (shiftInstrs x y .shl true)
  | .lsr => some (shiftInstrs x y .shrU false)
  | .land => some (applyBinop .and x y false)
  | .lor => some (applyBinop .or x y false)
  | .lxor => some (applyBinop .xor x y false)
  | .eqb => some (boolCompare x y .eq)
  | .ltb => some (boolCompare x y .ltU)
  | .leb => some (boolCompare x y .leU)
  | .compare => some (compareInstrs x y)
  | .addc => some (addCarryInstrs x y false)
  | .addcarryc => some (addCarryInstrs x y true)
  | .subc => some (subCarryInstrs x y false)
  | .subcarryc => some (subCarryInstrs x y true)
  | .mulc => some (mulcInstrs x y)
  | .diveucl => some (diveuclInstrs x y)
  | _ => none

/-- LambdaANF_to_Wasm_primitives.v:394-399 -/
def translateUnary (op : Primop) (x : Nat) : Option (List Instr) :=
  match op with
  | .head0 => some (head0Instrs x)
  | .tail0 => some (tail0Instrs x)
  | _ => none

/-- LambdaANF_to_Wasm_primitives.v:513-518 -/
def translateTernary (op : Primop) (x y z : Nat) : Option (List Instr) :=
  match op with
  | .diveucl21 => some (diveucl21Instrs x y z)
  | .addmuldiv => some (addmuldivInstrs x y z)
  | _ => none

/-- LambdaANF_to_Wasm.v:242-268: dispatch on the number of arguments. -/
def translatePrimop (op : Primop) : List Nat → Option (List Instr)
  | [x] => translateUnary op x
  | [x, y] => translateBinary op x y
  | [x, y, z] => translateTernary op x y z
  | _ => none

end Wasm
