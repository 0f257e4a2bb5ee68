import Verif.CGen.Spec
import Verif.Int63.Model
import Verif.Wasm.GenSpec

/-!
# The integer primitives of the C backend

Compiled programs call the C functions of runtime/prim_int63.c through the table of cplugin/PrimInt63.v.  The arithmetic of the
functions is in `Verif/Int63/Model.lean`; here they are run on the words and the memory of the generated code.
-/

namespace CGen.Prim

open ANF

/-- The registered operations (cplugin/PrimInt63.v:6-35), `u` those the Wasm backend has too. -/
inductive IntOp
  | u (op : Wasm.Primop)
  | divs | mods | asr | lesb | ltsb | compares
  deriving DecidableEq

/-- The C function an operation is registered with: `prim_int63_` and its own name, except for `compares`
(cplugin/PrimInt63.v:16). -/
def cfun : IntOp → IntOp
  | .compares => .u .compare
  | op => op

/-- Registered `with tinfo` (cplugin/PrimInt63.v:18, 20-23, 29-30). -/
def tinfo : IntOp → Bool
  | .u .addc | .u .addcarryc | .u .subc | .u .subcarryc | .u .mulc | .u .diveucl | .u .diveucl21 => true
  | _ => false

/-- An argument as a machine word. Simplification: calling an integer operation with something that is not an integer has
no result. -/
def toWord : CVal → Option Int63.W
  | .int (.ofNat k) => if k < 2 ^ 64 then some (BitVec.ofNat 64 k) else none
  | _ => none

/-- The arguments as machine words. -/
def toWords : List CVal → Option (List Int63.W)
  | [] => some []
  | c :: cs => match toWord c, toWords cs with
    | some w, some ws => some (w :: ws)
    | _, _ => none

/-- A machine word as a value of the generated code. -/
def ofWord (w : Int63.W) : CVal := .int w.toNat

/-- The functions without access to the thread information (runtime/prim_int63.c). -/
def pureFun : IntOp → List Int63.W → Option Int63.W
  | .u .add, [x, y] => some (Int63.add x y)
  | .u .sub, [x, y] => some (Int63.sub x y)
  | .u .mul, [x, y] => some (Int63.mul x y)
  | .u .div, [x, y] => Int63.div x y
  | .u .mod, [x, y] => Int63.mod x y
  | .u .lsl, [x, y] => Int63.lsl x y
  | .u .lsr, [x, y] => Int63.lsr x y
  | .u .land, [x, y] => some (Int63.land x y)
  | .u .lor, [x, y] => some (Int63.lor x y)
  | .u .lxor, [x, y] => some (Int63.lxor x y)
  | .u .eqb, [x, y] => some (Int63.eqb x y)
  | .u .ltb, [x, y] => some (Int63.ltb x y)
  | .u .leb, [x, y] => some (Int63.leb x y)
  | .u .compare, [x, y] => Int63.compare x y
  | .u .head0, [x] => some (Int63.head0 x)
  | .u .tail0, [x] => some (Int63.tail0 x)
  | .u .addmuldiv, [x, y, z] => Int63.addmuldiv x y z
  | .divs, [x, y] => Int63.divs x y
  | .mods, [x, y] => Int63.mods x y
  | .asr, [x, y] => Int63.asr x y
  | .lesb, [x, y] => some (Int63.lesb x y)
  | .ltsb, [x, y] => some (Int63.ltsb x y)
  | .compares, [x, y] => Int63.compares x y
  | _, _ => none

/-- Stores a header and fields at `alloc`, without checking for space. A store behind `limit` is undefined. -/
def store (hd : Nat) (cs : List CVal) (h : Th) : Out :=
  if h.alloc + (cs.length + 1) ≤ h.limit then
    .ret (.ptr (h.alloc + 1)) { h with
      mem := fun a => if a = h.alloc then some (.int hd)
        else if h.alloc < a ∧ a < h.alloc + (cs.length + 1) then cs[a - (h.alloc + 1)]? else h.mem a
      alloc := h.alloc + (cs.length + 1) }
  else .ub

/-- `mk_C0`, `mk_C1` (runtime/prim_int63.c:207-227, 236-253): the collector is called if there are fewer than two words. -/
def mkCarry (gc : Th → GcRes) (hd : Nat) (c : CVal) (h : Th) : Out :=
  if h.alloc + 2 ≤ h.limit then store hd [c] h
  else match gc { h with nalloc := 2 } with
    | .ok h' => store hd [c] h'
    | .abort => .abort
    | .ub => .ub

/-- The block for the result of a carry operation (headers 1024 and 1025). -/
def mkCarryRes (gc : Th → GcRes) : Int63.CarryRes → Th → Out
  | .C0 w => mkCarry gc 1024 (ofWord w)
  | .C1 w => mkCarry gc 1025 (ofWord w)

/-- `mk_pair` (runtime/prim_int63.c:273-288): there is no check for space. -/
def mkPair (p : Int63.W × Int63.W) (h : Th) : Out := store 2048 [ofWord p.1, ofWord p.2] h

/-- The functions with access to the thread information (runtime/prim_int63.c:290-423). `mulc` allocates the pair of
`mulc_aux` (line 361) and then its own. -/
def allocFun (gc : Th → GcRes) : IntOp → List Int63.W → Th → Out
  | .u .addc, [x, y], h => mkCarryRes gc (Int63.addc x y) h
  | .u .addcarryc, [x, y], h => mkCarryRes gc (Int63.addcarryc x y) h
  | .u .subc, [x, y], h => mkCarryRes gc (Int63.subc x y) h
  | .u .subcarryc, [x, y], h => mkCarryRes gc (Int63.subcarryc x y) h
  | .u .mulc, [x, y], h =>
    if Int63.ulongVal x >>> 62 = 0 ∨ Int63.ulongVal y >>> 62 = 0 then mkPair (Int63.mulc x y) h
    else match mkPair (Int63.mulcAux (Int63.ulongVal x) (Int63.ulongVal y ^^^ (1 <<< 62))) h with
      | .ret _ h' => mkPair (Int63.mulc x y) h'
      | o => o
  | .u .diveucl, [x, y], h => match Int63.diveucl x y with
    | some p => mkPair p h
    | none => .ub
  | .u .diveucl21, [x, y, z], h => mkPair (Int63.diveucl21 x y z) h
  | _, _, _ => .ub

/-- The primitives without access to the thread information; `penv` says which tag stands for which operation. -/
def prim (penv : Tag → Option IntOp) (p : Tag) (cs : List CVal) (_ : Nat → Option CVal) : Option CVal :=
  match penv p, toWords cs with
  | some op, some ws => (pureFun (cfun op) ws).map ofWord
  | _, _ => none

/-- The primitives with access to the thread information. -/
def primT (penv : Tag → Option IntOp) (gc : Th → GcRes) (p : Tag) (cs : List CVal) (h : Th) : Out :=
  match penv p, toWords cs with
  | some op, some ws => allocFun gc (cfun op) ws h
  | _, _ => .ub

/-- What the backend is told about a primitive: whether it has access to the thread information. -/
def table (penv : Tag → Option IntOp) (p : Tag) : Option Bool := (penv p).map tinfo

/-- The runtime with these primitives. -/
def world (penv : Tag → Option IntOp) (gc : Th → GcRes) : World := ⟨gc, prim penv, primT penv gc⟩

end CGen.Prim
