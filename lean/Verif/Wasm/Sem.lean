/-!
# A WebAssembly semantics for the instructions emitted by the Wasm backend

The backend (`/repo/theories/CodegenWasm`) generates terms of WasmCert's `basic_instruction`. This file gives those
instructions their meaning, following the WebAssembly specification. Numbers of type `i32`/`i64` are natural numbers
below `2^32`/`2^64`; memory is byte addressed, little endian.

Simplifications: only the instructions the backend emits; globals are not bounds-checked (they are a fixed set of
eight); a type error, which validation excludes (C59), traps. Whether `memory.grow` succeeds below the maximum is left to the
engine (`growOk`), as in the specification.
-/

namespace Wasm

/-- Memory contents: a byte for every address. -/
abbrev Mem := Nat → Nat

/-- `n`-byte little-endian load. -/
def loadN (m : Mem) (a : Nat) : Nat → Nat
  | 0 => 0
  | n + 1 => m a + 256 * loadN m (a + 1) n

/-- `n`-byte little-endian store. -/
def storeN (m : Mem) (a n v : Nat) : Mem :=
  fun b => if a ≤ b ∧ b < a + n then v / 256 ^ (b - a) % 256 else m b

/-- Numeric types `T_i32`, `T_i64` of WasmCert's `datatypes.v`, used by the backend. -/
inductive Ty where
  | t32 | t64
deriving DecidableEq, Repr

/-- Number of bits. -/
def Ty.bits : Ty → Nat
  | .t32 => 32
  | .t64 => 64

/-- Number of bytes. -/
def Ty.bytes : Ty → Nat
  | .t32 => 4
  | .t64 => 8

/-- Values `VAL_int32`, `VAL_int64`. -/
inductive Val where
  | i32 (n : Nat)
  | i64 (n : Nat)
deriving DecidableEq, Repr

/-- The value of type `t` with the given number. -/
def mkVal : Ty → Nat → Val
  | .t32, n => .i32 n
  | .t64, n => .i64 n

/-- The number in a value of type `t`. -/
def getVal : Ty → Val → Option Nat
  | .t32, .i32 n => some n
  | .t64, .i64 n => some n
  | _, _ => none

/-- Binary operators `BOI_…`. -/
inductive Bin where
  | add | sub | mul | divU | divS | remU | and | or | xor | shl | shrU
deriving DecidableEq, Repr

/-- Comparison operators `ROI_…`. -/
inductive Rel where
  | eq | ltU | leU | gtU | geU | geS
deriving DecidableEq, Repr

/-- Unary operators `UOI_clz`, `UOI_ctz`. -/
inductive Un where
  | clz | ctz
deriving DecidableEq, Repr

/-- Signed reading of an `N`-bit number. -/
def signed (N n : Nat) : Int := if n < 2 ^ (N - 1) then n else (n : Int) - 2 ^ N

/-- Meaning of the binary operators (Wasm specification 4.3.2); `none` is a trap. -/
def evalBin (N : Nat) : Bin → Nat → Nat → Option Nat
  | .add, a, b => some ((a + b) % 2 ^ N)
  | .sub, a, b => some ((a + 2 ^ N - b) % 2 ^ N)
  | .mul, a, b => some ((a * b) % 2 ^ N)
  | .divU, a, b => if b = 0 then none else some (a / b)
  | .divS, a, b =>
    if b = 0 then none
    else if (signed N a).tdiv (signed N b) = 2 ^ (N - 1) then none
    else some (((signed N a).tdiv (signed N b)) % 2 ^ N).toNat
  | .remU, a, b => if b = 0 then none else some (a % b)
  | .and, a, b => some (a &&& b)
  | .or, a, b => some (a ||| b)
  | .xor, a, b => some (a ^^^ b)
  | .shl, a, b => some (a * 2 ^ (b % N) % 2 ^ N)
  | .shrU, a, b => some (a / 2 ^ (b % N))

/-- Meaning of the comparisons. -/
def evalRel (N : Nat) : Rel → Nat → Nat → Bool
  | .eq, a, b => decide (a = b)
  | .ltU, a, b => decide (a < b)
  | .leU, a, b => decide (a ≤ b)
  | .gtU, a, b => decide (b < a)
  | .geU, a, b => decide (b ≤ a)
  | .geS, a, b => decide (signed N b ≤ signed N a)

/-- Trailing zeros of an `N`-bit number: the number of low bits that are zero. -/
def ctz : Nat → Nat → Nat
  | 0, _ => 0
  | N + 1, n => if n % 2 = 1 then 0 else ctz N (n / 2) + 1

/-- Leading zeros of an `N`-bit number. -/
def clz : Nat → Nat → Nat
  | 0, _ => 0
  | N + 1, n => if 2 ^ N ≤ n then 0 else clz N n + 1

/-- Meaning of the unary operators. -/
def evalUn (N : Nat) : Un → Nat → Nat
  | .clz, n => clz N n
  | .ctz, n => ctz N n

/-- Instructions. `ifte ts` is a block with results of types `ts`, `loop` one without results; `callIndirect n` calls the
function whose index is on the stack with `n` arguments (the backend uses `n` as type index: type `n` is `i32^n → []`). -/
inductive Instr where
  | const (v : Val)
  | localGet (i : Nat)
  | localSet (i : Nat)
  | globalGet (i : Nat)
  | globalSet (i : Nat)
  | load (t : Ty) (off : Nat)
  | store (t : Ty) (off : Nat)
  | binop (t : Ty) (op : Bin)
  | relop (t : Ty) (op : Rel)
  | unop (t : Ty) (op : Un)
  | eqz (t : Ty)
  | memorySize
  | memoryGrow
  | ifte (ts : List Ty) (thn els : List Instr)
  | loop (body : List Instr)
  | br (k : Nat)
  | ret
  | callIndirect (n : Nat)
  | returnCallIndirect (n : Nat)
  | unreachable

/-- A function: number of parameters, number of further locals (all `i32`), body. -/
structure Func where
  params : Nat
  locals : Nat
  body : List Instr

/-- What does not change during execution: functions (the table maps every index to the function of that index), the
maximum memory size in pages, and the engine's answers to requests to grow to a given number of pages. -/
structure Env where
  funcs : List Func
  maxPages : Nat
  growOk : Nat → Bool

/-- Machine state. -/
structure St where
  mem : Mem
  pages : Nat
  globals : Nat → Val
  locals : List Val
  stack : List Val

/-- Bytes in a page. -/
def pageSize : Nat := 65536

/-- Update of a global. -/
def setGlobal (g : Nat → Val) (i : Nat) (v : Val) : Nat → Val := fun j => if j = i then v else g j

/-- Boolean results of comparisons. -/
def boolVal (b : Bool) : Val := .i32 (if b then 1 else 0)

/-- Instructions without control flow. `none` is a trap. -/
def step (E : Env) (i : Instr) (s : St) : Option St :=
  match i, s.stack with
  | .const v, st => some { s with stack := v :: st }
  | .localGet i, st => (s.locals[i]?).bind fun v => some { s with stack := v :: st }
  | .localSet i, v :: st => if i < s.locals.length then some { s with locals := s.locals.set i v, stack := st } else none
  | .globalGet i, st => some { s with stack := s.globals i :: st }
  | .globalSet i, v :: st => some { s with globals := setGlobal s.globals i v, stack := st }
  | .load t off, .i32 a :: st =>
    if a + off + t.bytes ≤ s.pages * pageSize then some { s with stack := mkVal t (loadN s.mem (a + off) t.bytes) :: st }
    else none
  | .store t off, v :: .i32 a :: st =>
    (getVal t v).bind fun n =>
      if a + off + t.bytes ≤ s.pages * pageSize then some { s with mem := storeN s.mem (a + off) t.bytes n, stack := st }
      else none
  | .binop t op, y :: x :: st =>
    (getVal t x).bind fun a => (getVal t y).bind fun b => (evalBin t.bits op a b).bind fun r =>
      some { s with stack := mkVal t r :: st }
  | .relop t op, y :: x :: st =>
    (getVal t x).bind fun a => (getVal t y).bind fun b =>
      some { s with stack := boolVal (evalRel t.bits op a b) :: st }
  | .unop t op, x :: st => (getVal t x).bind fun a => some { s with stack := mkVal t (evalUn t.bits op a) :: st }
  | .eqz t, x :: st => (getVal t x).bind fun a => some { s with stack := boolVal (decide (a = 0)) :: st }
  | .memorySize, st => some { s with stack := .i32 s.pages :: st }
  | .memoryGrow, .i32 n :: st =>
    if s.pages + n ≤ E.maxPages ∧ E.growOk (s.pages + n) then
      some { s with pages := s.pages + n, mem := fun b => if b < s.pages * pageSize then s.mem b else 0,
                    stack := .i32 s.pages :: st }
    else some { s with stack := .i32 (2 ^ 32 - 1) :: st }
  | _, _ => none

/-- Outcomes of instruction sequences: falls through, branches to the `k`-th enclosing block, returns from the function,
traps, or the interpreter ran out of fuel. -/
inductive Out where
  | ok (s : St)
  | br (k : Nat) (s : St)
  | ret (s : St)
  | trap
  | fuel

/-- The arguments of a call, the last one on top of the stack, and the rest of the stack. -/
def popArgs (n : Nat) (st : List Val) : Option (List Val × List Val) :=
  if n ≤ st.length then some ((st.take n).reverse, st.drop n) else none

/-- Execution; every instruction uses one unit of fuel. -/
def exec (E : Env) : Nat → List Instr → St → Out
  | 0, _, _ => .fuel
  | _ + 1, [], s => .ok s
  | n + 1, i :: is, s =>
    match i with
    | .ifte ts a b =>
      match s.stack with
      | .i32 c :: st =>
        match exec E n (if c = 0 then b else a) { s with stack := [] } with
        | .ok s' => exec E n is { s' with stack := s'.stack ++ st }
        | .br 0 s' => exec E n is { s' with stack := s'.stack.take ts.length ++ st }
        | .br (j + 1) s' => .br j s'
        | o => o
      | _ => .trap
    | .loop body =>
      match exec E n body { s with stack := [] } with
      | .ok s' => exec E n is { s' with stack := s'.stack ++ s.stack }
      | .br 0 s' => exec E n (.loop body :: is) { s' with stack := s.stack }
      | .br (j + 1) s' => .br j s'
      | o => o
    | .br k => .br k s
    | .ret => .ret s
    | .unreachable => .trap
    | .callIndirect k =>
      match s.stack with
      | .i32 f :: st =>
        match E.funcs[f]?, popArgs k st with
        | some fn, some (args, st') =>
          if fn.params = k then
            match exec E n fn.body { s with locals := args ++ List.replicate fn.locals (.i32 0), stack := [] } with
            | .ok s' => exec E n is { s' with locals := s.locals, stack := st' }
            | .ret s' => exec E n is { s' with locals := s.locals, stack := st' }
            | .br _ _ => .trap
            | o => o
          else .trap
        | _, _ => .trap
      | _ => .trap
    | .returnCallIndirect k =>
      match s.stack with
      | .i32 f :: st =>
        match E.funcs[f]?, popArgs k st with
        | some fn, some (args, _) =>
          if fn.params = k then
            match exec E n fn.body { s with locals := args ++ List.replicate fn.locals (.i32 0), stack := [] } with
            | .ok s' => .ret s'
            | .ret s' => .ret s'
            | .br _ _ => .trap
            | o => o
          else .trap
        | _, _ => .trap
      | _ => .trap
    | i =>
      match step E i s with
      | some s' => exec E n is s'
      | none => .trap

/-- `is` started in `s` terminates with outcome `o`. -/
def Runs (E : Env) (is : List Instr) (s : St) (o : Out) : Prop := o ≠ .fuel ∧ ∃ n, exec E n is s = o

end Wasm
