import Verif.CGen.Model

/-!
# The C side of the foreign interface: the functions of the glue code a C program uses to call compiled code

theories/Glue/glue.v generates, next to the constructor functions (C27), a function `call` with which a C program applies a
compiled closure to an argument.  This file has its direct-style version, `make_T_C` and `alloc_make_T_C` on the memory of
`Clight.lean`, and C programs that use them.
-/

namespace CGen

open ANF (Var Tag)

/-- The local variables of `call`: closure, function, environment, argument, result (glue.v:1234-1239). -/
def callClo : Var := 1
def callCode : Var := 2
def callEnv : Var := 3
def callArg : Var := 4
def callTmp : Var := 5

/-- `multiple` (glue.v uses the statement list of `make_call`). -/
def multiple : List CStmt → CStmt
  | [] => .skip
  | s :: ss => .seq s (multiple ss)

/-- `make_call` for direct style (Glue/glue.v:1229-1318): `f = clo->func; env = clo->env;` the arguments beyond the first
`c_args` go to `tinfo->args`, the others are passed; the value the function returns is returned.  `tinfo->args[i] = e` is
`args = tinfo->args; args[i] = e`. -/
def callFun (np : Nat) : CFun where
  name := 0
  params := [callClo, callArg]
  rootSize := 0
  body := .seq (.set callCode (.field callClo 0)) (.seq (.set callEnv (.field callClo 1)) (.seq .loadArgs
    (.seq (multiple ([.setArg 0 (.temp callEnv), .setArg 1 (.temp callArg)].drop np))
      (.seq (.call callTmp (.temp callCode) ([.temp callEnv, .temp callArg].take np)) (.ret (.temp callTmp))))))

/-- The stores `argv[n] = arg; …` of `make_constrAsgn` (Glue/glue.v:49-58), from address `a` on; undefined outside the free
part of the nursery. -/
def storeAll : Nat → List CVal → Th → Option Th
  | _, [], h => some h
  | a, c :: cs, h => if h.alloc ≤ a ∧ a < h.limit then storeAll (a + 1) cs { h with mem := setMem h.mem a c } else none

/-- The generated `alloc_make_T_C` (Glue/glue.v:1097-1127) for a constructor with ordinal `ord`. -/
def allocMake (ord : Nat) (cs : List CVal) (h : Th) : Out :=
  match storeAll h.alloc (.int (cs.length * 1024 + ord) :: cs) h with
  | some h' => .ret (.ptr (h.alloc + 1)) { h' with alloc := h.alloc + (cs.length + 1) }
  | none => .ub

/-- What a C program does before `alloc_make_T_C`: `if (!(n <= tinfo->limit - tinfo->alloc)) { tinfo->nalloc = n;
garbage_collect(tinfo); }` (the protocol of runtime/gc_stack.h). -/
def reserve (W : World) (n : Nat) (h : Th) : GcRes :=
  if (n : Int) ≤ (h.limit : Int) - h.alloc then .ok h else W.gc { h with nalloc := n }

/-- What a C program that uses compiled code can do; every operation appends its result to the program's array of values.
The operands are positions in that array. -/
inductive HostOp
  /-- `body(tinfo)` -/
  | main
  /-- `call(tinfo, x_i, x_j)` -/
  | call (i j : Nat)
  /-- `make_T_C()` -/
  | enum (t : Tag)
  /-- make room, then `alloc_make_T_C(tinfo, x_i…)` -/
  | make (t : Tag) (is : List Nat)
  /-- `get_args(x_i)[n]` -/
  | field (i n : Nat)

/-- The C program keeps its values in the roots array of a frame, the only one on the list when it calls compiled code;
it has `m` values. -/
def hostVal (m : Nat) (h : Th) (i : Nat) : Option CVal := if i < m then (h.frames 0).roots i else none

/-- Several values. -/
def hostVals (m : Nat) (h : Th) : List Nat → Option (List CVal)
  | [] => some []
  | i :: is => match hostVal m h i, hostVals m h is with
    | some c, some cs => some (c :: cs)
    | _, _ => none

/-- One operation, before its result is stored; at most `n` nested calls of compiled functions. -/
def hostOp (W : World) (C : Cfg) (M : CFun × List CFun) (n m : Nat) (h : Th) : HostOp → Out
  | .main => runC W M n 1 h
  | .call i j => match hostVal m h i, hostVal m h j with
    | some c, some a => enter W (callC W M.2 (n + 1)) (callFun C.nParam) 1 [c, a] h
    | _, _ => .ub
  | .enum t => match C.cenv t with
    | some i => if i.arity = 0 then .ret (.int (2 * i.ordinal + 1)) h else .ub
    | none => .ub
  | .make t is => match C.cenv t with
    | some i => if i.arity = is.length ∧ i.arity ≠ 0 then
        match reserve W (i.arity + 1) h with
        | .ok h' => match hostVals m h' is with
          | some cs => allocMake i.ordinal cs h'
          | none => .ub
        | .abort => .abort
        | .ub => .ub
      else .ub
    | none => .ub
  | .field i k => match hostVal m h i with
    | some (.ptr a) => match h.mem (a + k) with
      | some c => .ret c h
      | none => .ub
    | _ => .ub

/-- `roots[m] = c; frame.next = roots + m + 1;` -/
def hostPush (m : Nat) (c : CVal) (h : Th) : Option Th :=
  if m < (h.frames 0).size then
    some (h.setFrame 0 { h.frames 0 with roots := setArr (h.frames 0).roots m c, next := m + 1 })
  else none

/-- Outcome of a C program. -/
inductive HOut
  | ok (h : Th)
  | oot
  | abort
  | ub

/-- Runs a C program that has `m` values. -/
def hostRun (W : World) (C : Cfg) (M : CFun × List CFun) (n : Nat) : List HostOp → Nat → Th → HOut
  | [], _, h => .ok h
  | o :: os, m, h => match hostOp W C M n m h o with
    | .ret c h' => match hostPush m c h' with
      | some h'' => hostRun W C M n os (m + 1) h''
      | none => .ub
    | .oot => .oot
    | .abort => .abort
    | _ => .ub

end CGen
