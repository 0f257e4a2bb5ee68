import Verif.ANF.Sem

/-!
# The fragment of Clight emitted by the direct-style C backend, and its semantics

theories/Codegen/LambdaANF_to_Clight_stack.v builds CompCert Clight statements out of a fixed set of shapes.  Each shape
is one constructor of `CExpr`/`CStmt`; the C it stands for is in its comment.

Simplifications.  Memory is word addressed; words are not truncated to 64 bits (literals of the compiled program fit by
C01, headers by C23).  The thread information and the stack frames are separate objects, not bytes of one memory.  The
temporaries `alloc`, `limit`, `args` of the generated code are separate cells from the program's variables (C49).  A
function's frame and roots array are named by the nesting depth of the activation.  What the C standard leaves undefined
is the outcome `ub`: reading an uninitialised temporary, slot or word, an index outside an array, a store outside the free
part of the nursery, calling something that is not a function.
-/

namespace CGen

open ANF (Var Tag)

/-- Contents of a word: an integer (unboxed values, headers), a heap address, the address of a generated function, a raw
word (floats and characters). -/
inductive CVal
  | int (z : Int)
  | ptr (a : Nat)
  | fn (f : Var)
  | raw (w : Nat)
  deriving DecidableEq, Repr

/-- The expressions emitted (`Notation`s at LambdaANF_to_Clight_stack.v:405-478). -/
inductive CExpr
  /-- `x` -/
  | temp (x : Var)
  /-- address of function `f` -/
  | func (f : Var)
  /-- literal -/
  | cst (c : CVal)
  /-- `((value * ) x)[n]` -/
  | field (x : Var) (n : Int)
  /-- `args[i]` -/
  | arg (i : Nat)
  /-- `roots[i]` -/
  | root (i : Nat)
  /-- `alloc + n` -/
  | alloc (n : Nat)
  deriving DecidableEq, Repr

mutual
/-- The statements emitted. -/
inductive CStmt
  | skip
  | seq (a b : CStmt)
  /-- `x = e;` -/
  | set (x : Var) (e : CExpr)
  /-- `((value * ) x)[n] = e;` -/
  | setField (x : Var) (n : Int) (e : CExpr)
  /-- `args[i] = e;` -/
  | setArg (i : Nat) (e : CExpr)
  /-- `roots[i] = e;` -/
  | setRoot (i : Nat) (e : CExpr)
  /-- `alloc = alloc + n;` -/
  | bump (n : Nat)
  /-- `alloc = tinfo->alloc;` -/
  | loadAlloc
  /-- `limit = tinfo->limit;` -/
  | loadLimit
  /-- `args = tinfo->args;` -/
  | loadArgs
  /-- `tinfo->alloc = alloc;` -/
  | saveAlloc
  /-- `tinfo->limit = limit;` -/
  | saveLimit
  /-- `frame.next = roots; frame.root = roots; frame.prev = tinfo->fp;` -/
  | initStack
  /-- `frame.next = roots + n;` -/
  | setNext (n : Nat)
  /-- `tinfo->fp = &frame;` -/
  | link
  /-- `tinfo->fp = frame.prev;` -/
  | unlink
  /-- `tinfo->nalloc = n;` -/
  | setNalloc (n : Nat)
  /-- `garbage_collect(tinfo);` -/
  | gc
  /-- `x = f(tinfo, es...);` -/
  | call (x : Var) (f : CExpr) (es : List CExpr)
  /-- `x = p(es...);` for a primitive -/
  | prim (x : Var) (p : Tag) (es : List CExpr)
  /-- `x = p(tinfo, es...);` for a primitive that allocates -/
  | primT (x : Var) (p : Tag) (es : List CExpr)
  /-- `if (!(n <= limit - alloc)) s` -/
  | ifLow (n : Nat) (s : CStmt)
  /-- `if ((x & 1) == 0) a else b` -/
  | ifPtr (x : Var) (a b : CStmt)
  /-- `switch (((value * ) x)[-1] & 255) { ls }` -/
  | switchTag (x : Var) (ls : LStmt)
  /-- `switch (x >> 1) { ls }` -/
  | switchOrd (x : Var) (ls : LStmt)
  | brk
  | ret (e : CExpr)
/-- `labeled_statements`: a label (`none`: `default`), a statement, the statements after it. -/
inductive LStmt
  | nil
  | cons (l : Option Int) (s : CStmt) (ls : LStmt)
end

/-- The stack frame (`struct stack_frame`, runtime/gc_stack.h) of an activation with its roots array: `size` is the
declared length of `roots`, `next` is `frame.next - roots`. -/
structure Frame where
  size : Nat
  next : Nat
  prev : Option Nat
  roots : Nat → Option CVal

/-- Memory and thread information (`struct thread_info`, runtime/gc_stack.h). -/
structure Th where
  mem : Nat → Option CVal
  alloc : Nat
  limit : Nat
  nalloc : Nat
  args : Nat → Option CVal
  fp : Option Nat
  frames : Nat → Frame

/-- The temporaries of an activation (`argsSet`: `args` holds `tinfo->args`). -/
structure Loc where
  temps : Var → Option CVal
  alloc : Nat
  limit : Nat
  argsSet : Bool

/-- Outcome of a statement. -/
inductive Out
  | norm (l : Loc) (h : Th)
  | brk (l : Loc) (h : Th)
  | ret (c : CVal) (h : Th)
  | oot
  | abort
  | ub

/-- What the collector does: it returns, it aborts the process (out of memory), or its behaviour is undefined (called with
a heap or frames that are not as it expects). -/
inductive GcRes
  | ok (h : Th)
  | abort
  | ub

/-- The environment of the generated code: the collector and the primitives, without and with access to the thread
information. -/
structure World where
  gc : Th → GcRes
  prim : Tag → List CVal → (Nat → Option CVal) → Option CVal
  primT : Tag → List CVal → Th → Out

/-- `MAX_ARGS` (`maxArgs`, LambdaANF_to_Clight_stack.v:133). -/
def maxArgs : Nat := 1024

/-- Reads a word at an offset from a pointer. -/
def readAt (mem : Nat → Option CVal) (a : Nat) (n : Int) : Option CVal :=
  if 0 ≤ (a : Int) + n then mem ((a : Int) + n).toNat else none

/-- Value of an expression in activation `me`. -/
def evalC (me : Nat) (l : Loc) (h : Th) : CExpr → Option CVal
  | .temp x => l.temps x
  | .func f => some (.fn f)
  | .cst c => some c
  | .field x n => match l.temps x with
    | some (.ptr a) => readAt h.mem a n
    | _ => none
  | .arg i => if l.argsSet ∧ i < maxArgs then h.args i else none
  | .root i => if i < (h.frames me).size then (h.frames me).roots i else none
  | .alloc n => some (.ptr (l.alloc + n))

/-- Values of a list of expressions. -/
def evalCs (me : Nat) (l : Loc) (h : Th) : List CExpr → Option (List CVal)
  | [] => some []
  | e :: es => match evalC me l h e, evalCs me l h es with
    | some c, some cs => some (c :: cs)
    | _, _ => none

/-- Assigns a temporary. -/
def Loc.setT (l : Loc) (x : Var) (c : CVal) : Loc := { l with temps := fun y => if y = x then some c else l.temps y }

/-- Updates the frame of an activation. -/
def Th.setFrame (h : Th) (me : Nat) (f : Frame) : Th :=
  { h with frames := fun k => if k = me then f else h.frames k }

/-- Writes one word. -/
def setMem (mem : Nat → Option CVal) (a : Nat) (c : CVal) : Nat → Option CVal := fun b => if b = a then some c else mem b

/-- Writes one entry of an array. -/
def setArr (r : Nat → Option CVal) (i : Nat) (c : CVal) : Nat → Option CVal := fun j => if j = i then some c else r j

/-- What remains after a call. -/
def afterCall (l : Loc) (x : Var) : Out → Out
  | .ret c h => .norm (l.setT x c) h
  | .oot => .oot
  | .abort => .abort
  | _ => .ub

/-- Leaving a `switch`. -/
def unbreak : Out → Out
  | .brk l h => .norm l h
  | o => o

mutual
/-- Big-step semantics of statements (CompCert's ClightBigstep, for the fragment); calls of generated functions are
handed to `call` with the depth of the new activation. -/
def exec (W : World) (call : Nat → Var → List CVal → Th → Out) (me : Nat) : CStmt → Loc → Th → Out
  | .skip, l, h => .norm l h
  | .seq a b, l, h => match exec W call me a l h with
    | .norm l' h' => exec W call me b l' h'
    | o => o
  | .set x e, l, h => match evalC me l h e with
    | some c => .norm (l.setT x c) h
    | none => .ub
  | .setField x n e, l, h => match l.temps x, evalC me l h e with
    | some (.ptr a), some c => if 0 ≤ (a : Int) + n ∧ h.alloc ≤ ((a : Int) + n).toNat ∧ ((a : Int) + n).toNat < h.limit then
        .norm l { h with mem := setMem h.mem ((a : Int) + n).toNat c } else .ub
    | _, _ => .ub
  | .setArg i e, l, h => match evalC me l h e with
    | some c => if l.argsSet ∧ i < maxArgs then .norm l { h with args := setArr h.args i c } else .ub
    | none => .ub
  | .setRoot i e, l, h => match evalC me l h e with
    | some c => if i < (h.frames me).size then
        .norm l (h.setFrame me { h.frames me with roots := setArr (h.frames me).roots i c }) else .ub
    | none => .ub
  | .bump n, l, h => .norm { l with alloc := l.alloc + n } h
  | .loadAlloc, l, h => .norm { l with alloc := h.alloc } h
  | .loadLimit, l, h => .norm { l with limit := h.limit } h
  | .loadArgs, l, h => .norm { l with argsSet := true } h
  | .saveAlloc, l, h => .norm l { h with alloc := l.alloc }
  | .saveLimit, l, h => .norm l { h with limit := l.limit }
  | .initStack, l, h => .norm l (h.setFrame me { h.frames me with next := 0, prev := h.fp })
  | .setNext n, l, h => .norm l (h.setFrame me { h.frames me with next := n })
  | .link, l, h => .norm l { h with fp := some me }
  | .unlink, l, h => .norm l { h with fp := (h.frames me).prev }
  | .setNalloc n, l, h => .norm l { h with nalloc := n }
  | .gc, l, h => match W.gc h with
    | .ok h' => .norm l h'
    | .abort => .abort
    | .ub => .ub
  | .call x f es, l, h => match evalC me l h f, evalCs me l h es with
    | some (.fn g), some cs => afterCall l x (call (me + 1) g cs h)
    | _, _ => .ub
  | .prim x p es, l, h => match evalCs me l h es with
    | some cs => match W.prim p cs h.mem with
      | some c => .norm (l.setT x c) h
      | none => .ub
    | none => .ub
  | .primT x p es, l, h => match evalCs me l h es with
    | some cs => afterCall l x (W.primT p cs h)
    | none => .ub
  | .ifLow n s, l, h => if (n : Int) ≤ (l.limit : Int) - l.alloc then .norm l h else exec W call me s l h
  | .ifPtr x a b, l, h => match l.temps x with
    | some (.ptr _) => exec W call me a l h
    | some (.int z) => if z % 2 = 0 then exec W call me a l h else exec W call me b l h
    | _ => .ub
  | .switchTag x ls, l, h => match evalC me l h (.field x (-1)) with
    | some (.int z) => match execCase W call me (z % 256) ls l h with
      | some o => unbreak o
      | none => match execDefault W call me ls l h with
        | some o => unbreak o
        | none => .norm l h
    | _ => .ub
  | .switchOrd x ls, l, h => match l.temps x with
    | some (.int z) => match execCase W call me (z / 2) ls l h with
      | some o => unbreak o
      | none => match execDefault W call me ls l h with
        | some o => unbreak o
        | none => .norm l h
    | _ => .ub
  | .brk, l, h => .brk l h
  | .ret e, l, h => match evalC me l h e with
    | some c => .ret c h
    | none => .ub
/-- Runs labelled statements from the first one on, falling through (`seq_of_labeled_statement`, Clight.v). -/
def execL (W : World) (call : Nat → Var → List CVal → Th → Out) (me : Nat) : LStmt → Loc → Th → Out
  | .nil, l, h => .norm l h
  | .cons _ s ls, l, h => match exec W call me s l h with
    | .norm l' h' => execL W call me ls l' h'
    | o => o
/-- Runs from the first statement labelled with the number, if any (`select_switch_case`, Clight.v). -/
def execCase (W : World) (call : Nat → Var → List CVal → Th → Out) (me : Nat) (z : Int) : LStmt → Loc → Th → Option Out
  | .nil, _, _ => none
  | .cons lab s ls, l, h => if lab = some z then
      some (match exec W call me s l h with
        | .norm l' h' => execL W call me ls l' h'
        | o => o)
    else execCase W call me z ls l h
/-- Runs from the first default label, if any (`select_switch_default`, Clight.v). -/
def execDefault (W : World) (call : Nat → Var → List CVal → Th → Out) (me : Nat) : LStmt → Loc → Th → Option Out
  | .nil, _, _ => none
  | .cons lab s ls, l, h => if lab = none then
      some (match exec W call me s l h with
        | .norm l' h' => execL W call me ls l' h'
        | o => o)
    else execDefault W call me ls l h
end

/-- A generated function: parameters after `tinfo`, declared size of the roots array, body. -/
structure CFun where
  name : Var
  params : List Var
  rootSize : Nat
  body : CStmt

/-- Temporaries at function entry: the parameters; everything else uninitialised (`alloc` and `limit` are 0). -/
def bindParams : List Var → List CVal → Var → Option CVal
  | x :: xs, c :: cs => fun y => if y = x then some c else bindParams xs cs y
  | _, _ => fun _ => none

/-- Enters a function at depth `d`: a fresh frame, parameters bound. -/
def enter (W : World) (call : Nat → Var → List CVal → Th → Out) (F : CFun) (d : Nat) (cs : List CVal) (h : Th) : Out :=
  if cs.length = F.params.length then
    match exec W call d F.body ⟨bindParams F.params cs, 0, 0, false⟩ (h.setFrame d ⟨F.rootSize, 0, none, fun _ => none⟩) with
    | .ret c h' => .ret c h'
    | .oot => .oot
    | .abort => .abort
    | _ => .ub
  else .ub

/-- The function with a name. -/
def findFun (f : Var) : List CFun → Option CFun
  | [] => none
  | F :: P => if F.name = f then some F else findFun f P

/-- Calls a function of the program; at most `n` nested calls. -/
def callC (W : World) (P : List CFun) : Nat → Nat → Var → List CVal → Th → Out
  | 0, _, _, _, _ => .oot
  | n + 1, d, f, cs, h => match findFun f P with
    | some F => enter W (callC W P n) F d cs h
    | none => .ub

end CGen
