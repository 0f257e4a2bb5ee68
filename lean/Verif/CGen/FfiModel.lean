import Verif.CGen.Clight

/-!
# The functions generated for a foreign C function: theories/Glue/ffi.v

`CertiRocq FFI` generates, for a C function of `n` arguments, the curried functions and the closure with which compiled code
calls it: each function but the last stores its argument in a new environment and passes on a closure of the next function;
the last one calls the C function.  The memory and the thread information are those of `Clight.lean`.

Simplifications.  The variables of a generated function are named by their role instead of by `gensym`.  The C function is a
partial function on its arguments and the state.  After the call of the continuation a generated function only returns, so
the call is its outcome.
-/

namespace CGen.Ffi

open ANF (Var)

/-- `type_to_args` (ffi.v:85-92) on the shape of a type: the number of products in front and whether `IO` is applied
behind them. -/
inductive FTy
  | prod (t : FTy)
  | io
  | other

/-- `type_to_args` (ffi.v:85-92). -/
def FTy.args : FTy → Nat × Bool
  | .prod t => (t.args.1 + 1, t.args.2)
  | .io => (0, true)
  | .other => (0, false)

/-- The variables of a generated function (ffi.v:156-163, 216, 225, 236, 252-253). -/
inductive FVar
  | env | k | arg | res | pair | newEnv | newClo
  | argN (n : Nat)
  deriving DecidableEq

/-- The expressions used. -/
inductive FExpr
  /-- `x` -/
  | var (x : FVar)
  /-- `tinfo->args[i]` -/
  | args (i : Nat)
  /-- `((value * ) x)[i]` -/
  | field (x : FVar) (i : Nat)
  /-- `env_proj i x` (ffi.v:121-128) -/
  | proj (i : Nat) (x : FVar)
  /-- the address of a generated function -/
  | fn (f : Var)
  /-- a literal -/
  | int (z : Int)

/-- The statements used. -/
inductive FStmt
  /-- `x = e;` -/
  | set (x : FVar) (e : FExpr)
  /-- `tinfo->args[i] = e;` -/
  | setArgs (i : Nat) (e : FExpr)
  /-- `x = (value) tinfo->alloc;` -/
  | getAlloc (x : FVar)
  /-- `((value * ) x)[i] = e;` -/
  | store (x : FVar) (i : Nat) (e : FExpr)
  /-- `tinfo->alloc += n;` -/
  | bump (n : Nat)
  /-- `x = (value * ) x + 1;` -/
  | incr (x : FVar)
  /-- `x = extern_fn(tinfo, es...);` -/
  | ext (x : FVar) (es : List FExpr)
  /-- `f(tinfo, es...);` -/
  | call (f : FExpr) (es : List FExpr)
  /-- `return;`, `return e;` -/
  | ret (e : Option FExpr)

/-- A generated function: its parameters after `tinfo`, its body. -/
structure FFun where
  params : List FVar
  body : List FStmt

/-- `list_to_zero` (common/RandyPrelude.v:377-381). -/
def listToZero : Nat → List Nat
  | 0 => []
  | n + 1 => n :: listToZero n

/-- Options: direct style, number of C parameters (`c_args`). -/
structure FOpts where
  direct : Bool
  np : Nat

/-- `create_env`, `create_clo` and the pair of `IO` (ffi.v:238-243, 254-267): a block with two fields. -/
def block (x : FVar) (a b : FExpr) : List FStmt :=
  [.getAlloc x, .store x 0 (.int 2048), .store x 1 a, .store x 2 b, .bump 3, .incr x]

/-- `handle_input` (ffi.v:175-187). -/
def handleInput (o : FOpts) : List FStmt :=
  (if o.direct then [.set .env (.args 0), .set .arg (.args 1)]
    else [.set .env (.args 0), .set .k (.args 1), .set .arg (.args 2)]).drop o.np

/-- `final` (ffi.v:275-299). -/
def final (o : FOpts) (r : FVar) : List FStmt :=
  (if o.direct then [.setArgs 1 (.var r)]
    else [.setArgs 0 (.field .k 1), .setArgs 1 (.var r)].drop o.np ++
      [.call (.field .k 0) ([.field .k 1, .var r].take o.np)]) ++ [.ret none]

/-- The part of the function that calls the C function (ffi.v:208-250). -/
def callExtern (arity : Nat) (io : Bool) : FVar × List FStmt :=
  let l := listToZero (if io then arity else arity - 1)
  let ss := l.map fun n => FStmt.set (.argN n) (.proj n .env)
  let args := l.map FVar.argN ++ if io then [] else [.arg]
  let call := FStmt.ext .res (args.map .var)
  if io then (.pair, ss ++ [call] ++ block .pair (.var .res) (.var .arg)) else (.res, ss ++ [call])

/-- The part that stores the argument and makes a closure of the next function (ffi.v:251-271). -/
def makeClo (next : Var) : FVar × List FStmt :=
  (.newClo, block .newEnv (.var .arg) (.var .env) ++ block .newClo (.fn next) (.var .newEnv))

/-- Whether the function with `num` arguments to come calls the C function (ffi.v:207-209). -/
def isLast (num : Nat) (io : Bool) : Bool := num == 0 || (num == 1 && !io)

/-- `make_curried_fn` (ffi.v:132-309). -/
def curriedFn (o : FOpts) (num arity : Nat) (io : Bool) (next : Var) : FFun where
  params := (if o.direct then [.env, .arg] else [.env, .k, .arg]).take o.np
  body :=
    let r := if isLast num io then callExtern arity io else makeClo next
    handleInput o ++ r.2 ++ final o r.1

/-- `make_curried_fns` (ffi.v:311-339): the functions with their names, the first one to call in front; `nm num` is the name
of the function with `num` arguments to come. -/
def curriedFns (o : FOpts) (arity : Nat) (io : Bool) (nm : Nat → Var) : Nat → List (Var × FFun)
  | 0 => [(nm 0, curriedFn o 0 arity io 0)]
  | num + 1 => if isLast (num + 1) io then [(nm (num + 1), curriedFn o (num + 1) arity io 0)]
    else (nm (num + 1), curriedFn o (num + 1) arity io (nm num)) :: curriedFns o arity io nm num

/-- `make_one_field` (ffi.v:345-368): the generated functions, and the contents of the closure `kn_clo`. -/
def oneField (o : FOpts) (t : FTy) (nm : Nat → Var) : List (Var × FFun) × List CVal :=
  (curriedFns o t.args.1 t.args.2 nm t.args.1, [.fn (nm t.args.1), .int 1])

/-- Local variables. -/
abbrev Loc := FVar → Option CVal

/-- No variable is initialised. -/
def Loc.empty : Loc := fun _ => none

/-- Assigns a variable. -/
def Loc.put (l : Loc) (x : FVar) (c : CVal) : Loc := fun y => if y = x then some c else l y

/-- Reads a word of a block. -/
def rd (h : Th) (i : Nat) : Option CVal → Option CVal
  | some (.ptr a) => h.mem (a + i)
  | _ => none

/-- `env_proj` (ffi.v:121-128). -/
def envProj (h : Th) : Nat → Option CVal → Option CVal
  | 0, c => rd h 0 c
  | i + 1, c => envProj h i (rd h 1 c)

/-- Value of an expression. -/
def evalF (l : Loc) (h : Th) : FExpr → Option CVal
  | .var x => l x
  | .args i => if i < maxArgs then h.args i else none
  | .field x i => rd h i (l x)
  | .proj i x => envProj h i (l x)
  | .fn f => some (.fn f)
  | .int z => some (.int z)

/-- Values of expressions. -/
def evalFs (l : Loc) (h : Th) : List FExpr → Option (List CVal)
  | [] => some []
  | e :: es => match evalF l h e, evalFs l h es with
    | some c, some cs => some (c :: cs)
    | _, _ => none

/-- Outcome of a generated function: it returns without a value or with one; it calls the code of a continuation with these C
parameters; undefined. -/
inductive FOut
  | done (h : Th)
  | ret (c : CVal) (h : Th)
  | cont (f : CVal) (cs : List CVal) (h : Th)
  | ub

/-- The C function: on its arguments (as many as it has parameters) and the state. -/
abbrev Ext := List CVal → Th → Option (CVal × Th)

/-- Runs statements; `n` is the number of parameters of the C function. -/
def execF (ext : Ext) (n : Nat) : List FStmt → Loc → Th → FOut
  | [], _, h => .done h
  | .set x e :: ss, l, h => match evalF l h e with
    | some c => execF ext n ss (l.put x c) h
    | none => .ub
  | .setArgs i e :: ss, l, h => match evalF l h e with
    | some c => if i < maxArgs then execF ext n ss l { h with args := setArr h.args i c } else .ub
    | none => .ub
  | .getAlloc x :: ss, l, h => execF ext n ss (l.put x (.ptr h.alloc)) h
  | .store x i e :: ss, l, h => match l x, evalF l h e with
    | some (.ptr a), some c => if h.alloc ≤ a + i ∧ a + i < h.limit then
        execF ext n ss l { h with mem := setMem h.mem (a + i) c } else .ub
    | _, _ => .ub
  | .bump k :: ss, l, h => execF ext n ss l { h with alloc := h.alloc + k }
  | .incr x :: ss, l, h => match l x with
    | some (.ptr a) => execF ext n ss (l.put x (.ptr (a + 1))) h
    | _ => .ub
  | .ext x es :: ss, l, h => match evalFs l h es with
    | some cs => if cs.length = n then
        match ext cs h with
        | some (c, h') => execF ext n ss (l.put x c) h'
        | none => .ub
      else .ub
    | none => .ub
  | .call f es :: _, l, h => match evalF l h f, evalFs l h es with
    | some c, some cs => .cont c cs h
    | _, _ => .ub
  | .ret none :: _, _, h => .done h
  | .ret (some e) :: _, l, h => match evalF l h e with
    | some c => .ret c h
    | none => .ub

/-- Parameters at entry. -/
def bindF : List FVar → List CVal → Loc
  | x :: xs, c :: cs => (bindF xs cs).put x c
  | _, _ => .empty

/-- Calls a generated function. -/
def callF (ext : Ext) (n : Nat) (P : List (Var × FFun)) (f : Var) (cs : List CVal) (h : Th) : FOut :=
  match P.find? (·.1 = f) with
  | some (_, F) => if cs.length = F.params.length then execF ext n F.body (bindF F.params cs) h else .ub
  | none => .ub

end CGen.Ffi
