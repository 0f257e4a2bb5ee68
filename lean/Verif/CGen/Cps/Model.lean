import Verif.CGen.Prog

/-!
# The C backend for programs in continuation-passing style: theories/Codegen/LambdaANF_to_Clight.v

Codegen/toplevel.v:80-89 sends CPS programs to this translation and direct-style programs to
LambdaANF_to_Clight_stack.v (`CGen/Model.lean`).  The generated functions return nothing: the result of the program is
left in `args[1]`.  There are no stack frames; the collector is called only at function entry and is told by a table
(`f_info`) how many words the function needs and which entries of `args` are live.

The parts emitted as in the other backend (constructors, argument passing, primitive calls) are the same definitions; the
statements around them are new.  Simplifications as in `CGen/Clight.lean` and `CGen/Model.lean`.  The comparison in the
heap check is between unsigned words, so it succeeds if `limit < alloc`.  The test `arg = is_ptr(x); if (arg) ...` is one
statement; `UsesArg` (Static.lean) records that it uses the variable `arg`.  `compile_fast` and the header with
`make_halt`, `make_call_n_export_b` (1790-1860) are not reachable from `compile` (`make_empty_header`) and are left out.
-/

namespace CGen.Cps

open ANF

/-- The table `f_info` of a function (`make_fundef_info`, `add_bodyinfo`, LambdaANF_to_Clight.v:1255-1306): `f_info[0]` words needed, `f_info[1]` number of
live entries of `args`, then the entries. -/
structure Info where
  need : Nat
  roots : List Nat
  deriving DecidableEq, Repr

mutual
/-- The statements emitted. -/
inductive VStmt
  /-- assignments and primitive calls, shared with the other backend -/
  | base (s : CStmt)
  | seq (a b : VStmt)
  /-- `f(tinfo, es...);` -/
  | call (f : CExpr) (es : List CExpr)
  /-- `if (!(f_info[0] <= limit - alloc)) s` -/
  | ifLow (i : Info) (s : VStmt)
  /-- `garbage_collect(f_info, tinfo);` -/
  | gc (i : Info)
  /-- `arg = is_ptr(x); if (arg) a else b` -/
  | ifPtr (x : Var) (a b : VStmt)
  /-- `switch (((value * ) x)[-1] & 255) { ls }` -/
  | switchTag (x : Var) (ls : VL)
  /-- `switch (x >> 1) { ls }` -/
  | switchOrd (x : Var) (ls : VL)
  | brk
  /-- `return tinfo->args[i];` -/
  | retArg (i : Nat)
/-- `labeled_statements`. -/
inductive VL
  | nil
  | cons (l : Option Int) (s : VStmt) (ls : VL)
end

/-- The environment of the generated code: the collector declared in runtime/gc.h:113 (`none`: the process is aborted) and
the primitives. -/
structure VWorld where
  gc : Info → Th → Option Th
  prim : Tag → List CVal → (Nat → Option CVal) → Option CVal
  primT : Tag → List CVal → Th → Out

/-- The primitives, for the statements shared with the other backend. -/
def VWorld.base (W : VWorld) : World := ⟨fun _ => .abort, W.prim, W.primT⟩

/-- Outcome of a call. -/
inductive VOut
  | done (h : Th)
  | oot
  | abort
  | ub

/-- What remains after a call. -/
def afterVoid (l : Loc) : VOut → Out
  | .done h => .norm l h
  | .oot => .oot
  | .abort => .abort
  | .ub => .ub

/-- No calls inside the shared statements. -/
def noCall : Nat → Var → List CVal → Th → Out := fun _ _ _ _ => .ub

mutual
/-- Big-step semantics of statements (CompCert's ClightBigstep, for the fragment). -/
def execV (W : VWorld) (call : Var → List CVal → Th → VOut) : VStmt → Loc → Th → Out
  | .base s, l, h => exec W.base noCall 0 s l h
  | .seq a b, l, h => match execV W call a l h with
    | .norm l' h' => execV W call b l' h'
    | o => o
  | .call f es, l, h => match evalC 0 l h f, evalCs 0 l h es with
    | some (.fn g), some cs => afterVoid l (call g cs h)
    | _, _ => .ub
  | .ifLow i s, l, h => if l.limit < l.alloc ∨ i.need ≤ l.limit - l.alloc then .norm l h else execV W call s l h
  | .gc i, l, h => match W.gc i h with
    | some h' => .norm l h'
    | none => .abort
  | .ifPtr x a b, l, h => match l.temps x with
    | some (.ptr _) => execV W call a l h
    | some (.int z) => if z % 2 = 0 then execV W call a l h else execV W call b l h
    | _ => .ub
  | .switchTag x ls, l, h => match evalC 0 l h (.field x (-1)) with
    | some (.int z) => match execVCase W call (z % 256) ls l h with
      | some o => unbreak o
      | none => match execVDefault W call ls l h with
        | some o => unbreak o
        | none => .norm l h
    | _ => .ub
  | .switchOrd x ls, l, h => match l.temps x with
    | some (.int z) => match execVCase W call (z / 2) ls l h with
      | some o => unbreak o
      | none => match execVDefault W call ls l h with
        | some o => unbreak o
        | none => .norm l h
    | _ => .ub
  | .brk, l, h => .brk l h
  | .retArg i, _, h => match h.args i with
    | some c => if i < maxArgs then .ret c h else .ub
    | none => .ub
/-- Runs labelled statements from the first one on, falling through. -/
def execVL (W : VWorld) (call : Var → List CVal → Th → VOut) : VL → Loc → Th → Out
  | .nil, l, h => .norm l h
  | .cons _ s ls, l, h => match execV W call s l h with
    | .norm l' h' => execVL W call ls l' h'
    | o => o
/-- Runs from the first statement labelled with the number, if any. -/
def execVCase (W : VWorld) (call : Var → List CVal → Th → VOut) (z : Int) : VL → Loc → Th → Option Out
  | .nil, _, _ => none
  | .cons lab s ls, l, h => if lab = some z then
      some (match execV W call s l h with
        | .norm l' h' => execVL W call ls l' h'
        | o => o)
    else execVCase W call z ls l h
/-- Runs from the first default label, if any. -/
def execVDefault (W : VWorld) (call : Var → List CVal → Th → VOut) : VL → Loc → Th → Option Out
  | .nil, _, _ => none
  | .cons lab s ls, l, h => if lab = none then
      some (match execV W call s l h with
        | .norm l' h' => execVL W call ls l' h'
        | o => o)
    else execVDefault W call ls l h
end

/-- A generated function: parameters after `tinfo`, declared temporaries (besides `alloc`, `limit`, `args`), whether `arg`
is declared, body. -/
structure VFun where
  name : Var
  params : List Var
  temps : List Var
  caseDecl : Bool
  body : VStmt

/-- Enters a function. -/
def enterV (W : VWorld) (call : Var → List CVal → Th → VOut) (F : VFun) (cs : List CVal) (h : Th) : VOut :=
  if cs.length = F.params.length then
    match execV W call F.body ⟨bindParams F.params cs, 0, 0, false⟩ h with
    | .norm _ h' => .done h'
    | .oot => .oot
    | .abort => .abort
    | _ => .ub
  else .ub

/-- The function with a name. -/
def findV (f : Var) : List VFun → Option VFun
  | [] => none
  | F :: P => if F.name = f then some F else findV f P

/-- Calls a function of the program; at most `n` nested calls. -/
def callV (W : VWorld) (P : List VFun) : Nat → Var → List CVal → Th → VOut
  | 0, _, _, _ => .oot
  | n + 1, f, cs, h => match findV f P with
    | some F => enterV W (callV W P n) F cs h
    | none => .ub

/-! ## The translation -/

mutual
/-- `max_allocs` (LambdaANF_to_Clight.v:214-234).  Unlike in the other backend, what follows a call in the middle of a
function is counted, since there is no check after the call. -/
def maxAllocsV : Exp → Nat
  | .constr _ _ [] e => maxAllocsV e
  | .constr _ _ (y :: ys) e => maxAllocsV e + (y :: ys).length + 1
  | .case _ bs => maxAllocsVs bs
  | .proj _ _ _ _ e => maxAllocsV e
  | .letapp _ _ _ _ e => maxAllocsV e
  | .fn B e => max (maxAllocsVB B) (maxAllocsV e)
  | .app _ _ _ => 0
  | .primVal _ _ e => maxAllocsV e
  | .prim _ _ _ e => maxAllocsV e
  | .halt _ => 0
/-- The helper for branches (221-226). -/
def maxAllocsVs : Brs → Nat
  | .nil => 0
  | .cons _ e bs => max (maxAllocsV e) (maxAllocsVs bs)
/-- `max_allocs_fundefs` (235-240). -/
def maxAllocsVB : Defs → Nat
  | .nil => 0
  | .cons _ _ vs e B => max (vs.length + maxAllocsV e) (maxAllocsVB B)
end

/-- `encode_list` (LambdaANF_to_Clight.v:11-57): eight characters per word, the first character in the most significant
byte, the padding in the least significant byte of the last word. -/
def encodeListV : List Nat → List Nat
  | [] => [7]
  | [a] => [2 ^ 56 * a + 6]
  | [a, b] => [2 ^ 56 * a + 2 ^ 48 * b + 5]
  | [a, b, c] => [2 ^ 56 * a + 2 ^ 48 * b + 2 ^ 40 * c + 4]
  | [a, b, c, d] => [2 ^ 56 * a + 2 ^ 48 * b + 2 ^ 40 * c + 2 ^ 32 * d + 3]
  | [a, b, c, d, e] => [2 ^ 56 * a + 2 ^ 48 * b + 2 ^ 40 * c + 2 ^ 32 * d + 2 ^ 24 * e + 2]
  | [a, b, c, d, e, f] => [2 ^ 56 * a + 2 ^ 48 * b + 2 ^ 40 * c + 2 ^ 32 * d + 2 ^ 24 * e + 2 ^ 16 * f + 1]
  | [a, b, c, d, e, f, g] => [2 ^ 56 * a + 2 ^ 48 * b + 2 ^ 40 * c + 2 ^ 32 * d + 2 ^ 24 * e + 2 ^ 16 * f + 2 ^ 8 * g]
  | a :: b :: c :: d :: e :: f :: g :: i :: l =>
    (2 ^ 56 * a + 2 ^ 48 * b + 2 ^ 40 * c + 2 ^ 32 * d + 2 ^ 24 * e + 2 ^ 16 * f + 2 ^ 8 * g + i) :: encodeListV l

/-- `compile_primitive` (797-802) with `to_int64`, `compile_float`, `compile_string` (751-795). -/
def compilePrimV (x : Var) : PVal → CStmt
  | .int n => .set x (.cst (.int (n * 2 + 1)))
  | .float b => .seq (.set x (.alloc 1)) (.seq (.bump 2)
      (.seq (.setField x (-1) (.cst (.int 1277))) (.setField x 0 (.cst (.raw b)))))
  | .str s => .seq (.set x (.alloc 1)) (.seq (.bump (s.length / 8 + 1 + 1))
      (storeWords x 0 (encodeListV s) (.setField x (-1) (.cst (.int ((s.length / 8 + 1) * 1024 + 252))))))

/-- `mkCall` (573-582). -/
def mkCallV (np : Nat) (fns : List Var) (f : CExpr) (n : Nat) (vs : List Var) : Option VStmt :=
  (mkCallVars fns n (vs.take np)).map (.call f ·)

/-- `make_case_switch` (741-749). -/
def caseSwitchV (x : Var) (ls ls' : VL) : VStmt := .ifPtr x (.switchTag x ls) (.switchOrd x ls')

/-- `tinfo->alloc = alloc; tinfo->limit = limit;` -/
def saveRegs : VStmt := .seq (.base .saveAlloc) (.base .saveLimit)

mutual
/-- `translate_body` (804-903). -/
def trV (C : Cfg) (fenv : FEnv) (fns : List Var) : Exp → Option VStmt
  | .constr x t vs e => match assignConstructor C.cenv fns x t vs, trV C fenv fns e with
    | some p, some s => some (.seq (.base p) s)
    | _, _ => none
  | .case x bs => match trVs C fenv fns bs with
    | some (ls, ls') => some (caseSwitchV x ls ls')
    | none => none
  | .proj x _ n v e => match trV C fenv fns e with
    | some s => some (.seq (.base (.set x (.field v n))) s)
    | none => none
  | .letapp x f t vs e => match trV C fenv fns e, fenv t with
    | some s, some (a, ind) => match asgnAppVars C.nParam fns vs ind, mkCallV C.nParam fns (makeVar fns f) (min a C.nParam) vs with
      | some asgn, some c => some (.seq (.base asgn) (.seq saveRegs (.seq c (.seq (.base .loadAlloc) (.seq (.base (.set x (.arg 1))) s)))))
      | _, _ => none
    | _, _ => none
  | .fn _ _ => none
  | .app f t vs => match fenv t with
    | some (a, ind) => match asgnAppVars C.nParam fns vs ind, mkCallV C.nParam fns (makeVar fns f) (min a C.nParam) vs with
      | some asgn, some c => some (.seq (.base asgn) (.seq saveRegs c))
      | _, _ => none
    | none => none
  | .primVal x p e => match trV C fenv fns e with
    | some s => some (.seq (.base (compilePrimV x p)) s)
    | none => none
  | .prim x p vs e => match C.prims p, mkCallVars fns vs.length vs, trV C fenv fns e with
    | some false, some as, some s => some (.seq (.base (.prim x p as)) s)
    | some true, some as, some s =>
      some (.seq saveRegs (.seq (.base (.primT x p as)) (.seq (.base .loadAlloc) (.seq (.base .loadLimit) s))))
    | _, _, _ => none
  | .halt x => some (.seq saveRegs (.base (.setArg 1 (makeVar fns x))))
/-- `makeCases` (817-851): the switches over boxed and over unboxed constructors; the last branch of each becomes the
default. -/
def trVs (C : Cfg) (fenv : FEnv) (fns : List Var) : Brs → Option (VL × VL)
  | .nil => some (.nil, .nil)
  | .cons t e bs => match trV C fenv fns e, trVs C fenv fns bs with
    | some s, some (ls, ls') => match ctorRep C.cenv t with
      | some (.boxed o a) => match ls with
        | .nil => some (.cons none (.seq s .brk) .nil, ls')
        | .cons l s' r => some (.cons (some ((Rep.boxed o a).tag % 256)) (.seq s .brk) (.cons l s' r), ls')
      | some (.enum o) => match ls' with
        | .nil => some (ls, .cons none (.seq s .brk) .nil)
        | .cons l s' r => some (ls, .cons (some ((Rep.enum o).tag / 2)) (.seq s .brk) (.cons l s' r))
      | none => none
    | _, _ => none
end

/-- `reserve` (701-719): if there is not enough room, the parameters are put into `args`, the collector is called, and they
are fetched again.  `limit` is not fetched again. -/
def reserveV (np : Nat) (fns : List Var) (i : Info) (vs : List Var) (ind : List Nat) : Option VStmt :=
  match asgnAppVars' fns (vs.take np) (ind.take np), asgnFunVars' (vs.take np) (ind.take np) with
  | some bef, some aft => some (.ifLow i (.seq (.base bef) (.seq (.gc i) (.seq (.base .loadAlloc) (.base aft)))))
  | _, _ => none

/-- `reserve_body` (445-452). -/
def reserveBody (i : Info) : VStmt := .ifLow i (.seq (.gc i) (.base .loadAlloc))

/-- `alloc = tinfo->alloc; limit = tinfo->limit; args = tinfo->args;` -/
def loadRegs : VStmt := .seq (.base .loadAlloc) (.seq (.base .loadLimit) (.base .loadArgs))

/-- One function of `translate_fundefs` (1012-1053) with `mkFun` (999-1010) and its entry of `make_fundef_info`
(1255-1286). -/
def trVDef (C : Cfg) (fenv : FEnv) (fns : List Var) (f : Var) (t : Tag) (vs : List Var) (e : Exp) : Option VFun :=
  match fenv t with
  | none => none
  | some (_, ind) => match trV C fenv fns e, asgnFunVars C.nParam vs ind, reserveV C.nParam fns ⟨maxAllocsV e, ind⟩ vs ind with
    | some body, some asgn, some res =>
      some ⟨f, vs.take C.nParam, vs.drop C.nParam ++ localsE e, true, .seq loadRegs (.seq res (.seq (.base asgn) body))⟩
    | _, _, _ => none

/-- `translate_fundefs` (1012-1053). -/
def trVDefs (C : Cfg) (fenv : FEnv) (fns : List Var) : Defs → Option (List VFun)
  | .nil => some []
  | .cons f t vs e B => match trVDefs C fenv fns B, trVDef C fenv fns f t vs e with
    | some P, some F => some (F :: P)
    | _, _ => none

/-- `translate_funs` (1150-1181) in `make_defs` (1351-1371) in `compile` (1901-1931): the C function `body` for the main
expression and, apart, the functions.  `body` does not declare `arg` (1169). -/
def compileV (C : Cfg) (body : Var) : Exp → Option (VFun × List VFun)
  | .fn B e =>
    let fenv := funEnv (.fn B e)
    let fns := B.names
    if infoOk fenv B then
      match trVDefs C fenv fns B, trV C fenv fns e with
      | some P, some s =>
        some (⟨body, [], localsE e, false, .seq loadRegs (.seq (reserveBody ⟨maxAllocsV e, []⟩) (.seq s (.retArg 1)))⟩, P)
      | _, _ => none
    else none
  | _ => none

/-- Runs the compiled program: calls `body`. -/
def runV (W : VWorld) (M : VFun × List VFun) (n : Nat) (h : Th) : Out :=
  match execV W (callV W M.2 n) M.1.body ⟨bindParams [] [], 0, 0, false⟩ h with
  | .ret c h' => .ret c h'
  | .oot => .oot
  | .abort => .abort
  | _ => .ub

end CGen.Cps
