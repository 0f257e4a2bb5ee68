import Verif.CGen.Clight
import Verif.ANF.State

/-!
# The direct-style C backend: theories/Codegen/LambdaANF_to_Clight_stack.v

The error monad is `Option` (messages dropped).  Types, casts, the pretty-name table and the tables describing functions
to the outside (`*_info` globals) are left out.  `args_opt` is false, as in every call from Codegen/toplevel.v.
-/

namespace CGen

open ANF

/-- `fun_env` (cps.v): arity and argument positions per function tag. -/
abbrev FEnv := Tag → Option (Nat × List Nat)

/-- `M.set`. -/
def FEnv.set (m : FEnv) (t : Tag) (i : Nat × List Nat) : FEnv := fun u => if u = t then some i else m u

/-- `makeArgList'` (LambdaANF_to_Clight_stack.v:137-141). -/
def makeArgList' : List Var → List Nat
  | [] => []
  | _ :: vs => vs.length :: makeArgList' vs

/-- `makeArgList` (143-144). -/
def makeArgList (vs : List Var) : List Nat := (makeArgList' vs).reverse

mutual
/-- `compute_fun_env'` (151-173). -/
def funEnvE : Nat → Exp → FEnv → FEnv
  | 0, _, m => m
  | n + 1, .constr _ _ _ e, m => funEnvE n e m
  | n + 1, .case _ bs, m => bs.toList.foldl (fun p te => funEnvE n te.2 p) m
  | n + 1, .proj _ _ _ _ e, m => funEnvE n e m
  | n + 1, .letapp _ _ t vs e, m => funEnvE n e (m.set t (vs.length, makeArgList vs))
  | n + 1, .fn B e, m => funEnvE n e (funEnvB n B m)
  | _ + 1, .app _ t vs, m => m.set t (vs.length, makeArgList vs)
  | n + 1, .primVal _ _ e, m => funEnvE n e m
  | n + 1, .prim _ _ _ e, m => funEnvE n e m
  | _ + 1, .halt _, m => m
/-- `compute_fun_env_fundefs` (174-190). -/
def funEnvB : Nat → Defs → FEnv → FEnv
  | 0, _, m => m
  | _ + 1, .nil, m => m
  | n + 1, .cons _ t vs e B, m => funEnvB n B (funEnvE n e (m.set t (vs.length, makeArgList vs)))
end

mutual
/-- `max_depth` (192-203). -/
def maxDepthE : Exp → Nat
  | .constr _ _ _ e => maxDepthE e + 1
  | .case _ bs => maxDepthBs bs 1 + 1
  | .proj _ _ _ _ e => maxDepthE e + 1
  | .letapp _ _ _ _ e => maxDepthE e + 1
  | .fn B e => max (maxDepthB B) (maxDepthE e) + 1
  | .app _ _ _ => 1
  | .primVal _ _ e => maxDepthE e + 1
  | .prim _ _ _ e => maxDepthE e + 1
  | .halt _ => 1
/-- `fold_left Nat.max (map (compose max_depth snd) cs)` (195). -/
def maxDepthBs : Brs → Nat → Nat
  | .nil, a => a
  | .cons _ e bs, a => maxDepthBs bs (max a (maxDepthE e))
/-- `max_depth_fundefs` (204-208). -/
def maxDepthB : Defs → Nat
  | .nil => 1
  | .cons _ _ _ e B => max (maxDepthE e) (maxDepthB B) + 1
end

/-- `compute_fun_env` (211-212). -/
def funEnv (e : Exp) : FEnv := funEnvE (maxDepthE e) e (fun _ => none)

mutual
/-- `get_locals` (215-232). -/
def localsE : Exp → List Var
  | .constr x _ _ e => x :: localsE e
  | .case _ bs => localsBs bs
  | .proj x _ _ _ e => x :: localsE e
  | .letapp x _ _ _ e => x :: localsE e
  | .fn B e => localsB B ++ localsE e
  | .app _ _ _ => []
  | .primVal x _ e => x :: localsE e
  | .prim x _ _ e => x :: localsE e
  | .halt _ => []
/-- The helper of `get_locals` for branches (219-223). -/
def localsBs : Brs → List Var
  | .nil => []
  | .cons _ e bs => localsE e ++ localsBs bs
/-- `get_locals_fundefs` (233-237). -/
def localsB : Defs → List Var
  | .nil => []
  | .cons _ _ vs e B => vs ++ (localsE e ++ localsB B)
end

mutual
/-- `max_allocs` (241-263). -/
def maxAllocsE : Exp → Nat
  | .constr _ _ [] e => maxAllocsE e
  | .constr _ _ (y :: ys) e => maxAllocsE e + (y :: ys).length + 1
  | .case _ bs => maxAllocsBs bs
  | .proj _ _ _ _ e => maxAllocsE e
  | .letapp _ _ _ _ _ => 0
  | .fn B e => max (maxAllocsB B) (maxAllocsE e)
  | .app _ _ _ => 0
  | .primVal _ _ e => maxAllocsE e
  | .prim _ _ _ e => maxAllocsE e
  | .halt _ => 0
/-- The helper of `max_allocs` for branches (249-253). -/
def maxAllocsBs : Brs → Nat
  | .nil => 0
  | .cons _ e bs => max (maxAllocsE e) (maxAllocsBs bs)
/-- `max_allocs_fundefs` (264-269). -/
def maxAllocsB : Defs → Nat
  | .nil => 0
  | .cons _ _ vs e B => max (vs.length + maxAllocsE e) (maxAllocsB B)
end

/-- `ctor_rep` (322-326). -/
inductive Rep
  | enum (ord : Nat)
  | boxed (ord arity : Nat)
  deriving DecidableEq, Repr

/-- `make_ctor_rep` (329-336). -/
def ctorRep (cenv : Ctor.PMap Ctor.Info) (t : Tag) : Option Rep :=
  match cenv t with
  | some i => some (if i.arity = 0 then .enum i.ordinal else .boxed i.ordinal i.arity)
  | none => none

/-- The value assigned or stored for a constructor: `makeTagZ` (567-572). -/
def Rep.tag : Rep → Int
  | .enum t => 2 * t + 1
  | .boxed t a => a * 1024 + t

/-- Parameters of the translation: `nParam` (arguments passed as C parameters), `resultIdent`, for each primitive whether
it takes the thread information (`prims`), the constructor environment. -/
structure Cfg where
  nParam : Nat
  result : Var
  prims : Tag → Option Bool
  cenv : Ctor.PMap Ctor.Info

/-- `makeVar` (582-590).  `fns` lists the functions in the fun_info_env built by `make_fundef_info` (1230-1260); their
tags are known, or `make_fundef_info` fails. -/
def makeVar (fns : List Var) (x : Var) : CExpr := if x ∈ fns then .func x else .temp x

/-- `assignConstructorS'` (593-610). -/
def assignFields (fns : List Var) (x : Var) : Nat → List Var → CStmt
  | _, [] => .skip
  | cur, [v] => .setField x cur (makeVar fns v)
  | cur, v :: w :: vs => .seq (.setField x cur (makeVar fns v)) (assignFields fns x (cur + 1) (w :: vs))

/-- `assignConstructorS` (612-634). -/
def assignConstructor (cenv : Ctor.PMap Ctor.Info) (fns : List Var) (x : Var) (t : Tag) (vs : List Var) : Option CStmt :=
  match ctorRep cenv t with
  | some (.enum o) => some (.set x (.cst (.int (Rep.enum o).tag)))
  | some (.boxed o a) => some (.seq (.set x (.alloc 1)) (.seq (.bump (a + 1))
      (.seq (.setField x (-1) (.cst (.int (Rep.boxed o a).tag))) (assignFields fns x 0 vs))))
  | none => none

/-- `mkCallVars` (645-657). -/
def mkCallVars (fns : List Var) : Nat → List Var → Option (List CExpr)
  | 0, [] => some []
  | n + 1, v :: vs => (mkCallVars fns n vs).map (makeVar fns v :: ·)
  | _, _ => none

/-- `mkCall` (659-668). -/
def mkCall (np : Nat) (fns : List Var) (x : Var) (f : CExpr) (n : Nat) (vs : List Var) : Option CStmt :=
  (mkCallVars fns n (vs.take np)).map (.call x f ·)

/-- `asgnFunVars'` (693-705). -/
def asgnFunVars' : List Var → List Nat → Option CStmt
  | [], [] => some .skip
  | v :: vs, i :: ind => (asgnFunVars' vs ind).map (.seq (.set v (.arg i)) ·)
  | _, _ => none

/-- `asgnFunVars` (707-708). -/
def asgnFunVars (np : Nat) (vs : List Var) (ind : List Nat) : Option CStmt := asgnFunVars' (vs.drop np) (ind.drop np)

/-- `asgnAppVars''` (711-725). -/
def asgnAppVars' (fns : List Var) : List Var → List Nat → Option CStmt
  | [], [] => some .skip
  | v :: vs, i :: ind => (asgnAppVars' fns vs ind).map (.seq · (.setArg i (makeVar fns v)))
  | _, _ => none

/-- `asgnAppVars` (771-773). -/
def asgnAppVars (np : Nat) (fns : List Var) (vs : List Var) (ind : List Nat) : Option CStmt :=
  (asgnAppVars' fns (vs.drop np) (ind.drop np)).map (.seq .loadArgs ·)

/-- The inner loop of `push_live_vars_offset` (547-553). -/
def pushAux : List Var → Nat → CStmt → CStmt × Nat
  | [], n, s => (s, n)
  | x :: xs, n, s => pushAux xs (n + 1) (.seq (.setRoot n (.temp x)) s)

/-- `push_live_vars_offset` (547-553). -/
def pushVars (off : Nat) (xs : List Var) : CStmt × Nat := pushAux xs off .skip

/-- The inner loop of `pop_live_vars_offset` (555-561). -/
def popAux : List Var → Nat → CStmt → CStmt
  | [], _, s => s
  | x :: xs, n, s => popAux xs (n + 1) (.seq (.set x (.root n)) s)

/-- `pop_live_vars_offset` (555-561). -/
def popVars (off : Nat) (xs : List Var) : CStmt := popAux xs off .skip

/-- `set_stack` (520-523). -/
def setStack (sp : Nat) (b : Bool) : CStmt := if sp = 0 ∨ b = true then .skip else .link

/-- `update_stack` (526-529). -/
def updateStack (sp : Nat) : CStmt := if sp = 0 then .skip else .setNext sp

/-- `reset_stack` (533-536). -/
def resetStack (sp : Nat) (b : Bool) : CStmt := if sp = 0 ∨ b = true then .skip else .unlink

/-- `make_GC_call` (783-800). -/
def gcCall (n : Nat) (xs : List Var) (off : Nat) : CStmt × Nat :=
  let p := pushVars off xs
  if n = 0 then (.skip, off) else
    (.ifLow n (.seq (.seq p.1 (.seq (updateStack p.2) (setStack p.2 (off ≠ 0))))
      (.seq (.setNalloc n) (.seq .gc (.seq (.seq (popVars off xs) (resetStack p.2 (off ≠ 0)))
        (.seq .loadAlloc .loadLimit))))), p.2)

/-- `make_case_switch` (802-810). -/
def caseSwitch (x : Var) (ls ls' : LStmt) : CStmt := .ifPtr x (.switchTag x ls) (.switchOrd x ls')

/-- `encode_list` (LambdaANF_to_Clight_stack.v:18-66): eight characters per word, the last word padded as in OCaml. -/
def encodeList : List Nat → List Nat
  | [] => [7 * 2 ^ 56]
  | [a] => [6 * 2 ^ 56 + a]
  | [a, b] => [5 * 2 ^ 56 + a + 2 ^ 8 * b]
  | [a, b, c] => [4 * 2 ^ 56 + a + 2 ^ 8 * b + 2 ^ 16 * c]
  | [a, b, c, d] => [3 * 2 ^ 56 + a + 2 ^ 8 * b + 2 ^ 16 * c + 2 ^ 24 * d]
  | [a, b, c, d, e] => [2 * 2 ^ 56 + a + 2 ^ 8 * b + 2 ^ 16 * c + 2 ^ 24 * d + 2 ^ 32 * e]
  | [a, b, c, d, e, f] => [1 * 2 ^ 56 + a + 2 ^ 8 * b + 2 ^ 16 * c + 2 ^ 24 * d + 2 ^ 32 * e + 2 ^ 40 * f]
  | [a, b, c, d, e, f, g] => [a + 2 ^ 8 * b + 2 ^ 16 * c + 2 ^ 24 * d + 2 ^ 32 * e + 2 ^ 40 * f + 2 ^ 48 * g]
  | a :: b :: c :: d :: e :: f :: g :: i :: l =>
    (a + 2 ^ 8 * b + 2 ^ 16 * c + 2 ^ 24 * d + 2 ^ 32 * e + 2 ^ 40 * f + 2 ^ 48 * g + 2 ^ 56 * i) :: encodeList l

/-- The loop of `compile_string` (873-878): stores the words after `acc`. -/
def storeWords (x : Var) : Nat → List Nat → CStmt → CStmt
  | _, [], acc => acc
  | i, w :: ws, acc => storeWords x (i + 1) ws (.seq acc (.setField x i (.cst (.raw w))))

/-- `compile_primitive` (880-885) with `to_int64`, `compile_float`, `compile_string` (833-878). -/
def compilePrim (x : Var) : PVal → CStmt
  | .int n => .set x (.cst (.int (n * 2 + 1)))
  | .float b => .seq (.set x (.alloc 1)) (.seq (.bump 2)
      (.seq (.setField x (-1) (.cst (.int 1277))) (.setField x 0 (.cst (.raw b)))))
  | .str s => .seq (.set x (.alloc 1)) (.seq (.bump (s.length / 8 + 1 + 1))
      (storeWords x 0 (encodeList s) (.setField x (-1) (.cst (.int ((s.length / 8 + 1) * 1024 + 252))))))

/-- The statements of `translate_body` that are common to calls and allocating primitives (`Eletapp` 936-985, `Eprim`
1015-1050): `pre` (arguments), saving of registers and live variables, the call `c`, restoring. -/
def aroundCall (loc : Finset Var) (x : Var) (e' : Exp) (pre c : CStmt) : CStmt × Nat :=
  let post := e'.fv ∩ loc
  let fvs := elements (post.erase x)
  let fvGc := if x ∈ post then [x] else []
  let p := pushVars 0 fvs
  let g := gcCall (maxAllocsE e') fvGc p.2
  (.seq pre (.seq .saveAlloc (.seq .saveLimit (.seq (.seq p.1 (.seq (updateStack p.2) (setStack p.2 false)))
    (.seq c (.seq .loadAlloc (.seq .loadLimit (.seq g.1 (.seq (popVars 0 fvs) (resetStack p.2 false))))))))), g.2)

mutual
/-- `translate_body` (899-1058): the statement and the number of slots needed. -/
def trE (C : Cfg) (fenv : FEnv) (fns : List Var) (loc : Finset Var) : Exp → Nat → Option (CStmt × Nat)
  | .constr x t vs e, sl => match assignConstructor C.cenv fns x t vs, trE C fenv fns loc e sl with
    | some p, some (s, n) => some (.seq p s, n)
    | _, _ => none
  | .case x bs, sl => match trBs C fenv fns loc bs sl with
    | some (ls, ls', n) => some (caseSwitch x ls ls', n)
    | none => none
  | .proj x _ n v e, sl => match trE C fenv fns loc e sl with
    | some (s, m) => some (.seq (.set x (.field v n)) s, m)
    | none => none
  | .letapp x f t vs e, sl => match fenv t with
    | some (a, ind) => match asgnAppVars C.nParam fns vs ind,
        mkCall C.nParam fns x (makeVar fns f) (min a C.nParam) vs with
      | some asgn, some c =>
        let r := aroundCall loc x e asgn c
        match trE C fenv fns loc e (max sl r.2) with
        | some (s, n) => some (.seq r.1 s, n)
        | none => none
      | _, _ => none
    | none => none
  | .fn _ _, _ => none
  | .app f t vs, sl => match fenv t with
    | some (a, ind) => match asgnAppVars C.nParam fns vs ind,
        mkCall C.nParam fns C.result (makeVar fns f) (min a C.nParam) vs with
      | some asgn, some c =>
        some (.seq asgn (.seq .saveAlloc (.seq .saveLimit (.seq c (.ret (makeVar fns C.result))))), sl)
      | _, _ => none
    | none => none
  | .primVal x p e, sl => match trE C fenv fns loc e sl with
    | some (s, n) => some (.seq (compilePrim x p) s, n)
    | none => none
  | .prim x p vs e, sl => match C.prims p, mkCallVars fns vs.length vs with
    | some false, some as => match trE C fenv fns loc e sl with
      | some (s, n) => some (.seq (.prim x p as) s, n)
      | none => none
    | some true, some as =>
      let r := aroundCall loc x e .skip (.primT x p as)
      match trE C fenv fns loc e (max sl r.2) with
      | some (s, n) => some (.seq r.1 s, n)
      | none => none
    | _, _ => none
  | .halt x, sl => some (.seq .saveAlloc (.seq .saveLimit (.ret (makeVar fns x))), sl)
/-- `makeCases` (910-935): the switches over boxed and over unboxed constructors; the last branch of each becomes the
default. -/
def trBs (C : Cfg) (fenv : FEnv) (fns : List Var) (loc : Finset Var) : Brs → Nat → Option (LStmt × LStmt × Nat)
  | .nil, sl => some (.nil, .nil, sl)
  | .cons t e bs, sl => match trE C fenv fns loc e sl, trBs C fenv fns loc bs sl with
    | some (s, n), some (ls, ls', n') => match ctorRep C.cenv t with
      | some (.boxed o a) => match ls with
        | .nil => some (.cons none (.seq s .brk) .nil, ls', max n n')
        | .cons l s' r => some (.cons (some ((Rep.boxed o a).tag % 256)) (.seq s .brk) (.cons l s' r), ls', max n n')
      | some (.enum o) => match ls' with
        | .nil => some (ls, .cons none (.seq s .brk) .nil, max n n')
        | .cons l s' r => some (ls, .cons (some ((Rep.enum o).tag / 2)) (.seq s .brk) (.cons l s' r), max n n')
      | none => none
    | _, _ => none
end

/-- One function of `translate_fundefs` (1074-1115) with `mkFun` (1060-1072). -/
def trDef (C : Cfg) (fenv : FEnv) (fns : List Var) (f : Var) (t : Tag) (vs : List Var) (e : Exp) : Option CFun :=
  match fenv t with
  | none => none
  | some (_, ind) =>
    let live := elements (e.fv ∩ vs.toFinset)
    match asgnFunVars C.nParam vs ind, trE C fenv fns (vs.toFinset ∪ (localsE e).toFinset) e 0 with
    | some asgn, some (body, n) =>
      some ⟨f, vs.take C.nParam, max live.length n,
        .seq .loadAlloc (.seq .loadLimit (.seq .loadArgs (.seq asgn (.seq .initStack
          (.seq (gcCall (maxAllocsE e) live 0).1 body)))))⟩
    | _, _ => none

/-- `translate_fundefs` (1074-1115). -/
def trDefs (C : Cfg) (fenv : FEnv) (fns : List Var) : Defs → Option (List CFun)
  | .nil => some []
  | .cons f t vs e B => match trDefs C fenv fns B, trDef C fenv fns f t vs e with
    | some P, some F => some (F :: P)
    | _, _ => none

/-- The check of `make_fundef_info` (1230-1260): the tags of all functions are known. -/
def infoOk (fenv : FEnv) : Defs → Bool
  | .nil => true
  | .cons _ t _ _ B => (fenv t).isSome && infoOk fenv B

/-- `wrap_in_fun`: a program without functions gets an empty bundle. -/
def wrapInFun : Exp → Exp
  | .fn B e => .fn B e
  | e => .fn .nil e

/-- `translate_program` (1165-1200) in `make_defs` (1305-1320) in `compile_stack`: the functions and, apart, the C
function `body` for the main expression. -/
def compileC (C : Cfg) (body : Var) : Exp → Option (CFun × List CFun)
  | .fn B e =>
    let fenv := funEnv (.fn B e)
    let fns := B.names
    if infoOk fenv B then
      match trDefs C fenv fns B, trE C fenv fns (localsE e).toFinset e 0 with
      | some P, some (s, n) =>
        some (⟨body, [], n, .seq .loadAlloc (.seq .loadLimit (.seq .loadArgs (.seq .initStack
          (.seq (gcCall (maxAllocsE e) [] 0).1 s))))⟩, P)
      | _, _ => none
    else none
  | _ => none

/-- Runs the compiled program: calls `body` (from C, with no frame of generated code below depth `d`). -/
def runC (W : World) (M : CFun × List CFun) (n d : Nat) (h : Th) : Out := enter W (callC W M.2 n) M.1 d [] h

end CGen
