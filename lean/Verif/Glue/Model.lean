import Verif.Ctor.Model

/-!
# The print functions of the glue code

theories/Glue/glue_utils.v:210-262 (dissecting the types of constructors) and theories/Glue/glue.v:466-897 (generating print functions). The functions
`get_T_tag`, `get_args` and the tables of names are modelled in Ctor/Model.lean.
-/

namespace Glue

open Ctor (W WMem Str Cnstr getTag getArgs namesArray readName)

/-- MetaRocq's `inductive`: a block and the index of a type in it. -/
abbrev Ind := Nat × Nat

/-- MetaRocq's terms, as far as `dissect_type` tells them apart; universes and instances left out. -/
inductive Tm
  | rel (n : Nat)
  | ind (i : Ind)
  | prod (name : Option Str) (a b : Tm)
  | sort
  | app (h : Tm) (args : List Tm)
  /-- Everything else, among them `tLetIn`, `tConst`, `tConstruct`. -/
  | other

/-- glue_utils.v:213-219. -/
inductive Dis
  | ind (i : Ind)
  | app (d : Dis) (l : List Dis)
  | fn
  | param (s : Str)
  | sort
  | invalid

mutual
/-- glue_utils.v:226-243, dissect_type, with get_from_ctx (223-224). -/
def dissectType (ctx : List Dis) : Tm → Dis
  | .rel n => ctx[n]?.getD .invalid
  | .ind i => .ind i
  | .prod _ _ _ => .fn
  | .sort => .sort
  | .app h args => .app (dissectType ctx h) (dissectList ctx args)
  | .other => .invalid
/-- `map (dissect_type ctx)`. -/
def dissectList (ctx : List Dis) : List Tm → List Dis
  | [] => []
  | t :: ts => dissectType ctx t :: dissectList ctx ts
end

/-- glue_utils.v:245-249, for_ctx. -/
def forCtx : Dis → Dis
  | .sort => .invalid
  | d => d

/-- glue_utils.v:251-272, dissect_types: the arguments (the result is not used by the printers). -/
def dissectTypes : Tm → List Str → List Dis → List Dis
  | .prod (some x) _ e, _ :: p, ctx => dissectTypes e p (.param x :: ctx)
  | .prod _ a e, [], ctx => dissectType ctx a :: dissectTypes e [] (forCtx (dissectType ctx a) :: ctx)
  | _, _, _ => []

/-- MetaRocq's `constructor_body`: cstr_name, cstr_arity, cstr_type. -/
structure CBody where
  name : Str
  arity : Nat
  ty : Tm

/-- glue_utils.v:179-184, ty_info; `isProp` is is_prop_type (glue.v:530-539). -/
structure TyInfo where
  ind : Ind
  isProp : Bool
  params : List Str
  ctors : List CBody

/-- The constructors as the tag functions and the tables of names see them. -/
def TyInfo.cnstrs (t : TyInfo) : List Cnstr := t.ctors.map fun c => ⟨c.name, c.arity⟩

/-- glue.v:226-235, get_tag_from_inductive. The tag of a type is its position in the list of types (enumerate_pos, from 1 in the code); an `inductive` occurs once, so that the order of
`M.fold` does not matter. -/
def tagOf (tys : List TyInfo) (i : Ind) : Option Nat := tys.findIdx? fun t => t.ind = i

/-- glue.v:563-572 make_printer_names and 184-186 get_print_env: there are printers for the types that are not of sort `Prop` (filter_prop_types, 543-558). A printer is known
by the tag of its type. -/
def printerOf (tys : List TyInfo) (tag : Nat) : Option Nat :=
  match tys[tag]? with
  | some t => if t.isProp then none else some tag
  | none => none

/-- glue.v:574-594, gen_param_fun_names and find_param_fun_name: a parameter function is known by its position. -/
def findParam (params : List Str) (p : Str) : Option Nat := params.findIdx? fun s => p = s

/-- Functions passed to a printer: one of its own parameters, or a printer. -/
inductive PArg
  | param (k : Nat)
  | fn (tag : Nat)

/-- The statements of print functions, without those for constructors' names and parentheses: `printf(lit)`, `f(args[i])` for a parameter `f`, `print_T(args[i], fs)` and the empty statement. -/
inductive PStmt
  | lit (s : Str)
  | callParam (k i : Nat)
  | call (tag i : Nat) (fs : List PArg)
  | skip

/-- glue.v:605-645, spine_to_args. -/
def spineToArgs (tys : List TyInfo) (params : List Str) : List Dis → Option (List PArg)
  | [] => some []
  | .param p :: sp => match findParam params p with
    | none => none
    | some k => (spineToArgs tys params sp).map (.param k :: ·)
  | .ind i :: sp => match tagOf tys i with
    | none => none
    | some tag => match printerOf tys tag with
      | none => none
      | some q => (spineToArgs tys params sp).map (.fn q :: ·)
  | _ :: _ => none

/-- glue.v:318-334, the literals. -/
def lparen : Str := ['(']
def rparen : Str := [')']
def space : Str := [' ']
def litFun : Str := "<fun>".toList
def litType : Str := "<type>".toList
def litUnk : Str := "<unk>".toList
def litProp : Str := "<prop>".toList

/-- glue.v:754-790, the part of rec_print_call for inductive types. -/
def printInd (tys : List TyInfo) (params : List Str) (i : Nat) (ind : Ind) (spine : List Dis) : PStmt :=
  match tagOf tys ind with
  | none => .skip
  | some tag => match tys[tag]? with
    | none => .skip
    | some info =>
      if info.isProp then .lit litProp
      else match spineToArgs tys params spine, printerOf tys tag with
        | none, _ => .skip
        | _, none => .skip
        | some fs, some q => .call q i (fs.take info.params.length)

/-- glue.v:718-797, rec_print_call. -/
def recPrintCall (tys : List TyInfo) (params : List Str) (i : Nat) : Dis → PStmt
  | .fn => .lit litFun
  | .invalid => .lit litUnk
  | .sort => .lit litType
  | .param p => match findParam params p with
    | none => .lit litUnk
    | some k => .callParam k i
  | .app (.ind ind) spine => printInd tys params i ind spine
  | .ind ind => printInd tys params i ind []
  | .app _ _ => .lit litUnk

/-- glue.v:799-810, rec_print_calls, from argument `i` on. -/
def recPrintCalls (tys : List TyInfo) (params : List Str) : Nat → List Dis → List PStmt
  | _, [] => []
  | i, [d] => [recPrintCall tys params i d]
  | i, d :: ds => recPrintCall tys params i d :: .lit space :: recPrintCalls tys params (i + 1) ds

/-- glue.v:813-838, the calls of one case of switch_cases. -/
def caseOf (tys : List TyInfo) (t : TyInfo) (c : CBody) : List PStmt := recPrintCalls tys t.params 0 (dissectTypes c.ty t.params [.ind t.ind])

/-- glue.v:468-476, get_max_ctor_arity. -/
def maxArity : List CBody → Nat
  | [] => 0
  | c :: cs => max c.arity (maxArity cs)

/-- `printf` with one argument (libc): the format, if it has no conversions. -/
def printf (s : Str) : Option Str := if '%' ∈ s then none else some s

/-- `printf(*(names_of_T + tag))` (glue.v:690-697); `none` behind the end of the table. -/
def printName (t : TyInfo) (tag : Nat) : Option Str :=
  if tag < t.ctors.length then printf (readName (namesArray t.cnstrs) tag) else none

/-- The function passed. -/
def PArg.val (fs : List Nat) : PArg → Option Nat
  | .param k => fs[k]?
  | .fn t => some t

/-- Running the call for an argument; the arguments are at `args`, `call` runs printers, `fs` are the printers passed for the parameters. -/
def runStmt (call : Nat → List Nat → W → Option Str) (m : WMem) (fs : List Nat) (args : W) : PStmt → Option Str
  | .lit s => printf s
  | .skip => some []
  | .callParam k i => match fs[k]? with
    | some q => call q [] (m (args + 8 * BitVec.ofNat 64 i))
    | none => none
  | .call q i ps => match ps.mapM (PArg.val fs) with
    | some fs' => call q fs' (m (args + 8 * BitVec.ofNat 64 i))
    | none => none

/-- Running the calls for all arguments. -/
def runStmts (call : Nat → List Nat → W → Option Str) (m : WMem) (fs : List Nat) (args : W) : List PStmt → Option Str
  | [] => some []
  | s :: ss => match runStmt call m fs args s, runStmts call m fs args ss with
    | some a, some b => some (a ++ b)
    | _, _ => none

/-- Running the generated `print_T(v, fs…)` (glue.v:840-870) over memory `m`: the output. `none`: undefined behaviour (a call with a wrong number of
arguments, a tag function without result), or out of fuel. -/
def runPrinter (tys : List TyInfo) (m : WMem) : Nat → Nat → List Nat → W → Option Str
  | 0, _, _, _ => none
  | fuel + 1, tag, fs, v => match printerOf tys tag, tys[tag]? with
    | some _, some t =>
      if fs.length ≠ t.params.length then none
      else match getTag t.cnstrs m v with
        | none => none
        | some g =>
          if maxArity t.ctors = 0 then printName t (g.toNat % 2 ^ 32)
          else match t.ctors[g.toNat % 2 ^ 32]? with
            | none => some []
            | some c =>
              if c.arity = 0 then printName t (g.toNat % 2 ^ 32)
              else match printName t (g.toNat % 2 ^ 32), runStmts (runPrinter tys m fuel) m fs (getArgs v) (caseOf tys t c) with
                | some n, some s => some (lparen ++ n ++ space ++ s ++ rparen)
                | _, _ => none
    | _, _ => none

end Glue
