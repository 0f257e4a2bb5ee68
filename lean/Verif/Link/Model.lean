import Verif.CPrint.NameModel

/-!
# What object files define

The names with external linkage that the C file of a program defines (LambdaANF_to_Clight_stack.v:1160-1303, 1472-1493), and those of a file of glue code
(theories/Glue/glue.v:318-341, 344-460, 1321-1339).  No definition is printed with `static` (printClight.ml:259-309, printCsyntax.ml:504-527).
-/

namespace Link

open CPrint

/-- A program as far as its names are concerned: the name of the main function, the primitives with their identifiers, the names of its identifiers, the identifiers
of its functions in the order of the block, and the first identifier that is not used (`n` in `compile`, 1481). -/
structure Prog where
  main : Name
  prims : List (Name × Nat)
  names : NEnv
  fns : List Nat
  first : Nat

/-- `make_fundef_info` (1224-1247): the functions with the identifiers of their tables; the last function gets the first. -/
def infoIds (n : Nat) : List Nat → List (Nat × Nat)
  | [] => []
  | f :: fs => (f, n + fs.length) :: infoIds n fs

/-- The names after `make_fundef_info`. -/
def infoEnv (n : Nat) (m : NEnv) : List Nat → NEnv
  | [] => m
  | f :: fs => (infoEnv n m fs).addInfo f (n + fs.length)

/-- `add_bodyinfo` (1251-1262). -/
def Prog.env (P : Prog) : NEnv := (infoEnv P.first P.names P.fns).set (P.first + P.fns.length) "body_info".toList

/-- The identifiers of the tables and functions (`make_defs`, 1289-1299), and of the main function. -/
def Prog.ids (P : Prog) : List Nat := (P.first + P.fns.length) :: (infoIds P.first P.fns).map (·.2) ++ P.fns

/-- The names that the C file defines (`print_globdef`, printClight.ml:294-297); `bodyIdent` is 90. -/
def Prog.symbols (P : Prog) : List Name := (90 :: P.ids).map (externAtom (finalTable P.main P.prims P.env))

/-- What every file of glue code defines (glue.v:272-341, 444-460, 1309-1318, 1334-1335, with `gensym`, 173-177), in direct style. -/
def glueCommon : List Name :=
  ["lparen_lit".toList, "rparen_lit".toList, "space_lit".toList, "fun_lit".toList, "type_lit".toList, "unk_lit".toList, "prop_lit".toList,
    "get_unboxed_ordinal".toList, "get_boxed_ordinal".toList, "get_args".toList, "call".toList]

/-- A file of glue code; `own`: what it defines for its types. -/
def glueSymbols (own : List Name) : List Name := glueCommon ++ own

end Link
