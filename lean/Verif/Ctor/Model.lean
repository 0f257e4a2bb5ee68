import Mathlib.Data.Nat.Digits.Defs

/-!
# Constructors: tags, ordinals, run-time representation, and the generated glue code

Models `convert_env` of theories/LambdaANF/LambdaBoxLocal_to_LambdaANF.v, the constructor representation of
theories/Codegen/LambdaANF_to_Clight_stack.v and the constructor part of theories/Glue/glue.v and glue_utils.v.

Simplifications: positives and `N` are `Nat`; the tree maps of Maps.v are functions to `Option` (only `get`/`set` are
used here); strings are lists of characters.
-/

namespace Ctor

/-- Byte strings (`bytestring.string`) as lists of characters. -/
abbrev Str := List Char

/-- `M.t A` (compcert Maps.PTree), through its `get`/`set` interface. -/
abbrev PMap (α : Type) := Nat → Option α

/-- `M.empty`. -/
def PMap.empty {α : Type} : PMap α := fun _ => none

/-- `M.set`. -/
def PMap.set {α : Type} (k : Nat) (v : α) (m : PMap α) : PMap α := fun x => if x = k then some v else m x

/-- `ctor_ty_info` (LambdaANF/cps.v:376-383). -/
structure Info where
  name : Option Str
  indName : Option Str
  indTag : Nat
  arity : Nat
  ordinal : Nat
  deriving DecidableEq, Repr

/-- `AstCommon.Cnstr`: constructor name and number of arguments. -/
structure Cnstr where
  name : Str
  arity : Nat
  deriving DecidableEq, Repr

/-- `AstCommon.ityp`: type name and constructors. -/
structure Ityp where
  name : Str
  ctors : List Cnstr
  deriving DecidableEq, Repr

/-- MetaRocq `modpath`, as destructed in Glue/glue_utils.v:142-147. -/
inductive ModPath
  | file (dp : List Str)
  | bound (dp : List Str) (id : Str) (n : Nat)
  | dot (mp : ModPath) (id : Str)
  deriving DecidableEq, Repr

/-- MetaRocq `kername`: module path and identifier. -/
structure Kername where
  mp : ModPath
  id : Str
  deriving DecidableEq, Repr

/-- `dcon`: the `n`-th constructor of the `i`-th type of the block `kn`. -/
structure Dcon where
  kn : Kername
  ty : Nat
  con : Nat
  deriving DecidableEq, Repr

/-- `fromN` (LambdaBoxLocal_to_LambdaANF.v:80-86). -/
def fromN (n : Nat) : Nat → List Nat × Nat
  | 0 => ([], n)
  | m + 1 => let (l, nm) := fromN (n + 1) m; (n :: l, nm)

/-- `convert_cnstrs` (LambdaBoxLocal_to_LambdaANF.v:103-123). -/
def convertCnstrs (tyname : Str) : List Nat → List Cnstr → Kername → Nat → Nat → Nat → Nat → Nat →
    PMap Info → List (Dcon × Nat) → PMap Info × List (Dcon × Nat)
  | cn :: cct, cst :: itC, kn, ity, nCon, unboxed, boxed, niT, ce, dcm =>
    let isUnboxed := cst.arity == 0
    let info : Info :=
      { name := some cst.name, indName := some tyname, indTag := niT, arity := cst.arity,
        ordinal := if isUnboxed then unboxed else boxed }
    convertCnstrs tyname cct itC kn ity (nCon + 1)
      (if isUnboxed then unboxed + 1 else unboxed) (if isUnboxed then boxed else boxed + 1) niT
      (ce.set cn info) ((⟨kn, ity, nCon⟩, cn) :: dcm)
  | _, _, _, _, _, _, _, _, ce, dcm => (ce, dcm)

/-- The tuple `(ind_env, ctor_env, next ctor_tag, next ind_tag, conId_map)` threaded by the conversion. -/
structure Env where
  ie : PMap (List (Nat × Nat))
  ce : PMap Info
  ncT : Nat
  niT : Nat
  dcm : List (Dcon × Nat)

/-- `convert_typack` (LambdaBoxLocal_to_LambdaANF.v:133-159). -/
def convertTypack : List Ityp → Kername → Nat → Env → Env
  | [], _, _, ice => ice
  | t :: typ, kn, n, ice =>
    let (cct, ncT') := fromN ice.ncT t.ctors.length
    let (ce', dcm') := convertCnstrs t.name cct t.ctors kn n 0 0 0 ice.niT ice.ce ice.dcm
    let ityi := cct.zip (t.ctors.map (·.arity))
    convertTypack typ kn (n + 1)
      { ie := ice.ie.set ice.niT ityi, ce := ce', ncT := ncT', niT := ice.niT + 1, dcm := dcm' }

/-- `convert_env'` (LambdaBoxLocal_to_LambdaANF.v:162-172). -/
def convertEnv' : List (Kername × List Ityp) → Env → Env
  | [], ice => ice
  | (kn, ty) :: g, ice => convertEnv' g (convertTypack ty kn 0 ice)

/-- `convert_env` (LambdaBoxLocal_to_LambdaANF.v:185-194), for given reserved `default_tag`, `default_itag`. -/
def convertEnv (defaultTag defaultItag : Nat) (g : List (Kername × List Ityp)) : Env :=
  let info : Info := { name := none, indName := none, indTag := defaultItag, arity := 0, ordinal := 0 }
  convertEnv' g
    { ie := PMap.empty.set defaultItag [(defaultTag, 0)], ce := PMap.empty.set defaultTag info,
      ncT := defaultTag + 1, niT := defaultItag + 1, dcm := [] }

/-- `dcon_to_info` (LambdaBoxLocal_to_LambdaANF.v:41-48). -/
def dconToInfo (defaultTag : Nat) (a : Dcon) : List (Dcon × Nat) → Nat
  | [] => defaultTag
  | (c, inf) :: sig => if a = c then inf else dconToInfo defaultTag a sig

/-- `default_ctor_tag` (LambdaANF/toplevel.v:43). -/
def defaultCtorTag : Nat := 99
/-- `default_ind_tag` (LambdaANF/toplevel.v:44). -/
def defaultIndTag : Nat := 99
/-- `clo_tag`, the constructor of closures (LambdaANF/toplevel.v:46). -/
def cloTag : Nat := 15
/-- `clo_ind_tag` (LambdaANF/toplevel.v:47). -/
def cloIndTag : Nat := 16

/-! ## The representation used by compiled code -/

/-- Machine words. -/
abbrev W := BitVec 64

/-- Memory by byte address of 64-bit words (only aligned accesses are made). -/
abbrev WMem := W → W

/-- `*a = v`. -/
def WMem.put (m : WMem) (a v : W) : WMem := fun x => if x = a then v else m x

/-- `ctor_rep` (LambdaANF_to_Clight_stack.v:325-329). -/
inductive Rep
  | enum (t : Nat)
  | boxed (t a : Nat)
  deriving DecidableEq, Repr

/-- `make_ctor_rep` (LambdaANF_to_Clight_stack.v:332-339); `none` is `Err`. -/
def makeCtorRep (ce : PMap Info) (t : Nat) : Option Rep :=
  match ce t with
  | some p => if p.arity = 0 then some (.enum p.ordinal) else some (.boxed p.ordinal p.arity)
  | none => none

/-- `makeTagZ` (LambdaANF_to_Clight_stack.v:565-570). -/
def makeTagZ (ce : PMap Info) (t : Nat) : Option Nat :=
  match makeCtorRep ce t with
  | some (.enum t) => some ((t <<< 1) + 1)
  | some (.boxed t a) => some ((a <<< 10) + t)
  | none => none

/-- The part of the machine state that construction reads and writes: memory and the local `alloc` pointer. -/
structure CSt where
  mem : WMem
  alloc : W

/-- `assignConstructorS'` (LambdaANF_to_Clight_stack.v:589-606): `x[cur] = v; x[cur+1] = …`. -/
def assignFields (x : W) : Nat → List W → WMem → WMem
  | _, [], m => m
  | cur, v :: vs, m => assignFields x (cur + 1) vs (m.put (x + 8 * BitVec.ofNat 64 cur) v)

/-- Execution of the statement `assignConstructorS` (LambdaANF_to_Clight_stack.v:608-627), given the words of the
arguments; returns the word assigned to `x`. `val` is a 64-bit integer, pointer arithmetic is in words. -/
def assignConstructor (ce : PMap Info) (t : Nat) (vs : List W) (s : CSt) : Option (W × CSt) :=
  match makeTagZ ce t, makeCtorRep ce t with
  | some tag, some (.enum _) => some (BitVec.ofNat 64 tag, s)
  | some tag, some (.boxed _ a) =>
    let x := s.alloc + 8
    let mem := s.mem.put (x - 8) (BitVec.ofNat 64 tag)
    some (x, { mem := assignFields x 0 vs mem, alloc := s.alloc + 8 * BitVec.ofNat 64 (a + 1) })
  | _, _ => none

/-! ## The glue code generator -/

/-- `ctor_info` (Glue/glue_utils.v:189-194), without the type. -/
structure GInfo where
  name : Str
  arity : Nat
  ordinal : Nat
  deriving DecidableEq, Repr

/-- The local `aux` of `process_ctors` (Glue/glue_utils.v:310-329). -/
def processAux : Nat → Nat → List Cnstr → List GInfo
  | _, _, [] => []
  | u, b, c :: cs =>
    match c.arity with
    | 0 => { name := c.name, arity := c.arity, ordinal := u } :: processAux (u + 1) b cs
    | _ + 1 => { name := c.name, arity := c.arity, ordinal := b } :: processAux u (b + 1) cs

/-- `process_ctors` (Glue/glue_utils.v:308-330). -/
def processCtors (cs : List Cnstr) : List GInfo := processAux 0 0 cs

/-- The generated `get_unboxed_ordinal` (Glue/glue.v:272-285). -/
def getUnboxedOrdinal (v : W) : W := v >>> 1

/-- The generated `get_boxed_ordinal` (Glue/glue.v:287-302). -/
def getBoxedOrdinal (m : WMem) (v : W) : W := m (v - 8) &&& 255

/-- The generated `get_args` (Glue/glue.v:304-316). -/
def getArgs (v : W) : W := v

/-- `is_ptr` of the runtime (runtime/gc_stack.c:19-21). -/
def isPtr (v : W) : Bool := v &&& 1 == 0

/-- `match_ordinals_with_tag` (Glue/glue.v:947-961): (boxed ordinals, unboxed ordinals) with constructor indices. -/
def matchOrdinals : List Cnstr → Nat → Nat → Nat → List (Nat × Nat) × List (Nat × Nat)
  | [], _, _, _ => ([], [])
  | c :: cs, b, u, n =>
    if c.arity = 0 then
      let (bs, us) := matchOrdinals cs b (u + 1) (n + 1); (bs, (u, n) :: us)
    else
      let (bs, us) := matchOrdinals cs (b + 1) u (n + 1); ((b, n) :: bs, us)

/-- Running the `switch` made by `matches_to_LS` (Glue/glue.v:963-971) on `t`: every case returns, there is no
default, so an unmatched `t` leaves a function returning a value without a return (`none`, undefined). -/
def runSwitch (t : W) : List (Nat × Nat) → Option W
  | [] => none
  | (o, n) :: ps => if t = BitVec.ofNat 64 o then some ((BitVec.ofNat 32 n).signExtend 64) else runSwitch t ps

/-- The generated `get_T_tag` (Glue/glue.v:985-1007). -/
def getTag (cs : List Cnstr) (m : WMem) (v : W) : Option W :=
  match matchOrdinals cs 0 0 0 with
  | ([], []) => some 0
  | ([], _ :: _) => some (getUnboxedOrdinal v)
  | (_ :: _, []) => some (getBoxedOrdinal m v)
  | (b :: bs, u :: us) =>
    if isPtr v then runSwitch (getBoxedOrdinal m v) (b :: bs) else runSwitch (getUnboxedOrdinal v) (u :: us)

/-- The generated `make_T_C` for a constructor without arguments (Glue/glue.v:1055-1069): a 32-bit constant cast to
`val`. -/
def glueUnboxed (ord : Nat) : W := (BitVec.ofNat 32 ((ord <<< 1) + 1)).signExtend 64

/-- `make_constrAsgn'` (Glue/glue.v:49-58): `argv[n] = arg; …`. -/
def glueAsgn (argv : W) : Nat → List W → WMem → WMem
  | _, [], m => m
  | n, v :: vs, m => glueAsgn argv (n + 1) vs (m.put (argv + 8 * BitVec.ofNat 64 n) v)

/-- The generated `make_T_C(args…, argv)` (Glue/glue.v:1076-1094). `ar` is the number of parameters. -/
def glueMake (ar ord : Nat) (args : List W) (argv : W) (m : WMem) : W × WMem :=
  let m := m.put (argv + 8 * 0) (BitVec.ofNat 64 ((ar <<< 10) + ord))
  (argv + 8 * 1, glueAsgn argv 1 args m)

/-- The generated `alloc_make_T_C(tinfo, args…)` (Glue/glue.v:1097-1127); `alloc` is `tinfo->alloc`, kept apart from
the word memory. There is no heap check. -/
def glueAlloc (ar ord : Nat) (args : List W) (s : CSt) : W × CSt :=
  let argv := s.alloc
  let m := s.mem.put (argv + 8 * 0) (BitVec.ofNat 64 ((ar <<< 10) + ord))
  let m := glueAsgn argv 1 args m
  (argv + 8 * 1, { mem := m, alloc := s.alloc + 8 * BitVec.ofNat 64 (ar + 1) })

/-- `string_as_array` (Glue/glue.v:251-257): the bytes and a terminating NUL. -/
def stringAsArray : Str → List Char
  | [] => [Char.ofNat 0]
  | c :: s => c :: stringAsArray s

/-- `pad_char_init` (Glue/glue.v:901-902). -/
def padCharInit (l : List Char) (n : Nat) : List Char := l ++ List.replicate (n - l.length) (Char.ofNat 0)

/-- `normalized_names_array` (Glue/glue.v:904-917); `Init_space 0` contributes no byte. -/
def normalizedNames : List Cnstr → Nat → Nat × List Char
  | [], n => (n, [])
  | c :: cs, n =>
    let (maxLen, l) := normalizedNames cs (max n (c.name.length + 1))
    (maxLen, padCharInit (stringAsArray c.name) maxLen ++ l)

/-- The initialiser of the `names_of_T` array (Glue/glue.v:919-929): row length and bytes. -/
def namesArray (cs : List Cnstr) : Nat × List Char := normalizedNames cs 1

/-- Printing `names_of_T[i]` with `%s`-like `printf` (Glue/glue.v:692-699): the bytes of row `i` up to a NUL. -/
def readName (a : Nat × List Char) (i : Nat) : Str := (a.2.drop (a.1 * i)).takeWhile (· ≠ Char.ofNat 0)

/-! ## Names -/

/-- `String.concat` (bytestring), the separator between consecutive elements. -/
def concatSep (sep : Str) : List Str → Str
  | [] => []
  | [s] => s
  | s :: t :: r => s ++ sep ++ concatSep sep (t :: r)

/-- `sanitize_dirpath` (Glue/glue_utils.v:139-140). -/
def sanitizeDirpath (dp : List Str) : Str := concatSep ['_'] dp.reverse

/-- `sanitize_modpath` (Glue/glue_utils.v:142-147). -/
def sanitizeModpath : ModPath → Str
  | .file dp => sanitizeDirpath dp
  | .bound dp id _ => sanitizeDirpath dp ++ ['_'] ++ id
  | .dot mp id => sanitizeModpath mp ++ ['_'] ++ id

/-- `sanitize_qualified` (Glue/glue_utils.v:150-152). -/
def sanitizeQualified (n : Kername) : Str := sanitizeModpath n.mp ++ ['_'] ++ n.id

/-- `make_name` (Glue/glue.v:1051-1052). -/
def makeName (n : Kername) (cname : Str) : Str :=
  ['m', 'a', 'k', 'e', '_'] ++ sanitizeQualified n ++ ['_'] ++ cname

/-! ## Reserved identifiers -/

/-- The identifiers the ANF C backend is instantiated with, in the parameter order of `compile`
(Codegen/toplevel.v:9-32 and 63-72; `make_tinfoIdent` is LambdaANF_to_Clight_stack.v's own constant 20).
Position 18 is `rootIdent`, 20 `nextFld`, 21 the *field* `root`, for which toplevel.v:70 passes `rootIdent` again. -/
def backendIdents : List Nat :=
  [26, 28, 92, 29, 80, 81, 90, 31, 91, 95, 97, 82, 83, 93, 78, 79, 84, 86, 87, 84, 89, 20]

/-- The identifiers *declared* in Codegen/toplevel.v:9-32 (with `make_tinfoIdent`). -/
def declaredIdents : List Nat :=
  [26, 28, 92, 29, 80, 81, 90, 31, 91, 95, 97, 82, 83, 93, 78, 79, 84, 85, 86, 87, 88, 89, 20]

/-- `next_id` (Compiler/pipeline.v:81). -/
def nextId : Nat := 100

/-- `pick_prim_ident` (Compiler/pipeline.v:26-35). -/
def pickPrimIdent {α : Type} (id : Nat) : List α → List (α × Nat) × Nat
  | [] => ([], id)
  | pr :: prs => let (prs', id') := pickPrimIdent (id + 1) prs; ((pr, id) :: prs', id')

/-- `show_pos` (LambdaANF/cps_show.v:31): decimal digits. -/
def showPos (p : Nat) : Str := (Nat.digits 10 p).reverse.map Nat.digitChar

/-- `ensure_unique` (LambdaANF_to_Clight_stack.v:1366-1371); `some none` is `nAnon`. -/
def ensureUnique (nenv : PMap (Option Str)) : PMap (Option Str) :=
  fun x => (nenv x).map fun n => n.map fun s => s ++ (['_'] ++ showPos x)

/-- The fixed names of `inf_vars` (LambdaANF_to_Clight_stack.v:1339-1360), without the user-chosen `bodyName`, and
`make_tinfo` (line 1491). -/
def infNames : List Str :=
  ["is_ptr", "args", "alloc", "nalloc", "limit", "garbage_collect", "main", "thread_info", "tinfo", "heap", "arg",
    "num_args", "stack_frame", "frame", "roots", "fp", "next", "root", "prev", "result", "make_tinfo"].map
    String.toList

end Ctor
