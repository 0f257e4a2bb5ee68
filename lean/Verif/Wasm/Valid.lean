import Verif.Wasm.Sem

/-!
# Validation and instantiation of WebAssembly modules

What the WebAssembly specification (chapters 3 and 4.5.4) demands of a module before it runs any of its code, for the
instructions of `Sem.lean`. This file knows nothing about the compiler.

Simplifications: only the two integer types occur; alignment hints are not part of the instructions (the backend uses
`2`, at most the natural alignment of every access); passive and declarative element segments, data segments, start
functions and imports do not exist; function references occur in element segments only.
-/

namespace Wasm

/-- Function types. -/
structure FuncType where
  params : List Ty
  results : List Ty
deriving DecidableEq

/-- Size limits of tables and memories. -/
structure Limits where
  min : Nat
  max : Option Nat

/-- A function: type index, further locals, body. -/
structure ModFunc where
  type : Nat
  locals : List Ty
  body : List Instr

/-- A global: mutability, type, initialiser. -/
structure ModGlobal where
  mutable : Bool
  ty : Ty
  init : List Instr

/-- An active element segment of function references: table, offset, function indices. -/
structure ModElem where
  table : Nat
  offset : List Instr
  init : List Nat

/-- What an export refers to. -/
inductive ExportDesc where
  | func (i : Nat)
  | table (i : Nat)
  | mem (i : Nat)
  | global (i : Nat)
deriving DecidableEq

/-- An export. -/
structure Export where
  name : List Char
  desc : ExportDesc

/-- A module. -/
structure Module where
  types : List FuncType
  funcs : List ModFunc
  tables : List Limits
  mems : List Limits
  globals : List ModGlobal
  elems : List ModElem
  exports : List Export

/-- Type of a value. -/
def Val.ty : Val → Ty
  | .i32 _ => .t32
  | .i64 _ => .t64

/-- The immediate fits its type. -/
def Val.Fits : Val → Prop
  | .i32 n => n < 2 ^ 32
  | .i64 n => n < 2 ^ 64

/-- Contexts of validation. -/
structure VCtx where
  types : List FuncType
  tables : List Limits
  mems : List Limits
  globals : List (Bool × Ty)
  locals : List Ty
  labels : List (List Ty)
  ret : List Ty

/-- `Typed C is st st'`: the instructions take an operand stack with types `st` to one with types `st'` (top first).
After an instruction that does not fall through, the stack is arbitrary. -/
inductive Typed : VCtx → List Instr → List Ty → List Ty → Prop
  | nil {C st} : Typed C [] st st
  | const {C v is st st'} : v.Fits → Typed C is (v.ty :: st) st' → Typed C (.const v :: is) st st'
  | localGet {C i t is st st'} : C.locals[i]? = some t → Typed C is (t :: st) st' → Typed C (.localGet i :: is) st st'
  | localSet {C i t is st st'} : C.locals[i]? = some t → Typed C is st st' → Typed C (.localSet i :: is) (t :: st) st'
  | globalGet {C i b t is st st'} : C.globals[i]? = some (b, t) → Typed C is (t :: st) st' →
      Typed C (.globalGet i :: is) st st'
  | globalSet {C i t is st st'} : C.globals[i]? = some (true, t) → Typed C is st st' →
      Typed C (.globalSet i :: is) (t :: st) st'
  | load {C t off is st st'} : C.mems ≠ [] → off < 2 ^ 32 → Typed C is (t :: st) st' →
      Typed C (.load t off :: is) (.t32 :: st) st'
  | store {C t off is st st'} : C.mems ≠ [] → off < 2 ^ 32 → Typed C is st st' →
      Typed C (.store t off :: is) (t :: .t32 :: st) st'
  | binop {C t op is st st'} : Typed C is (t :: st) st' → Typed C (.binop t op :: is) (t :: t :: st) st'
  | relop {C t op is st st'} : Typed C is (.t32 :: st) st' → Typed C (.relop t op :: is) (t :: t :: st) st'
  | unop {C t op is st st'} : Typed C is (t :: st) st' → Typed C (.unop t op :: is) (t :: st) st'
  | eqz {C t is st st'} : Typed C is (.t32 :: st) st' → Typed C (.eqz t :: is) (t :: st) st'
  | memorySize {C is st st'} : C.mems ≠ [] → Typed C is (.t32 :: st) st' → Typed C (.memorySize :: is) st st'
  | memoryGrow {C is st st'} : C.mems ≠ [] → Typed C is (.t32 :: st) st' → Typed C (.memoryGrow :: is) (.t32 :: st) st'
  | ifte {C ts a b is st st'} : Typed { C with labels := ts :: C.labels } a [] ts.reverse →
      Typed { C with labels := ts :: C.labels } b [] ts.reverse → Typed C is (ts.reverse ++ st) st' →
      Typed C (.ifte ts a b :: is) (.t32 :: st) st'
  | loop {C a is st st'} : Typed { C with labels := [] :: C.labels } a [] [] → Typed C is st st' →
      Typed C (.loop a :: is) st st'
  | br {C k ts is st mid st'} : C.labels[k]? = some ts → Typed C is mid st' →
      Typed C (.br k :: is) (ts.reverse ++ st) st'
  | ret {C is st mid st'} : Typed C is mid st' → Typed C (.ret :: is) (C.ret.reverse ++ st) st'
  | callIndirect {C n ft is st st'} : C.tables ≠ [] → C.types[n]? = some ft →
      Typed C is (ft.results.reverse ++ st) st' →
      Typed C (.callIndirect n :: is) (.t32 :: (ft.params.reverse ++ st)) st'
  | returnCallIndirect {C n ft is st mid st'} : C.tables ≠ [] → C.types[n]? = some ft → ft.results = C.ret →
      Typed C is mid st' → Typed C (.returnCallIndirect n :: is) (.t32 :: (ft.params.reverse ++ st)) st'
  | unreachable {C is st mid st'} : Typed C is mid st' → Typed C (.unreachable :: is) st st'

/-- Limits are in order and within a range. -/
def Limits.Valid (l : Limits) (k : Nat) : Prop := l.min ≤ k ∧ ∀ m, l.max = some m → l.min ≤ m ∧ m ≤ k

namespace Module
variable (m : Module)

/-- The context of the module, for the body of a function with the given locals and results. -/
def ctx (locals results : List Ty) : VCtx :=
  ⟨m.types, m.tables, m.mems, m.globals.map fun g => (g.mutable, g.ty), locals, [results], results⟩

/-- A valid function. -/
def FuncValid (f : ModFunc) : Prop :=
  ∃ ft, m.types[f.type]? = some ft ∧ Typed (m.ctx (ft.params ++ f.locals) ft.results) f.body [] ft.results.reverse

/-- A constant expression of type `t`. -/
def ConstExpr (t : Ty) (is : List Instr) : Prop := ∃ v : Val, is = [.const v] ∧ v.ty = t ∧ v.Fits

/-- A valid element segment. -/
def ElemValid (e : ModElem) : Prop :=
  e.table < m.tables.length ∧ ConstExpr .t32 e.offset ∧ ∀ i ∈ e.init, i < m.funcs.length

/-- A valid export. -/
def ExportValid : ExportDesc → Prop
  | .func i => i < m.funcs.length
  | .table i => i < m.tables.length
  | .mem i => i < m.mems.length
  | .global i => i < m.globals.length

/-- A valid module (specification 3.4.10). -/
structure Valid : Prop where
  funcs : ∀ f ∈ m.funcs, m.FuncValid f
  tables : ∀ t ∈ m.tables, t.Valid (2 ^ 32 - 1)
  mems : ∀ t ∈ m.mems, t.Valid (2 ^ 16)
  oneMem : m.mems.length ≤ 1
  globals : ∀ g ∈ m.globals, ConstExpr g.ty g.init
  elems : ∀ e ∈ m.elems, m.ElemValid e
  exports : ∀ x ∈ m.exports, m.ExportValid x.desc
  names : (m.exports.map (·.name)).Nodup

end Module

/-- A module instance: the contents of its tables (a function or null), the globals, and for each memory its size in
pages and its contents. -/
structure Inst where
  tables : List (List (Option Nat))
  globals : List Val
  mems : List (Nat × Mem)

/-- The value of a constant expression. -/
def constVal : List Instr → Option Val
  | [.const v] => some v
  | _ => none

/-- `table.init`: writes the references; `none` is a trap. -/
def writeTable (t : List (Option Nat)) (o : Nat) (fs : List Nat) : Option (List (Option Nat)) :=
  if o + fs.length ≤ t.length then some (t.take o ++ fs.map some ++ t.drop (o + fs.length)) else none

/-- The element segments, in order. -/
def runElems : List ModElem → List (List (Option Nat)) → Option (List (List (Option Nat)))
  | [], ts => some ts
  | e :: es, ts =>
    match constVal e.offset, ts[e.table]? with
    | some (.i32 o), some t => (writeTable t o e.init).bind fun t' => runElems es (ts.set e.table t')
    | _, _ => none

/-- Instantiation (specification 4.5.4): tables of null references, zeroed memories of the minimal sizes, the globals'
initial values; then the element segments are written. `none` is a trap. -/
def instantiate (m : Module) : Option Inst := do
  let gs ← m.globals.mapM fun g => constVal g.init
  let ts ← runElems m.elems (m.tables.map fun l => List.replicate l.min none)
  some ⟨ts, gs, m.mems.map fun l => (l.min, fun _ => 0)⟩

/-- The function an indirect call with type index `n` reaches for the operand `i`; `none` is a trap. -/
def indirect (m : Module) (I : Inst) (n i : Nat) : Option Nat := do
  let t ← I.tables[0]?
  let r ← t[i]?
  let g ← r
  let fn ← m.funcs[g]?
  let want ← m.types[n]?
  let have_ ← m.types[fn.type]?
  if have_ = want then some g else none

/-- The module as the execution model of `Sem.lean` sees it, in an engine that answers requests for memory with `growOk`. -/
def Module.env (m : Module) (growOk : Nat → Bool) : Env where
  funcs := m.funcs.map fun f => ⟨((m.types[f.type]?).map (·.params.length)).getD 0, f.locals.length, f.body⟩
  maxPages := (m.mems[0]?.bind (·.max)).getD (2 ^ 16)
  growOk := growOk

/-- The state in which the host calls a function without arguments of a new instance. -/
def Inst.start (I : Inst) (f : Func) : St where
  mem := (I.mems[0]?.map (·.2)).getD fun _ => 0
  pages := (I.mems[0]?.map (·.1)).getD 0
  globals := fun i => I.globals[i]?.getD (.i64 0)
  locals := List.replicate f.locals (.i32 0)
  stack := []

/-- What the host finds under an export name. -/
def lookupExport (m : Module) (name : List Char) : Option ExportDesc :=
  (m.exports.find? fun x => x.name = name).map (·.desc)

end Wasm
