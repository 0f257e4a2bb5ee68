import Verif.CGen.ScopeSpec

/-!
# What C asks of the types in a file

The rules of ISO C11 for the types of expressions (6.5), assignments (6.5.16.1), calls (6.5.2.2), conditions (6.8.4.1) and `switch`
(6.8.4.2), for integers, pointers, structures, arrays and functions (no floating-point numbers).  `value` is `intnat`
(runtime/values.h:70), which is `long` (runtime/config.h:28); `long` has 64 bits.
-/

namespace CGen.Text

open CPrint (CE CS LS CTy CTys CFn Name Base BinOp UnOp)

/-- Integer types. -/
def isInt : Base → Bool
  | .void | .float | .double | .struct _ | .union _ => false
  | _ => true

/-- Integer promotion (6.3.1.1). -/
def promote : Base → Base
  | .schar | .uchar | .short | .ushort | .bool => .int
  | b => b

/-- The usual arithmetic conversions (6.3.1.8) of integer types. -/
def usual (a b : Base) : Base :=
  let a := promote a
  let b := promote b
  if a = .ullong ∨ b = .ullong then .ullong
  else if a = .llong ∨ b = .llong then .llong
  else if a = .value ∨ b = .value then .value
  else if a = .uint ∨ b = .uint then .uint
  else .int

/-- Arrays and functions used as values (6.3.2.1). -/
def decay : CTy → CTy
  | .arr t _ => .ptr t
  | .fn as va r => .ptr (.fn as va r)
  | t => t

/-- Integers and pointers. -/
def scalar : CTy → Bool
  | .base b => isInt b
  | .ptr _ => true
  | _ => false

/-- Types whose size is known and which pointers can be advanced over. -/
def object : CTy → Bool
  | .base .void => false
  | .fn _ _ _ => false
  | _ => true

/-- The type a cast is to; casts to function types are printed, and so read, as casts to pointers (C62). -/
def castTo : CTy → CTy
  | .fn as va r => .ptr (.fn as va r)
  | t => t

/-- The declarations in scope. -/
structure TEnv where
  temps : Name → CTy → Prop
  vars : Name → CTy → Prop
  fields : Name → Name → CTy → Prop

/-- What can be assigned to. -/
def lvalue : CE → Bool
  | .var _ | .temp _ | .deref _ => true
  | .field e _ => lvalue e
  | _ => false

/-- What has an address: not the temporaries, which are declared `register`. -/
def addressable : CE → Bool
  | .var _ | .deref _ => true
  | .field e _ => addressable e
  | _ => false

/-- Comparisons. -/
def isCmp : BinOp → Bool
  | .lt | .gt | .le | .ge | .eq | .ne => true
  | _ => false

/-- The type of an operation on integers that is not a comparison. -/
def resTy (o : BinOp) (a b : Base) : Base := match o with
  | .shl | .shr => promote a
  | _ => usual a b

/-- The type of an expression. -/
inductive HasTy (Γ : TEnv) : CE → CTy → Prop
  | temp {x t} : Γ.temps x t → HasTy Γ (.temp x) t
  | var {x t} : Γ.vars x t → HasTy Γ (.var x) t
  | deref {e u t} : HasTy Γ e u → decay u = .ptr t → HasTy Γ (.deref e) t
  | field {e s f t} : HasTy Γ e (.base (.struct s)) → Γ.fields s f t → HasTy Γ (.field e f) t
  | cint {n u} : HasTy Γ (.cint n u) (.base (if u then .uint else .int))
  | clong {n u} : HasTy Γ (.clong n u) (.base (if u then .ullong else .llong))
  | notbool {e u} : HasTy Γ e u → scalar (decay u) = true → HasTy Γ (.unop .notbool e) (.base .int)
  | unop {o e b} : o ≠ .notbool → HasTy Γ e (.base b) → isInt b = true → HasTy Γ (.unop o e) (.base (promote b))
  | addrof {e t} : addressable e = true → HasTy Γ e t → HasTy Γ (.addrof e) (.ptr t)
  | ptrAdd {a b u t i} : HasTy Γ a u → decay u = .ptr t → object t = true → HasTy Γ b (.base i) → isInt i = true → HasTy Γ (.binop .add a b) (.ptr t)
  | ptrSub {a b u v t} : HasTy Γ a u → decay u = .ptr t → HasTy Γ b v → decay v = .ptr t → object t = true → HasTy Γ (.binop .sub a b) (.base .value)
  | arith {o a b i j} : isCmp o = false → HasTy Γ a (.base i) → isInt i = true → HasTy Γ b (.base j) → isInt j = true →
      HasTy Γ (.binop o a b) (.base (resTy o i j))
  | cmp {o a b i j} : isCmp o = true → HasTy Γ a (.base i) → isInt i = true → HasTy Γ b (.base j) → isInt j = true →
      HasTy Γ (.binop o a b) (.base .int)
  | cast {e u t} : HasTy Γ e u → scalar (decay u) = true → scalar (castTo t) = true → HasTy Γ (.cast e t) (castTo t)
  | sizeof {t} : HasTy Γ (.sizeof t) (.base .ullong)
  | alignof {t} : HasTy Γ (.alignof t) (.base .ullong)

/-- A value of type `u` may be assigned to an object of type `t` (6.5.16.1: between integers; between pointers to the same type).
`ext`: also pointers to functions to integers, without a cast: not ISO C, but accepted by compilers with a warning (GCC before version 14, Clang before 15). -/
def Assignable (ext : Bool) (t u : CTy) : Prop :=
  (∃ i j, t = .base i ∧ isInt i = true ∧ u = .base j ∧ isInt j = true) ∨ (∃ p, t = .ptr p ∧ u = .ptr p) ∨
  (ext = true ∧ ∃ i as va r, t = .base i ∧ isInt i = true ∧ u = .ptr (.fn as va r))

/-- An expression whose value may be assigned to an object of type `t`. -/
def Fit (ext : Bool) (Γ : TEnv) (t : CTy) (e : CE) : Prop := ∃ u, HasTy Γ e u ∧ Assignable ext t (decay u)

/-- The arguments of a call. -/
def ArgsOk (ext : Bool) (Γ : TEnv) : List CE → CTys → Bool → Prop
  | [], .nil, _ => True
  | a :: as, .cons t ts, va => Fit ext Γ t a ∧ ArgsOk ext Γ as ts va
  | a :: as, .nil, va => va = true ∧ ∀ e ∈ a :: as, ∃ u, HasTy Γ e u ∧ scalar (decay u) = true
  | [], .cons _ _, _ => False

/-- The labels of a `switch`, `none` for `default`. -/
def labels : LS → List (Option Int)
  | .nil => []
  | .cons l _ ls => l :: labels ls

mutual
/-- Statements of a function that returns `r`. -/
def TypedS (ext : Bool) (Γ : TEnv) (r : CTy) : CS → Prop
  | .skip => True
  | .assign a b => lvalue a = true ∧ ∃ t, HasTy Γ a t ∧ Fit ext Γ t b
  | .set x e => ∃ t, Γ.temps x t ∧ Fit ext Γ t e
  | .call x f as => ∃ u ts va t, HasTy Γ f u ∧ decay u = .ptr (.fn ts va t) ∧ ArgsOk ext Γ as ts va ∧
      ∀ y, x = some y → ∃ v, Γ.temps y v ∧ Assignable ext v (decay t)
  | .seq a b => TypedS ext Γ r a ∧ TypedS ext Γ r b
  | .ite e a b => (∃ u, HasTy Γ e u ∧ scalar (decay u) = true) ∧ TypedS ext Γ r a ∧ TypedS ext Γ r b
  | .switch e ls => (∃ i, HasTy Γ e (.base i) ∧ isInt i = true) ∧ (labels ls).Nodup ∧ TypedL ext Γ r ls
  | .brk => True
  | .ret none => r = .base .void
  | .ret (some e) => Fit ext Γ r e
/-- The cases of a `switch`. -/
def TypedL (ext : Bool) (Γ : TEnv) (r : CTy) : LS → Prop
  | .nil => True
  | .cons _ s ls => TypedS ext Γ r s ∧ TypedL ext Γ r ls
end

/-- The types of some parameters. -/
def tysOf : List (Name × CTy) → CTys
  | [] => .nil
  | p :: ps => .cons p.2 (tysOf ps)

/-- The type of a function. -/
def fnTy (f : CFn) : CTy := .fn (tysOf f.params) f.va f.ret

/-- A file that is well typed; `fields`, `g`: the fields of structures and the functions declared in the headers. -/
def FileTyped (ext : Bool) (fields : Name → Name → CTy → Prop) (g : Name → CTy → Prop) (fs : List CFn) : Prop :=
  ∀ f ∈ fs, TypedS ext ⟨fun x t => (x, t) ∈ f.params ++ f.temps,
    fun x t => (x, t) ∈ f.vars ∨ (∃ h ∈ fs, x = h.name ∧ t = fnTy h) ∨ g x t, fields⟩ f.ret f.body

/-- `struct stack_frame` and `struct thread_info` (runtime/gc_stack.h:124-139; `MAX_ARGS` is 1024). -/
def gcStackFields : List (String × String × CTy) :=
  [("stack_frame", "next", .ptr (.base .value)),
   ("stack_frame", "root", .ptr (.base .value)),
   ("stack_frame", "prev", .ptr (.base (.struct "stack_frame".toList))),
   ("thread_info", "alloc", .ptr (.base .value)),
   ("thread_info", "limit", .ptr (.base .value)),
   ("thread_info", "heap", .ptr (.base (.struct "heap".toList))),
   ("thread_info", "args", .arr (.base .value) 1024),
   ("thread_info", "fp", .ptr (.base (.struct "stack_frame".toList))),
   ("thread_info", "nalloc", .base .ullong),
   ("thread_info", "odata", .ptr (.base .void))]

/-- The fields declared in the header. -/
def headerFields (s f : Name) (t : CTy) : Prop := ∃ p ∈ gcStackFields, s = p.1.toList ∧ f = p.2.1.toList ∧ t = p.2.2

/-- The functions declared in headers: `void garbage_collect(struct thread_info *ti)` (runtime/gc_stack.h:143), and the C functions `ps`
(name, identifier) with some type of functions each. -/
def headerFns (ps : List (Name × Nat)) (sig : Nat → CTys × Bool × CTy) (x : Name) (t : CTy) : Prop :=
  (x = "garbage_collect".toList ∧ t = .fn (.cons (.ptr (.base (.struct "thread_info".toList))) .nil) false (.base .void)) ∨
  ∃ p ∈ ps, x = p.1 ∧ t = .fn (sig p.2).1 (sig p.2).2.1 (sig p.2).2.2

open ANF in
mutual
/-- Functions of the program are only called, not stored or passed or returned. -/
def FirstE (fns : List Var) : Exp → Prop
  | .constr _ _ vs e => (∀ v ∈ vs, v ∉ fns) ∧ FirstE fns e
  | .case _ bs => FirstBs fns bs
  | .proj _ _ _ _ e => FirstE fns e
  | .letapp _ _ _ vs e => (∀ v ∈ vs, v ∉ fns) ∧ FirstE fns e
  | .fn _ e => FirstE fns e
  | .app _ _ vs => ∀ v ∈ vs, v ∉ fns
  | .primVal _ _ e => FirstE fns e
  | .prim _ _ vs e => (∀ v ∈ vs, v ∉ fns) ∧ FirstE fns e
  | .halt x => x ∉ fns
/-- The same for branches. -/
def FirstBs (fns : List Var) : Brs → Prop
  | .nil => True
  | .cons _ e bs => FirstE fns e ∧ FirstBs fns bs
end

open ANF in
/-- The same for functions. -/
def FirstB (fns : List Var) : Defs → Prop
  | .nil => True
  | .cons _ _ _ e B => FirstE fns e ∧ FirstB fns B

open ANF in
/-- The ordinals of the constructors of branches: those with arguments in a byte, and those without. -/
def ords (cenv : Ctor.PMap Ctor.Info) : Brs → List Nat × List Nat
  | .nil => ([], [])
  | .cons t _ bs => match ctorRep cenv t with
    | some (.boxed o _) => (o % 256 :: (ords cenv bs).1, (ords cenv bs).2)
    | some (.enum o) => ((ords cenv bs).1, o :: (ords cenv bs).2)
    | none => ords cenv bs

open ANF in
mutual
/-- No constructor is matched twice in the same match. -/
def OnceE (cenv : Ctor.PMap Ctor.Info) : Exp → Prop
  | .constr _ _ _ e => OnceE cenv e
  | .case _ bs => (ords cenv bs).1.Nodup ∧ (ords cenv bs).2.Nodup ∧ OnceBs cenv bs
  | .proj _ _ _ _ e => OnceE cenv e
  | .letapp _ _ _ _ e => OnceE cenv e
  | .fn _ e => OnceE cenv e
  | .app _ _ _ => True
  | .primVal _ _ e => OnceE cenv e
  | .prim _ _ _ e => OnceE cenv e
  | .halt _ => True
/-- The same for branches. -/
def OnceBs (cenv : Ctor.PMap Ctor.Info) : Brs → Prop
  | .nil => True
  | .cons _ e bs => OnceE cenv e ∧ OnceBs cenv bs
end

open ANF in
/-- The same for functions. -/
def OnceB (cenv : Ctor.PMap Ctor.Info) : Defs → Prop
  | .nil => True
  | .cons _ _ _ e B => OnceE cenv e ∧ OnceB cenv B

end CGen.Text
