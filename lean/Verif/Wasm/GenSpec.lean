import Verif.Wasm.PrimSpec
import Verif.Wasm.GenModel
import Verif.ANF.Util

/-!
# What the generated Wasm module must do

The representation of values in the linear memory (LambdaANF_to_Wasm.v:156-168), when a program is in the backend's
domain, and what running the module may observe. Nothing here mentions the emitted code.
-/

namespace Wasm

/-- How a value of the program is represented by an `i32`, in the memory `m` allocated up to `top`. A constructor
without arguments is `2 * ordinal + 1`; one with arguments is a word-aligned pointer to its ordinal, followed by its
arguments; a function is its index in the module, where the main function comes first; an integer is a pointer to eight
bytes. -/
inductive Rep (cenv : CEnv) (B : ANF.Defs) (m : Mem) (top : Nat) : ANF.Val → Nat → Prop
  | unboxed {t : ANF.Tag} {info : Ctor.Info} : cenv t = some info → info.arity = 0 → info.ordinal < 2 ^ 31 →
      Rep cenv B m top (.constr t []) (2 * info.ordinal + 1)
  | boxed {t : ANF.Tag} {info : Ctor.Info} {vs : List ANF.Val} {a : Nat} : cenv t = some info → info.arity = vs.length →
      vs ≠ [] → info.ordinal < 2 ^ 31 → a % 4 = 0 → a + 4 * (vs.length + 1) ≤ top → loadN m a 4 = info.ordinal →
      (∀ (i : Nat) v, vs[i]? = some v → Rep cenv B m top v (loadN m (a + 4 * (i + 1)) 4)) →
      Rep cenv B m top (.constr t vs) a
  | fn {f : ANF.Var} {i : Nat} : B.names[i]? = some f → Rep cenv B m top (.fn ANF.emp B f) (i + 1)
  | int {n a : Nat} : n < 2 ^ 63 → a % 4 = 0 → a + 8 ≤ top → loadN m a 8 = n → Rep cenv B m top (.prim (.int n)) a

/-- Constructors of the same type that are both with or both without arguments have different ordinals. -/
def OrdOk (cenv : CEnv) : Prop :=
  ∀ t t' i i', cenv t = some i → cenv t' = some i' → i.indTag = i'.indTag → (i.arity = 0 ↔ i'.arity = 0) →
    i.ordinal = i'.ordinal → t = t'

mutual
/-- Constructors are applied to as many arguments as the constructor environment says; integer literals have 63 bits. -/
def FitsE (cenv : CEnv) : ANF.Exp → Prop
  | .constr _ t ys e => (∀ i, cenv t = some i → i.arity = ys.length) ∧ FitsE cenv e
  | .case _ bs => FitsB cenv bs
  | .proj _ _ _ _ e => FitsE cenv e
  | .letapp _ _ _ _ e => FitsE cenv e
  | .fn B e => FitsD cenv B ∧ FitsE cenv e
  | .app _ _ _ => True
  | .primVal _ p e => (∀ n, p = .int n → n < 2 ^ 63) ∧ FitsE cenv e
  | .prim _ _ _ e => FitsE cenv e
  | .halt _ => True
/-- The same for branches. -/
def FitsB (cenv : CEnv) : ANF.Brs → Prop
  | .nil => True
  | .cons _ e bs => FitsE cenv e ∧ FitsB cenv bs
/-- The same for bundles. -/
def FitsD (cenv : CEnv) : ANF.Defs → Prop
  | .nil => True
  | .cons _ _ _ e B => FitsE cenv e ∧ FitsD cenv B
end

/-- Results of the integer operations. -/
inductive PRes where
  | int (n : Nat)
  | bool (b : Bool)
  | cmp (c : Uint63.Cmp)
  | carry (c : Uint63.Carry)
  | pair (r : Nat × Nat)

/-- The meaning of the integer operations (Rocq's `Uint63`). -/
def Means : Primop → List Nat → PRes → Prop
  | .add, [x, y], r => r = .int (Uint63.add x y)
  | .sub, [x, y], r => r = .int (Uint63.sub x y)
  | .mul, [x, y], r => r = .int (Uint63.mul x y)
  | .div, [x, y], r => r = .int (Uint63.div x y)
  | .mod, [x, y], r => r = .int (Uint63.mod x y)
  | .lsl, [x, y], r => r = .int (Uint63.lsl x y)
  | .lsr, [x, y], r => r = .int (Uint63.lsr x y)
  | .land, [x, y], r => r = .int (Uint63.land x y)
  | .lor, [x, y], r => r = .int (Uint63.lor x y)
  | .lxor, [x, y], r => r = .int (Uint63.lxor x y)
  | .eqb, [x, y], r => r = .bool (decide (x = y))
  | .ltb, [x, y], r => r = .bool (decide (x < y))
  | .leb, [x, y], r => r = .bool (decide (x ≤ y))
  | .compare, [x, y], r => r = .cmp (Uint63.compareInt x y)
  | .addc, [x, y], r => r = .carry (Uint63.addc x y)
  | .addcarryc, [x, y], r => r = .carry (Uint63.addcarryc x y)
  | .subc, [x, y], r => r = .carry (Uint63.subc x y)
  | .subcarryc, [x, y], r => r = .carry (Uint63.subcarryc x y)
  | .mulc, [x, y], r => r = .pair (Uint63.mulc x y)
  | .head0, [x], r => ∃ n, Uint63.IsHead0 x n ∧ r = .int n
  | .tail0, [x], r => ∃ n, Uint63.IsTail0 x n ∧ r = .int n
  | .diveucl, [x, y], r => r = .pair (Uint63.diveucl x y)
  | .diveucl21, [x, y, z], r => r = .pair (Uint63.diveucl21 x y z)
  | .addmuldiv, [x, y, z], r => r = .int (Uint63.addmuldiv x y z)
  | _, _, _ => False

/-- A constructor of the program with the given arity and ordinal (`theories/CodegenWasm/LambdaANF_to_Wasm_primitives.v:30-40`
fixes the ordinals of `bool`, `comparison`, `carry` and `prod`). -/
def HasCtor (cenv : CEnv) (t : ANF.Tag) (arity ord : Nat) : Prop :=
  ∃ i, cenv t = some i ∧ i.arity = arity ∧ i.ordinal = ord

/-- How results of integer operations appear as data. -/
def Encodes (cenv : CEnv) : PRes → ANF.FO → Prop
  | .int n, v => n < 2 ^ 63 ∧ v = .prim (.int n)
  | .bool b, v => ∃ t, HasCtor cenv t 0 (if b then 1 else 0) ∧ v = .con t []
  | .cmp c, v => ∃ t, HasCtor cenv t 0 (match c with | .eq => 0 | .lt => 1 | .gt => 2) ∧ v = .con t []
  | .carry (.C0 n), v => ∃ t, HasCtor cenv t 1 0 ∧ n < 2 ^ 63 ∧ v = .con t [.prim (.int n)]
  | .carry (.C1 n), v => ∃ t, HasCtor cenv t 1 1 ∧ n < 2 ^ 63 ∧ v = .con t [.prim (.int n)]
  | .pair (n, k), v => ∃ t, HasCtor cenv t 2 0 ∧ n < 2 ^ 63 ∧ k < 2 ^ 63 ∧ v = .con t [.prim (.int n), .prim (.int k)]

/-- The source meaning of the primitives is that of the integer operations they stand for. -/
def PrimsOk (S : ANF.Sig) (penv : ANF.Tag → Option Primop) : Prop :=
  ∀ p op ps v, penv p = some op → S.prims p ps = some v →
    ∃ ns r, ps = ns.map .int ∧ Means op ns r ∧ Encodes S.cenv r v

/-- Programs the backend is meant for: binders are unique, constructor applications agree with the constructor
environment, whose ordinals tell constructors apart, and primitives are the integer operations. -/
structure WasmInput (S : ANF.Sig) (penv : ANF.Tag → Option Primop) (B : ANF.Defs) (e : ANF.Exp) : Prop where
  nodup : (ANF.Exp.fn B e).bv.Nodup
  fits : FitsE S.cenv (.fn B e)
  ords : OrdOk S.cenv
  prims : PrimsOk S penv

/-- An instance of the module: the functions, the declared maximum memory, and any engine. -/
structure Instance (E : Env) (funcs : List Func) : Prop where
  funcs : E.funcs = funcs
  pages : E.maxPages = maxMemPages

/-- The module stopped because the memory could not be extended by one more page: the exported flag is set. -/
def OutOfMem (E : Env) (s : St) : Prop :=
  s.globals globOutOfMem = .i32 1 ∧ ¬ (s.pages + 1 ≤ E.maxPages ∧ E.growOk (s.pages + 1) = true)

/-- The module finished with the value `v`: the flag is not set, and the exported result is a representation of `v` in
the part of the memory below the exported allocation pointer. -/
def Result (cenv : CEnv) (B : ANF.Defs) (s : St) (v : ANF.Val) : Prop :=
  s.globals globOutOfMem = .i32 0 ∧ ∃ p w, s.globals globMemPtr = .i32 p ∧ p ≤ s.pages * pageSize ∧
    s.globals globResult = .i32 w ∧ Rep cenv B s.mem p v w

end Wasm
