import Verif.Wasm.Sem
import Verif.Int63.Spec

/-!
# What the Wasm integer primitives must do

Representation of values in the linear memory (`LambdaANF_to_Wasm.v:129-141` and
`LambdaANF_to_Wasm_primitives.v`), stated without reference to the emitted code: a primitive integer is a pointer to
8 bytes holding it; a constructor without arguments is `2 * ordinal + 1`; a constructor with arguments is a pointer to
its ordinal followed by its arguments (4 bytes each). The specification of the operations is `Verif.Int63.Spec`.
-/

namespace Wasm

/-- A pointer, below `top` and at or above `bot`, to the primitive integer `n`. -/
def IsInt (m : Mem) (bot top : Nat) (v : Val) (n : Nat) : Prop :=
  ∃ a, v = .i32 a ∧ a % 4 = 0 ∧ bot ≤ a ∧ a + 8 ≤ top ∧ loadN m a 8 = n

/-- A constructor without arguments. -/
def IsUnboxed (v : Val) (ord : Nat) : Prop := v = .i32 (2 * ord + 1)

/-- A block with the given ordinal and arguments. -/
def IsBlock (m : Mem) (bot top : Nat) (v : Val) (ord : Nat) (args : List Val) : Prop :=
  ∃ a, v = .i32 a ∧ a % 4 = 0 ∧ bot ≤ a ∧ a + 4 * (args.length + 1) ≤ top ∧ loadN m a 4 = ord ∧
    ∀ i w, args[i]? = some (.i32 w) → loadN m (a + 4 * (i + 1)) 4 = w

/-- Compiled booleans (`false` has ordinal 0, `true` ordinal 1). -/
def IsBool (v : Val) (b : Bool) : Prop := IsUnboxed v (if b then 1 else 0)

/-- `Eq | Lt | Gt`. -/
def IsCmp (v : Val) : Uint63.Cmp → Prop
  | .eq => IsUnboxed v 0
  | .lt => IsUnboxed v 1
  | .gt => IsUnboxed v 2

/-- `C0 n | C1 n`. -/
def IsCarry (m : Mem) (bot top : Nat) (v : Val) : Uint63.Carry → Prop
  | .C0 n => ∃ w, IsBlock m bot top v 0 [w] ∧ IsInt m bot top w n
  | .C1 n => ∃ w, IsBlock m bot top v 1 [w] ∧ IsInt m bot top w n

/-- A pair of integers. -/
def IsPair (m : Mem) (bot top : Nat) (v : Val) (r : Nat × Nat) : Prop :=
  ∃ w1 w2, IsBlock m bot top v 0 [w1, w2] ∧ IsInt m bot top w1 r.1 ∧ IsInt m bot top w2 r.2

/-- State in which a primitive may be executed: the allocation pointer `p` is aligned, and the 52 bytes that
`LambdaANF_to_Wasm.v:413` reserves are there. -/
structure Ready (s : St) (p : Nat) : Prop where
  gmp : s.globals 0 = .i32 p
  aligned : p % 4 = 0
  room : p + 52 ≤ s.pages * pageSize
  small : s.pages * pageSize < 2 ^ 32

/-- Local variable `i` holds a pointer to the primitive integer `n` in the memory allocated so far. -/
def Arg (s : St) (p i n : Nat) : Prop :=
  n < 2 ^ 63 ∧ ∃ a, s.locals[i]? = some (.i32 a) ∧ a + 8 ≤ p ∧ loadN s.mem a 8 = n

/-- What a primitive leaves alone: memory below the allocation pointer, size of the memory, locals, the result and
out-of-memory globals; and how far the allocation pointer moves. -/
structure Frame (s s' : St) (p p' : Nat) : Prop where
  mem : ∀ b, b < p → s'.mem b = s.mem b
  pages : s'.pages = s.pages
  locals : s'.locals = s.locals
  result : s'.globals 2 = s.globals 2
  oom : s'.globals 3 = s.globals 3
  gmp : s'.globals 0 = .i32 p'
  aligned : p' % 4 = 0
  grows : p ≤ p'
  bound : p' ≤ p + 28

/-- The code `is`, run in `s`, pushes one value, which satisfies `Q` (given the memory and the bounds of the newly
allocated part). -/
def Computes (E : Env) (is : List Instr) (s : St) (p : Nat) (Q : Mem → Nat → Nat → Val → Prop) : Prop :=
  ∃ s' v p', Runs E is s (.ok s') ∧ s'.stack = v :: s.stack ∧ Frame s s' p p' ∧ Q s'.mem p p' v

end Wasm
