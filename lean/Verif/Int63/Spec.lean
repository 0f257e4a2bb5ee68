/-!
# Specification of Rocq's `Uint63` / `Sint63` operations

Plain natural-number and integer arithmetic, following the axioms of Rocq's `Uint63Axioms` and `Sint63`. Nothing here
refers to the C or Wasm models. A primitive integer is a natural number below `2^63`.
-/

namespace Uint63

/-- The number of primitive integers. -/
def B : Nat := 2 ^ 63

/-- The signed reading of a primitive integer (`Sint63.to_Z`). -/
def toSigned (n : Nat) : Int := if n < 2 ^ 62 then n else n - 2 ^ 63

/-- The primitive integer congruent to a given integer (`Sint63.of_Z`, `Uint63.of_Z`). -/
def ofInt (z : Int) : Nat := (z % 2 ^ 63).toNat

def add (x y : Nat) : Nat := (x + y) % B
def sub (x y : Nat) : Nat := ofInt ((x : Int) - y)
def mul (x y : Nat) : Nat := (x * y) % B
/-- `Nat` division: `x / 0 = 0` as in Rocq. -/
def div (x y : Nat) : Nat := x / y
/-- `Nat` remainder: `x % 0 = x` as in Rocq. -/
def mod (x y : Nat) : Nat := x % y
def land (x y : Nat) : Nat := x &&& y
def lor (x y : Nat) : Nat := x ||| y
def lxor (x y : Nat) : Nat := x ^^^ y
def lsl (x y : Nat) : Nat := (x * 2 ^ y) % B
def lsr (x y : Nat) : Nat := x / 2 ^ y

/-- Signed division truncates (`Z.quot`), `x / 0 = 0`. -/
def divs (x y : Nat) : Nat := ofInt ((toSigned x).tdiv (toSigned y))
/-- Signed remainder (`Z.rem`), `x rem 0 = x`. -/
def mods (x y : Nat) : Nat := ofInt ((toSigned x).tmod (toSigned y))
/-- Arithmetic shift for `0 ≤ p < 63`: floor division of the signed reading. -/
def asr (x p : Nat) : Nat := ofInt ((toSigned x) / 2 ^ p)

/-- Leading zeros in 63 bits: `n = head0 x` iff `x * 2^n` is the normalised form; `63` for zero. -/
def IsHead0 (x n : Nat) : Prop := (x = 0 ∧ n = 63) ∨ (2 ^ 62 ≤ x * 2 ^ n ∧ x * 2 ^ n < 2 ^ 63)
/-- Trailing zeros: `63` for zero, else the exponent of the largest power of two dividing `x`. -/
def IsTail0 (x n : Nat) : Prop := (x = 0 ∧ n = 63) ∨ (∃ k, x = 2 ^ n * (2 * k + 1))

/-- Result of carry operations. -/
inductive Carry where
  | C0 (n : Nat)
  | C1 (n : Nat)
deriving DecidableEq, Repr

/-- `x + y`, `C1` iff it does not fit in 63 bits. -/
def addc (x y : Nat) : Carry := if x + y < B then .C0 (x + y) else .C1 (x + y - B)
def addcarryc (x y : Nat) : Carry := if x + y + 1 < B then .C0 (x + y + 1) else .C1 (x + y + 1 - B)
/-- `x - y`, `C1` iff it is negative. -/
def subc (x y : Nat) : Carry := if y ≤ x then .C0 (x - y) else .C1 (x + B - y)
def subcarryc (x y : Nat) : Carry := if y + 1 ≤ x then .C0 (x - y - 1) else .C1 (x + B - y - 1)

/-- High and low 63 bits of the product. -/
def mulc (x y : Nat) : Nat × Nat := (x * y / B, x * y % B)
def diveucl (x y : Nat) : Nat × Nat := (x / y, x % y)
/-- Division of the double word `xh * 2^63 + xl`; `(0,0)` unless `xh < y`. -/
def diveucl21 (xh xl y : Nat) : Nat × Nat :=
  if xh < y then ((xh * B + xl) / y, (xh * B + xl) % y) else (0, 0)
def addmuldiv (p x y : Nat) : Nat := if p ≤ 63 then (x * 2 ^ p + y / 2 ^ (63 - p)) % B else 0

inductive Cmp where
  | eq | lt | gt
deriving DecidableEq, Repr

def compareInt (x y : Int) : Cmp := if x = y then .eq else if x < y then .lt else .gt


/-! ## Run-time representation of results -/

/-- The tagged machine word of a primitive integer: `2n+1`. -/
def word (n : Nat) : BitVec 64 := BitVec.ofNat 64 (2 * n + 1)

/-- Compiled booleans: the plugin reorders `bool` (`CertiRocq Extract Inductives [ bool => "bool" [ 1 0 ]]`,
cplugin/Loader.v:3), so `false` has ordinal 0 and `true` ordinal 1. -/
def boolWord (b : Bool) : BitVec 64 := if b then word 1 else word 0

/-- Compiled comparison values `Eq | Lt | Gt`: ordinals 0, 1, 2. -/
def cmpWord : Cmp → BitVec 64
  | .eq => word 0
  | .lt => word 1
  | .gt => word 2

end Uint63
