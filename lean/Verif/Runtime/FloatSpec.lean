import Mathlib.Data.Nat.Log
import Mathlib.Tactic.Ring
import Mathlib.Tactic.Linarith

/-!
# IEEE 754 binary64, as used by Rocq's `PrimFloat`

An independent reading of the 64-bit patterns: sign bit, 11 exponent bits, 52 mantissa bits. Every finite double is
an integral multiple of `2^-1074`, so its value is given exactly by an integer (`scaled`), the multiple.
-/

namespace F64

abbrev Bits := BitVec 64

/-- Bit 63. -/
def negative (u : Bits) : Bool := decide (2^63 ≤ u.toNat)
/-- Biased exponent, bits 52–62. -/
def expo (u : Bits) : Nat := u.toNat / 2^52 % 2^11
/-- Mantissa, bits 0–51. -/
def mant (u : Bits) : Nat := u.toNat % 2^52

/-- Absolute value of a finite double in units of `2^-1074`. -/
def magnitude (u : Bits) : Nat := if expo u = 0 then mant u else (2^52 + mant u) * 2^(expo u - 1)

/-- What a bit pattern denotes. -/
inductive FVal where
  | nan
  | inf (neg : Bool)
  /-- A finite number: its multiple of `2^-1074`. Both zeros denote `0`. -/
  | fin (z : Int)
deriving DecidableEq

def val (u : Bits) : FVal :=
  if expo u = 2047 then (if mant u = 0 then .inf (negative u) else .nan)
  else .fin (if negative u then -(magnitude u : Int) else magnitude u)

/-- IEEE `<`: false as soon as one side is NaN. -/
def FVal.lt : FVal → FVal → Prop
  | .nan, _ => False
  | _, .nan => False
  | .inf a, .inf b => a = true ∧ b = false
  | .inf a, .fin _ => a = true
  | .fin _, .inf b => b = false
  | .fin a, .fin b => a < b

/-- IEEE `==`. -/
def FVal.eqv : FVal → FVal → Prop
  | .nan, _ => False
  | .inf a, .inf b => a = b
  | .fin a, .fin b => a = b
  | _, _ => False

/-- IEEE `<=`. -/
def FVal.le (a b : FVal) : Prop := a.lt b ∨ a.eqv b

instance (a b : FVal) : Decidable (a.lt b) := by
  cases a <;> cases b <;> simp only [FVal.lt] <;> infer_instance
instance (a b : FVal) : Decidable (a.eqv b) := by
  cases a <;> cases b <;> simp only [FVal.eqv] <;> infer_instance
instance (a b : FVal) : Decidable (a.le b) := by unfold FVal.le; infer_instance

/-- Rocq's `float_comparison`. -/
inductive FCmp where
  | feq | flt | fgt | notComparable
deriving DecidableEq

/-- `PrimFloat.compare` (`SFcompare`). -/
def fcompare (a b : FVal) : FCmp :=
  if a.lt b then .flt else if b.lt a then .fgt else if a.eqv b then .feq else .notComparable

/-- Rocq's `float_class`, in declaration order. -/
inductive FClass where
  | pNormal | nNormal | pSubn | nSubn | pZero | nZero | pInf | nInf | nan
deriving DecidableEq

/-- Position of the constructor in Rocq's declaration of `float_class`. -/
def FClass.ord : FClass → Nat
  | .pNormal => 0 | .nNormal => 1 | .pSubn => 2 | .nSubn => 3 | .pZero => 4 | .nZero => 5 | .pInf => 6 | .nInf => 7
  | .nan => 8

/-- `PrimFloat.classify`: by magnitude. A finite non-zero double is normal when its magnitude is at least
`2^-1022 = 2^52 * 2^-1074`. -/
def fclassify (u : Bits) : FClass :=
  match val u with
  | .nan => .nan
  | .inf s => if s then .nInf else .pInf
  | .fin z =>
    if z = 0 then (if negative u then .nZero else .pZero)
    else if (2:Int)^52 ≤ |z| then (if z < 0 then .nNormal else .pNormal)
    else (if z < 0 then .nSubn else .pSubn)

/-- Leibniz equality of Rocq floats (`PrimFloat.Leibniz.eqb`): all NaNs are one value, the two zeros are different. -/
def sameFloat (u v : Bits) : Prop :=
  (val u = .nan ∧ val v = .nan) ∨ (val u ≠ .nan ∧ val u = val v ∧ negative u = negative v)

end F64
