import Verif.Runtime.FloatSpec

/-!
# C runtime: float primitives (`runtime/prim_floats.c`)

A `primfloat` is a pointer to a block holding a double. The functions below take the bit pattern of the double
(`Double_val(x)`), except `prim_float_compare`, whose C code also looks at the pointers themselves. The comparison
operators of C on `double` are the IEEE ones (`F64.FVal.lt`, `le`, `eqv`): this is part of the trusted base, as is
`fpclassify`, modelled by inspection of exponent and mantissa. The arithmetic operations (`+`, `*`, `sqrt`, …) are
the hardware's and are not modelled. The block built by `mk_float` is modelled in `Verif.Runtime.Alloc`.
-/

namespace CFloat
open F64

/-- The tagged ordinals `FEq FLt FGt FNotComparable` (prim_floats.c:39-42). -/
def FEq : Nat := 1
def FLt : Nat := 3
def FGt : Nat := 5
def FNotComparable : Nat := 7

/-- `mk_bool` (prim_int63.h): `(b << 1) + 1`. -/
def mkBool (b : Bool) : Nat := if b then 3 else 1

/-- prim_floats.c:44-52. `x`, `y` are the pointers, `mem` the double stored at a pointer. The C code loads both
doubles but then compares the pointers. -/
def compare (_mem : Nat → Bits) (x y : Nat) : Nat :=
  if x < y then FLt
  else if x > y then FGt
  else if x = y then FEq
  else FNotComparable

/-- prim_floats.c:54-59 -/
def eqb (x y : Bits) : Nat := mkBool (decide ((val x).eqv (val y)))

/-- Results of C's `fpclassify`. -/
inductive FPC where
  | normal | subnormal | infinite | nan | zero
deriving DecidableEq

/-- C `fpclassify` on the bit pattern. -/
def fpclassify (x : Bits) : FPC :=
  if expo x = 2047 then (if mant x = 0 then .infinite else .nan)
  else if expo x = 0 then (if mant x = 0 then .zero else .subnormal)
  else .normal

/-- C `isnan`. -/
def isnan (x : Bits) : Bool := decide (fpclassify x = .nan)

/-- C `1 / x` for a zero `x`: the infinity with the sign of `x`. (Only used on zeros.) -/
def recipZero (x : Bits) : FVal := .inf (negative x)

/-- prim_floats.c:61-81. In the `FP_ZERO` case `1/yv` is evaluated only when `xv == yv`, so on a zero. -/
def equal (x y : Bits) : Nat :=
  match fpclassify x with
  | .normal | .subnormal | .infinite => mkBool (decide ((val x).eqv (val y)))
  | .nan => mkBool (isnan y)
  | .zero => mkBool (decide ((val x).eqv (val y)) && decide ((recipZero x).eqv (recipZero y)))

/-- prim_floats.c:83-88 -/
def ltb (x y : Bits) : Nat := mkBool (decide ((val x).lt (val y)))

/-- prim_floats.c:90-94 -/
def leb (x y : Bits) : Nat := mkBool (decide ((val x).le (val y)))

/-- prim_floats.c:97 -/
def eshift : Nat := 2101

/-- C `frexp` for a normal or subnormal argument: the fraction has biased exponent 1022 (so lies in `[0.5,1)`);
a subnormal mantissa is shifted up to bring its leading one to bit 52. Returns the bits and the exponent. -/
def frexp (x : Bits) : Bits × Int :=
  let s := if negative x then 2^63 else 0
  if expo x = 0 then
    let k := 52 - Nat.log 2 (mant x)
    (BitVec.ofNat 64 (s + 1022 * 2^52 + (mant x * 2^k - 2^52)), -1021 - k)
  else (BitVec.ofNat 64 (s + 1022 * 2^52 + mant x), (expo x : Int) - 1022)

/-- prim_floats.c:99-122: the fraction and the (untagged) integer stored in the pair; `Val_long` keeps the low 63
bits of the integer. -/
def frshiftexp (x : Bits) : Bits × Int :=
  match fpclassify x with
  | .nan | .infinite | .zero => (x, 0)
  | .normal | .subnormal => ((frexp x).1, (frexp x).2 + eshift)

/-- prim_floats.c:124-145, marked `todo fix` in the source: the same code as `frshiftexp`, so it returns a *pair*
(pointer to a block with two fields) where its caller expects a float. The second argument is ignored. -/
def ldshiftexp (x : Bits) (_y : Nat) : Bits × Int := frshiftexp x

/-- prim_floats.c:147-157. `0.5` and `1.0` are `2^1073` and `2^1074` units of `2^-1074`; `ldexp(f, 53)` converted to
`unsigned long long` truncates `f * 2^53`. Returns the untagged integer. -/
def normfrMantissa (x : Bits) : Nat :=
  match val (BitVec.ofNat 64 (x.toNat % 2^63)) with
  | .fin f => if 2^1073 ≤ f ∧ f < 2^1074 then (f * 2^53 / 2^1074).toNat else 0
  | _ => 0

/-- prim_floats.c:159-171 -/
def classify (x : Bits) : Nat :=
  match fpclassify x with
  | .nan => 8 * 2 + 1
  | .infinite => if negative x then 7 * 2 + 1 else 6 * 2 + 1
  | .zero => if negative x then 5 * 2 + 1 else 4 * 2 + 1
  | .subnormal => if negative x then 3 * 2 + 1 else 2 * 2 + 1
  | .normal => if negative x then 1 * 2 + 1 else 1

/-- `fabs` (prim_floats.c:173-177). -/
def abs (x : Bits) : Bits := BitVec.ofNat 64 (x.toNat % 2^63)

/-- Unary minus (prim_floats.c:185-189): flips the sign bit. -/
def opp (x : Bits) : Bits := x ^^^ BitVec.ofNat 64 (2^63)

/-- `INFINITY` -/
def infty : Bits := 0x7FF0000000000000
/-- `-INFINITY` -/
def ninfty : Bits := 0xFFF0000000000000

/-- prim_floats.c:231-242 -/
def nextUp (x : Bits) : Bits :=
  if ¬ (val x).lt (val infty) then x
  else if ¬ negative x then x + 1
  else if x + x = 0 then 1
  else x - 1

/-- prim_floats.c:244-254 (`INT64_MIN + 1` is the bit pattern `0x8000000000000001`). -/
def nextDown (x : Bits) : Bits :=
  if ¬ (val ninfty).lt (val x) then x
  else if x = 0 then 0x8000000000000001
  else if negative x then x + 1
  else x - 1

/-- The argument of the `double` conversion in `prim_float_of_uint63` (prim_floats.c:219-223): `Long_val(x)` is the
*signed* reading of the tagged word. The integer `n` is the unsigned value the word encodes. -/
def ofUint63Arg (n : Nat) : Int := if n < 2^62 then n else n - 2^63

end CFloat
