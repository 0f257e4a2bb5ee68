import Mathlib.Tactic.Ring
import Mathlib.Tactic.Linarith
import Mathlib.Tactic.NormNum

/-!
# GMP-backed integers (`runtime/certirocq_gmp.c`)

A `gmp_int` is either a tagged machine integer or a pointer to a block holding an `mpz_ptr`. Machine words are signed
64-bit integers, kept in range by `wrap`. An `mpz_t` is an integer: the GMP library functions are trusted to compute
what their manual says. Undefined behaviour (signed overflow, division by zero, use of an uninitialised `mpz_t`) is
`none`. Allocation of the result block (`mk_gmp_int`) is modelled in `Verif.Runtime.AllocModel`; here only the integer
it holds matters.
-/

namespace Gmp

/-- Conversion to a signed 64-bit word. -/
def wrap (z : Int) : Int := (z + 2^63) % 2^64 - 2^63

/-- A `gmp_int` argument or result. -/
inductive GInt where
  /-- The word itself (`value`). -/
  | long (w : Int)
  /-- Pointer to a block holding an `mpz_ptr`. -/
  | big (z : Int)
deriving DecidableEq, Repr

/-- `Val_long` (values.h:90). -/
def valLong (x : Int) : Int := wrap (2 * x + 1)
/-- `Long_val` (values.h:91): arithmetic shift right. -/
def longVal (w : Int) : Int := w / 2

/-- values.h:  `Max_long`, `Min_long`. -/
def maxLong : Int := 2^62 - 1
def minLong : Int := -2^62

/-- certirocq_gmp.c:22-31: `mpz_init_set_ui(res, Long_val(x))`: the signed integer is passed as `unsigned long`. -/
def mpzOfValue : GInt → Int
  | .long w => (longVal w) % 2^64
  | .big z => z

/-- `mk_bool` -/
def mkBool (b : Bool) : Int := if b then 3 else 1

/-- certirocq_gmp.c:95-106, `gmp_succ` 88-93. -/
def succ : GInt → GInt
  | .long w =>
    let y := longVal w
    if y < maxLong then .long (valLong (y + 1)) else .big (mpzOfValue (.long w) + 1)
  | .big z => .big (z + 1)

/-- certirocq_gmp.c:115-123, `gmp_pred` 108-113. -/
def pred : GInt → GInt
  | .long w =>
    let y := longVal w
    if y > minLong then .long (valLong (y - 1)) else .big (mpzOfValue (.long w) - 1)
  | .big z => .big (z - 1)

/-- certirocq_gmp.c:127-133 -/
def isZero : GInt → Bool
  | .long w => decide (longVal w = 0)
  | .big z => decide (z = 0)

/-- certirocq_gmp.c:143-152; `Unsigned_long_val` is the logical shift. -/
def natPred : GInt → GInt
  | .long w =>
    let y := (w % 2^64) / 2
    if y = 0 then .long w else .long (valLong (y - 1))
  | .big z => .big (if z = 0 then z else z - 1)

/-- certirocq_gmp.c:184-189: `Long_val (labs (Val_long(x)))`; `labs(LONG_MIN)` is undefined. -/
def zabs : GInt → Option GInt
  | .long w => if valLong w = -2^63 then none else some (.long (longVal |valLong w|))
  | .big z => some (.big |z|)

/-- certirocq_gmp.c:198-207 -/
def neg : GInt → GInt
  | .long w =>
    let y := longVal w
    if y < maxLong then .long (valLong (-y)) else .big (-y)
  | .big z => .big (-z)

/-- certirocq_gmp.c:209-213: `res` is used without `mpz_init`. -/
def gmpAdd (_x _y : Int) : Option GInt := none

/-- certirocq_gmp.c:215-229; the sum of two 63-bit integers does not overflow 64 bits. -/
def add : GInt → GInt → Option GInt
  | .long x, .long y =>
    let z := (longVal x + longVal y) % 2^64
    if z < 2^63 then some (.long (valLong z)) else gmpAdd (mpzOfValue (.long x)) (mpzOfValue (.long y))
  | x, y => gmpAdd (mpzOfValue x) (mpzOfValue y)

/-- certirocq_gmp.c:238-245, `gmp_sub` 231-236. -/
def sub : GInt → GInt → GInt
  | .long x, .long y => .long (valLong (longVal x - longVal y))
  | x, y => .big (mpzOfValue x - mpzOfValue y)

/-- certirocq_gmp.c:254-260, `gmp_mul` 247-252. -/
def mul (x y : GInt) : GInt := .big (mpzOfValue x * mpzOfValue y)

/-- certirocq_gmp.c:262-267: `mpz_cdiv_q`, quotient rounded towards `+∞`; division by zero aborts. -/
def gmpDiv (x y : Int) : Option GInt := if y = 0 then none else some (.big (-((-x) / y)))

/-- certirocq_gmp.c:269-274 -/
def div : GInt → GInt → Option GInt
  | .long x, .long y =>
    if longVal y = 0 then none else some (.long (valLong ((longVal x).tdiv (longVal y))))
  | x, y => gmpDiv (mpzOfValue x) (mpzOfValue y)

/-- certirocq_gmp.c:283-288: the big case calls `gmp_add`. -/
def rem : GInt → GInt → Option GInt
  | .long x, .long y =>
    if longVal y = 0 then none else some (.long (valLong ((longVal x).tmod (longVal y))))
  | x, y => gmpAdd (mpzOfValue x) (mpzOfValue y)

/-- certirocq_gmp.c:291-300: `mpz_pow_ui(res, x, mpz_get_ui(y))`; `mpz_get_ui` is the low 64 bits of `|y|`. -/
def pow (x y : GInt) : GInt := .big (mpzOfValue x ^ ((mpzOfValue y).natAbs % 2^64))

/-- certirocq_gmp.c:354-360; `~n = -n-1`, also for `mpz_com`. -/
def lognot : GInt → GInt
  | .long w => .long (valLong (- longVal w - 1))
  | .big z => .big (-z - 1)

/-- `mpz_cmp`: any integer with the right sign. -/
structure MpzCmp where
  cmp : Int → Int → Int
  pos : ∀ x y, 0 < cmp x y ↔ y < x
  neg : ∀ x y, cmp x y < 0 ↔ x < y

/-- certirocq_gmp.c:362-372; the small case is `prim_int63_compares` (Eq 1, Lt 3, Gt 5). -/
def compare (C : MpzCmp) : GInt → GInt → Int
  | .long x, .long y =>
    if longVal x = longVal y then 1 else if longVal x < longVal y then 3 else 5
  | x, y => valLong (C.cmp (mpzOfValue x) (mpzOfValue y))

/-- certirocq_gmp.c:374-384 -/
def equal (C : MpzCmp) : GInt → GInt → Int
  | .long x, .long y => mkBool (decide (x = y))
  | x, y => mkBool (decide (C.cmp (mpzOfValue x) (mpzOfValue y) = 0))

/-- certirocq_gmp.c:386-396: `mpz_cmp (x, y) ? 0 : 1`. -/
def leq (C : MpzCmp) : GInt → GInt → Int
  | .long x, .long y => mkBool (decide (longVal x ≤ longVal y))
  | x, y => mkBool (decide (C.cmp (mpzOfValue x) (mpzOfValue y) = 0))

/-- certirocq_gmp.c:398-409 -/
def geq (C : MpzCmp) : GInt → GInt → Int
  | .long x, .long y => mkBool (decide (longVal y ≤ longVal x))
  | x, y => mkBool (decide (0 ≤ C.cmp (mpzOfValue x) (mpzOfValue y)))

/-- certirocq_gmp.c:411-420 -/
def gt (C : MpzCmp) : GInt → GInt → Int
  | .long x, .long y => mkBool (decide (longVal y < longVal x))
  | x, y => mkBool (decide (0 < C.cmp (mpzOfValue x) (mpzOfValue y)))

/-- certirocq_gmp.c:422-432: the small case compares the tagged words. -/
def lt (C : MpzCmp) : GInt → GInt → Int
  | .long x, .long y => mkBool (decide (x < y))
  | x, y => mkBool (decide (C.cmp (mpzOfValue x) (mpzOfValue y) < 0))

/-- certirocq_gmp.c:434-440 -/
def max (C : MpzCmp) : GInt → GInt → GInt
  | .long x, .long y => if longVal x > longVal y then .long x else .long y
  | x, y => if C.cmp (mpzOfValue x) (mpzOfValue y) ≠ 0 then x else y

/-- certirocq_gmp.c:442-448 -/
def min (C : MpzCmp) : GInt → GInt → GInt
  | .long x, .long y => if longVal x < longVal y then .long x else .long y
  | x, y => if C.cmp (mpzOfValue x) (mpzOfValue y) ≠ 0 then y else x

end Gmp
