/-!
# C runtime: tagged 63-bit integers (`runtime/prim_int63.c`, `runtime/values.h`)

Words are `BitVec 64` (LP64, `SIZEOF_PTR = 8` in `runtime/m.h`). Operations that are undefined in C for some
operands (division by zero, shifts by 64 or more, signed overflow of a division) are partial here: they return
`none`, so that a theorem `f x y = some r` also says that no undefined behaviour is reached.

Allocation is abstracted in this file: `mk_C0`, `mk_C1`, `mk_pair` return a Lean value holding the words stored in
the block (`CarryRes`, pairs). The block layout and the space check of these functions are modelled in
`Verif.Alloc`.
-/

namespace Int63

/-- A machine word (`value`, `uintnat`, `unsigned long long`). -/
abbrev W := BitVec 64

/-! ## `runtime/values.h` -/

/-- `Val_long(x)  ((intnat) (((uintnat)(x) << 1)) + 1)` (values.h:90). -/
def valLong (x : W) : W := (x <<< 1) + 1

/-- `Unsigned_long_val(x) ((uintnat)(x) >> 1)` (values.h:96): logical shift. -/
def ulongVal (x : W) : W := x >>> 1

/-- `Long_val(x)  ((x) >> 1)` on the signed type `value` (values.h:91), also `SLong_val` (prim_int63.c:159):
arithmetic shift. -/
def longVal (x : W) : W := x.sshiftRight 1

/-- `Is_long(x) (((x) & 1) != 0)` (values.h:80). -/
def isLong (x : W) : Bool := x &&& 1 != 0

/-- `Is_block(x) (((x) & 1) == 0)` (values.h:85). -/
def isBlock (x : W) : Bool := x &&& 1 == 0

/-! ## C operators with undefined cases -/

/-- C `x << y` on `unsigned long long`: undefined for `y >= 64`. -/
def shl? (x y : W) : Option W := if y.toNat < 64 then some (x <<< y.toNat) else none

/-- C `x >> y` on `unsigned long long`: undefined for `y >= 64`. -/
def shr? (x y : W) : Option W := if y.toNat < 64 then some (x >>> y.toNat) else none

/-- C `x >> y` on `signed long long` (arithmetic): undefined for `y >= 64`. -/
def sar? (x y : W) : Option W := if y.toNat < 64 then some (x.sshiftRight y.toNat) else none

/-- C `x / y` on `unsigned long long`. -/
def udiv? (x y : W) : Option W := if y = 0 then none else some (x.udiv y)

/-- C `x % y` on `unsigned long long`. -/
def umod? (x y : W) : Option W := if y = 0 then none else some (x.umod y)

/-- C `x / y` on `signed long long`: truncating; undefined for `y = 0` and for `LLONG_MIN / -1`. -/
def sdiv? (x y : W) : Option W :=
  if y = 0 ∨ (x = BitVec.intMin 64 ∧ y = -1) then none else some (x.sdiv y)

/-- C `x - y` on `signed long long`: undefined on overflow. -/
def ssub? (x y : W) : Option W :=
  if -(2:Int)^63 ≤ x.toInt - y.toInt ∧ x.toInt - y.toInt < 2^63 then some (x - y) else none

/-- `#define maxuint63 0x7FFFFFFFFFFFFFFF` (prim_int63.c:12). -/
def maxuint63 : W := 0x7FFFFFFFFFFFFFFF

/-! ## `runtime/prim_int63.c` -/

/-- prim_int63.c:14-18 -/
def add (x y : W) : W := valLong (ulongVal x + ulongVal y)

/-- prim_int63.c:20-26 -/
def sub (x y : W) : W := valLong (ulongVal x - ulongVal y)

/-- prim_int63.c:28-32 -/
def mul (x y : W) : W := valLong (ulongVal x * ulongVal y)

/-- prim_int63.c:34-40 -/
def mod (x y : W) : Option W :=
  let yr := ulongVal y
  if yr = 0 then some x else (umod? (ulongVal x) (ulongVal y)).map valLong

/-- prim_int63.c:42-48 -/
def div (x y : W) : Option W :=
  let yr := ulongVal y
  if yr = 0 then some (valLong 0) else (udiv? (ulongVal x) (ulongVal y)).map valLong

/-- prim_int63.c:50-56 (signed remainder; the C code uses the unsigned `%`). -/
def mods (x y : W) : Option W :=
  let yr := longVal y
  if yr = 0 then some x else (umod? (ulongVal x) (ulongVal y)).map valLong

/-- prim_int63.c:58-64 -/
def divs (x y : W) : Option W :=
  let yr := longVal y
  if yr = 0 then some (valLong 0) else (sdiv? (longVal x) yr).map valLong

/-- prim_int63.c:66-72 -/
def land (x y : W) : W := valLong (ulongVal x &&& ulongVal y)

/-- prim_int63.c:73-80 -/
def lsl (x y : W) : Option W :=
  let xr := ulongVal x
  let yr := ulongVal y
  if yr.toNat < 63 then (shl? xr yr).map valLong else some (valLong 0)

/-- prim_int63.c:82-89 -/
def lsr (x y : W) : Option W :=
  let xr := ulongVal x
  let yr := ulongVal y
  if yr.toNat < 63 then (shr? xr yr).map valLong else some (valLong 0)

/-- prim_int63.c:91-98: `signed long long xr = Unsigned_long_val(x)` and then `xr >> yr`. -/
def asr (x y : W) : Option W :=
  let xr := ulongVal x
  let yr := ulongVal y
  if yr.toNat < 63 then (sar? xr yr).map valLong else some (valLong 0)

/-- prim_int63.c:100-103 -/
def lor (x y : W) : W := valLong (ulongVal x ||| ulongVal y)

/-- prim_int63.c:104-107 -/
def lxor (x y : W) : W := valLong (ulongVal x ^^^ ulongVal y)

/-- One step `if ((x & m) == 0) { x = (x << k) & maxuint63; r = r + k; }` of `prim_int63_head0`
(prim_int63.c:115-119). -/
def head0Step (m : W) (k : Nat) (s : W × W) : W × W :=
  if s.1 &&& m = 0 then ((s.1 <<< k) &&& maxuint63, s.2 + BitVec.ofNat 64 k) else s

/-- prim_int63.c:109-123 -/
def head0 (init : W) : W :=
  let x := ulongVal init
  let s : W × W := if x &&& 0x7FFFFFFF00000000 = 0 then (x, 31) else (x >>> 31, 0)
  let s := head0Step 0xFFFF0000 16 s
  let s := head0Step 0xFF000000 8 s
  let s := head0Step 0xF0000000 4 s
  let s := head0Step 0xC0000000 2 s
  let s := head0Step 0x80000000 1 s
  let r := if s.1 &&& 0x80000000 = 0 then s.2 + 1 else s.2
  valLong r

/-- One step `if ((x & m) == 0) { x = x >> k; r = r + k; }` of `prim_int63_tail0` (prim_int63.c:130-134). -/
def tail0Step (m : W) (k : Nat) (s : W × W) : W × W :=
  if s.1 &&& m = 0 then (s.1 >>> k, s.2 + BitVec.ofNat 64 k) else s

/-- prim_int63.c:125-137 -/
def tail0 (init : W) : W :=
  let x := ulongVal init
  let s : W × W := (x, 0)
  let s := tail0Step 0xFFFFFFFF 32 s
  let s := tail0Step 0xFFFF 16 s
  let s := tail0Step 0xFF 8 s
  let s := tail0Step 0xF 4 s
  let s := tail0Step 0x3 2 s
  let r := if s.1 &&& 0x1 = 0 then s.2 + 1 else s.2
  valLong r

/-- `mk_bool` (prim_int63.c:139-143). -/
def mkBool (b : Bool) : W := if b then 3 else 1

/-- prim_int63.c:145-151 -/
def eqb (x y : W) : W := mkBool (ulongVal x == ulongVal y)

/-- prim_int63.c:152-156: signed comparison of the *tagged* words (`value` is signed). -/
def leb (x y : W) : W := mkBool (x.sle y)

/-- prim_int63.c:160-164 -/
def lesb (x y : W) : W := mkBool ((longVal x).sle (longVal y))

/-- prim_int63.c:165-169: signed comparison of the *tagged* words. -/
def ltb (x y : W) : W := mkBool (x.slt y)

/-- prim_int63.c:170-174 -/
def ltsb (x y : W) : W := mkBool ((longVal x).slt (longVal y))

/-- The three-way result of prim_int63.c:183-185 and 195-197. -/
def ofDiff (result : W) : W := if result = 0 then 1 else if result.slt 0 then 3 else 5

/-- prim_int63.c:176-186 -/
def compare (x y : W) : Option W := (ssub? (ulongVal x) (ulongVal y)).map ofDiff

/-- prim_int63.c:188-198 -/
def compares (x y : W) : Option W := (ssub? (longVal x) (longVal y)).map ofDiff

/-- Result of `mk_C0` / `mk_C1` (prim_int63.c:207-263): which constructor block was built and its field. -/
inductive CarryRes where
  | C0 (w : W)
  | C1 (w : W)
deriving DecidableEq, Repr

/-- prim_int63.c:290-299 -/
def addc (x y : W) : CarryRes :=
  let xr := ulongVal x
  let yr := ulongVal y
  let r := xr + yr
  if r < xr then .C1 (valLong r) else .C0 (valLong r)

/-- prim_int63.c:301-307: `r` and `x` are of the signed type `primint`; `x` is still tagged. -/
def addcarryc (x y : W) : CarryRes :=
  let r := ulongVal x + ulongVal y + 1
  if r.sle x then .C1 (valLong r) else .C0 (valLong r)

/-- prim_int63.c:309-317: `y <= x` compares the tagged signed words. -/
def subc (x y : W) : CarryRes :=
  let r := ulongVal x - ulongVal y
  if y.sle x then .C0 (valLong r) else .C1 (valLong r)

/-- prim_int63.c:319-325 -/
def subcarryc (x y : W) : CarryRes :=
  let r := ulongVal x - ulongVal y - 1
  if y.slt x then .C0 (valLong r) else .C1 (valLong r)

/-- `#define maxuint31 0x7FFFFFFF` (prim_int63.c:327). -/
def maxuint31 : W := 0x7FFFFFFF

/-- The word computations of `mulc_aux` (prim_int63.c:330-351), returning the untagged pair `(h, l)`. -/
def mulcAuxRaw (x y : W) : W × W :=
  let lx := x &&& maxuint31
  let ly := y &&& maxuint31
  let hx := x >>> 31
  let hy := y >>> 31
  let hxy := hx * hy
  let hxly := hx * ly
  let lxhy := lx * hy
  let lxy := lx * ly
  let l := lxy ||| (hxy <<< 62)
  let h := hxy >>> 1
  let hl := (hxly + lxhy) &&& maxuint63
  let h := if hl < hxly then h + (1 <<< 31 : W) else h
  let hl2 := (hl <<< 31) &&& maxuint63
  let l := (l + hl2) &&& maxuint63
  let h := if l < hl2 then h + 1 else h
  let h := h + (hl >>> 32)
  (h, l)

/-- prim_int63.c:330-351 with the final `mk_pair` of tagged words. -/
def mulcAux (x y : W) : W × W :=
  let p := mulcAuxRaw x y
  (valLong p.1, valLong p.2)

/-- prim_int63.c:353-374 -/
def mulc (xp yp : W) : W × W :=
  let x := ulongVal xp
  let y := ulongVal yp
  if x >>> 62 = 0 ∨ y >>> 62 = 0 then mulcAux x y
  else
    let yl := y ^^^ (1 <<< 62 : W)
    let p := mulcAux x yl
    let h := ulongVal p.1
    let l := ulongVal p.2
    let l2 := l + (x <<< 62)
    let h := if l2 < l then h + 1 else h
    let h := h + (x >>> 1)
    (valLong h, valLong l2)

/-- Loop state of `prim_int63_diveucl_21_long`. -/
structure DivSt where
  nh : W
  nl : W
  q : W
deriving DecidableEq, Repr

/-- Loop body, prim_int63.c:394-401. -/
def divStep (y : W) (s : DivSt) : DivSt :=
  let nh := (s.nh <<< 1) ||| (s.nl >>> 62)
  let nl := (s.nl <<< 1) &&& maxuint63
  let q := s.q <<< 1
  if y ≤ nh then ⟨nh - y, nl, q ||| 1⟩ else ⟨nh, nl, q⟩

/-- `for (i = 0; i < n; i++)`. -/
def divLoop (y : W) : Nat → DivSt → DivSt
  | 0, s => s
  | n + 1, s => divLoop y n (divStep y s)

/-- prim_int63.c:383-404 -/
def diveucl21Long (xh xl y : W) : W × W :=
  let s := divLoop y 63 ⟨xh &&& maxuint63, xl &&& maxuint63, 0⟩
  (valLong s.q, valLong (s.nh &&& 18446744073709551615))

/-- prim_int63.c:406-413 -/
def diveucl21 (xh xl y : W) : W × W :=
  let xhl := ulongVal xh
  let xll := ulongVal xl
  let yl := ulongVal y
  if yl ≤ xhl then (valLong 0, valLong 0) else diveucl21Long xhl xll yl

/-- prim_int63.c:415-423 -/
def diveucl (xp yp : W) : Option (W × W) :=
  let x := ulongVal xp
  let y := ulongVal yp
  if y = 0 then some (valLong 0, valLong x)
  else do
    let q ← udiv? x y
    let r ← umod? x y
    some (valLong q, valLong r)

/-- prim_int63.c:427-439: `y >> (uint_size - p)` with `uint_size = 63`. -/
def addmuldiv (pp xp yp : W) : Option W :=
  let p := ulongVal pp
  let x := ulongVal xp
  let y := ulongVal yp
  if 63 < p then some (valLong 0)
  else do
    let a ← shl? x p
    let b ← shr? y (63 - p)
    some (valLong ((a &&& maxuint63) ||| b))

end Int63
