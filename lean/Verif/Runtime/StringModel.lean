import Verif.Runtime.StringSpec

/-!
# String primitives (`runtime/prim_string.c`) and string literals (`LambdaANF_to_Clight_stack.v`)

`primint` arguments are tagged words (`2n+1`). The C type of loop counters is `int`: a length of `2^31` or more is
reported as `none`. `unsigned long long`/`size_t` quantities are natural numbers (no wrap-around for lengths of strings
that exist in memory).
-/

namespace RT

/-- `Bosize_val(s)` (values.h:132,142,169): number of bytes of the block, from its header. -/
def bosize (m : Mem) (p : Nat) : Nat := getWord m (p - 8) / 1024 * 8

/-- A byte read as `signed char` (`Byte`, values.h:211). -/
def schar (b : Nat) : Int := if b < 128 then b else (b : Int) - 256

/-- prim_string.c:14-20 -/
def strlen (m : Mem) (p : Nat) : Int :=
  let temp : Int := bosize m p - 1
  temp - schar (m (p + temp.toNat))

/-- `Val_long` on a (signed) integer, as the 64-bit word (values.h:90). -/
def valLongI (z : Int) : Nat := ((2 * z + 1) % 2^64).toNat

/-- The comparison loop of `prim_string_compare` (prim_string.c:29-32), from index `i`, `n` iterations left. The result
is the word returned by the function: `cmp` itself, untagged. -/
def cmpLoop (m : Mem) (x y : Nat) : Nat → Nat → Int
  | _, 0 => 0
  | i, n + 1 =>
    let cmp := schar (m (x + i)) - schar (m (y + i))
    if cmp ≠ 0 then cmp else cmpLoop m x y (i + 1) n

/-- prim_string.c:22-36 -/
def strCompare (m : Mem) (x y : Nat) : Nat :=
  let lenx := strlen m x
  let leny := strlen m y
  if lenx = leny then ((cmpLoop m x y 0 lenx.toNat) % 2^64).toNat
  else valLongI (lenx - leny)

/-- prim_string.c:38-41; `i` is the tagged index. -/
def strGet (m : Mem) (x i : Nat) : Nat := valLongI (schar (m (x + i / 2)))

/-- prim_string.c:43-46 -/
def strLength (m : Mem) (x : Nat) : Nat := valLongI (strlen m x)

/-- The padding loop `for (; ((j + 1) / 8) < words; j++) { strp[j] = 0; }` followed by `strp[j] = j - i`
(prim_string.c:75-78, 107-110, 139-142, 171-174). `fuel` bounds the iterations; running out gives `none`. -/
def padLoop (words strp i : Nat) : Nat → Nat → St → Option St
  | 0, _, _ => none
  | fuel + 1, j, s =>
    if (j + 1) / 8 < words then (putByte s (strp + j) 0).bind (padLoop words strp i fuel (j + 1))
    else putByte s (strp + j) (j - i)

/-- prim_string.c:52-81. `str` is the contents of the C string, without its terminator. `words` is an
`unsigned int`: it and the header expression `String_tag | (words << 10)` are computed modulo `2^32`. -/
def mkOcamlString (gc : St → Nat → St) (s : St) (str : List Nat) : Option (Nat × St) :=
  let len := str.length
  if 2^31 ≤ len then none else
  let words := (len / 8 + 1) % 2^32
  let s := reserve gc s (words + 1)
  if ¬ s.alloc + 8 * (words + 1) ≤ s.limit then none else
  (putWord s s.alloc ((words * 1024) % 2^32 + 252)).bind fun s =>
  (putBytes s (s.alloc + 8) str).bind fun s =>
  (padLoop words (s.alloc + 8) len (8 * words + 1) len s).bind fun s =>
  some (s.alloc + 8, { s with alloc := s.alloc + 8 * (words + 1) })

/-- The common body of `prim_string_make`, `prim_string_sub`, `prim_string_cat` (prim_string.c:89-112, 121-144,
154-176) once the bytes to store are known: reserve `words` words, write header, bytes, padding, and advance `alloc`
by `words` words. The bytes are read after the reservation: `bytes` is given the memory at that point. -/
def mkBody (gc : St → Nat → St) (s : St) (len : Nat) (bytes : Mem → List Nat) : Option (Nat × St) :=
  if 2^31 ≤ len then none else
  let words := len / 8 + 1
  let s := reserve gc s words
  if ¬ s.alloc + 8 * words ≤ s.limit then none else
  (putWord s s.alloc (words * 1024 + 252)).bind fun s =>
  (putBytes s (s.alloc + 8) (bytes s.mem)).bind fun s =>
  (padLoop words (s.alloc + 8) len (8 * words + 1) len s).bind fun s =>
  some (s.alloc + 8, { s with alloc := s.alloc + 8 * words })

/-- prim_string.c:83-113; `bytes` and `d` are tagged and used as they are. -/
def strMake (gc : St → Nat → St) (s : St) (bytes d : Nat) : Option (Nat × St) :=
  mkBody gc s bytes fun _ => List.replicate bytes (d % 256)

/-- prim_string.c:115-145; `x` is the pointer (it is not a root: not updated if the collector runs), `from` and `len`
are tagged and used as they are. -/
def strSub (gc : St → Nat → St) (s : St) (x fro len : Nat) : Option (Nat × St) :=
  mkBody gc s len fun m => (List.range len).map fun i => m (x + (fro + i))

/-- prim_string.c:147-177; the lengths are read before the reservation, the bytes after it. -/
def strCat (gc : St → Nat → St) (s : St) (x y : Nat) : Option (Nat × St) :=
  let lenx := (strlen s.mem x).toNat
  let leny := (strlen s.mem y).toNat
  mkBody gc s (lenx + leny) fun m =>
    (List.range lenx).map (fun i => m (x + i)) ++ (List.range leny).map (fun i => m (y + i))

/-! ## String literals -/

/-- `encode_list` (LambdaANF_to_Clight_stack.v:17-65). -/
def encodeList : List Nat → List Nat
  | [] => [7 * 2^56]
  | [x] => [6 * 2^56 + x]
  | [x, y] => [5 * 2^56 + x + 2^8 * y]
  | [x, y, z] => [4 * 2^56 + x + 2^8 * y + 2^16 * z]
  | [x, y, z, w] => [3 * 2^56 + x + 2^8 * y + 2^16 * z + 2^24 * w]
  | [x, y, z, w, lx] => [2 * 2^56 + x + 2^8 * y + 2^16 * z + 2^24 * w + 2^32 * lx]
  | [x, y, z, w, lx, ly] => [1 * 2^56 + x + 2^8 * y + 2^16 * z + 2^24 * w + 2^32 * lx + 2^40 * ly]
  | [x, y, z, w, lx, ly, lz] => [x + 2^8 * y + 2^16 * z + 2^24 * w + 2^32 * lx + 2^40 * ly + 2^48 * lz]
  | x :: y :: z :: w :: lx :: ly :: lz :: lw :: l =>
    (x + 2^8 * y + 2^16 * z + 2^24 * w + 2^32 * lx + 2^40 * ly + 2^48 * lz + 2^56 * lw) :: encodeList l

/-- Stores of consecutive words. -/
def putWords (s : St) (a : Nat) : List Nat → Option St
  | [] => some s
  | w :: ws => (putWord s a w).bind fun s => putWords s (a + 8) ws

/-- The Clight code emitted by `compile_string` (LambdaANF_to_Clight_stack.v:864-876), executed: `x = alloc + 1`,
the header at `x[-1]`, the encoded words at `x[0..]`, `alloc` advanced by `words + 1`. In the emitted code `alloc` is
advanced before the stores; the stores here are checked against the old `alloc`. -/
def literal (s : St) (bs : List Nat) : Option (Nat × St) :=
  let words := bs.length / 8 + 1
  (putWord s s.alloc (words * 1024 + 252)).bind fun s =>
  (putWords s (s.alloc + 8) (encodeList bs)).bind fun s =>
  some (s.alloc + 8, { s with alloc := s.alloc + 8 * (words + 1) })

end RT
