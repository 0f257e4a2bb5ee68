import Verif.Runtime.Mem

/-!
# Allocating helpers of the runtime, Rocq strings at the FFI, ordinals

`mk_float`, `mk_C0`, `mk_C1`, `mk_pair`, `mk_gmp_int`, `allocate_function`, `string_of_coq_string`,
`get_unboxed_ordinal`, `get_boxed_ordinal`.
-/

namespace RT

/-- The shape shared by `mk_float` (prim_floats.c:17-37), `mk_C0`/`mk_C1` (prim_int63.c:207-253) and `mk_gmp_int`
(certirocq_gmp.c:55-78): reserve two words, store a header and one word (an integer, the bits of a double, or a
pointer), advance `alloc` by two words. -/
def mkBlock1 (header : Nat) (gc : St → Nat → St) (s : St) (x : Nat) : Option (Nat × St) :=
  let s := reserve gc s 2
  (putWord s s.alloc header).bind fun s =>
  (putWord s (s.alloc + 8) x).bind fun s =>
  some (s.alloc + 8, { s with alloc := s.alloc + 16 })

/-- prim_floats.c:15-37, `Double_block` is 1277. -/
def mkFloat := mkBlock1 1277
/-- prim_int63.c:207-227 -/
def mkC0 := mkBlock1 1024
/-- prim_int63.c:236-253 -/
def mkC1 := mkBlock1 1025
/-- certirocq_gmp.c:55-78: `No_scan_tag | (1 << 10)`, `No_scan_tag` = 251 (gc_stack.h). -/
def mkGmpInt := mkBlock1 1275

/-- prim_int63.c:273-288: no reservation at all. -/
def mkPair (s : St) (x y : Nat) : Option (Nat × St) :=
  (putWord s s.alloc 2048).bind fun s =>
  (putWord s (s.alloc + 8) x).bind fun s =>
  (putWord s (s.alloc + 16) y).bind fun s =>
  some (s.alloc + 8, { s with alloc := s.alloc + 24 })

/-- certirocq_gmp.c:500-530, given to GMP as its allocator: reserves, writes a no-scan header and clears the block, but
does not advance `alloc`. -/
def allocateFunction (gc : St → Nat → St) (s : St) (size : Nat) : Option (Nat × St) :=
  let words := if size % 8 = 0 then size / 8 + 1 else size / 8 + 2
  let s := reserve gc s words
  if ¬ s.alloc + 8 * words ≤ s.limit then none else
  (putWord s s.alloc ((words - 1) * 1024 + 251)).bind fun s =>
  (putBytes s (s.alloc + 8) (List.replicate (8 * (words - 1)) 0)).bind fun s =>
  some (s.alloc + 8, s)

/-! ## `runtime/rocq_c_ffi.c` -/

/-- `length_of_coq_string` (rocq_c_ffi.c:7-15); `m` maps addresses to 64-bit words. `fuel` bounds the number of
iterations (`none` when exhausted). -/
def coqStrlen (m : Nat → Nat) : Nat → Nat → Nat → Option Nat
  | 0, _, _ => none
  | fuel + 1, ptr, len =>
    if ptr % 2 = 0 then coqStrlen m fuel (m (ptr + 8)) (len + 1) else some len

/-- The copying loop of `string_of_coq_string` (rocq_c_ffi.c:26-32). The buffer is a list of `size` bytes; a store
outside it is `none`. -/
def coqCopy (m : Nat → Nat) (size : Nat) : Nat → Nat → Nat → List Nat → Option (List Nat)
  | 0, _, _, _ => none
  | fuel + 1, ptr, len, buf =>
    if ptr % 2 = 0 then
      if len < size then coqCopy m size fuel (m (ptr + 8)) (len + 1) (buf.set len (m ptr / 2 % 256)) else none
    else if len < size then some (buf.set len 0) else none

/-- `string_of_coq_string` (rocq_c_ffi.c:17-34). `malloc n` is `none` when the allocation fails: the C code then only
prints a message and goes on to write through the null pointer (undefined behaviour: `none`). Otherwise it yields a
buffer with unspecified contents. -/
def stringOfCoqString (malloc : Nat → Option (List Nat)) (m : Nat → Nat) (fuel s : Nat) : Option (List Nat) :=
  (coqStrlen m fuel s 0).bind fun len =>
  (malloc (len + 1)).bind fun buf => coqCopy m (len + 1) fuel s 0 buf

/-! ## `runtime/get_ordinal.c` -/

/-- get_ordinal.c:4-7: `Val_long(v)`. -/
def getUnboxedOrdinal (v : Nat) : Nat := (2 * v + 1) % 2^64

/-- get_ordinal.c:9-12: the header word masked with 255. -/
def getBoxedOrdinal (m : Nat → Nat) (v : Nat) : Nat := m (v - 8) % 256

end RT
