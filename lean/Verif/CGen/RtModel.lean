import Verif.CGen.Spec
import Verif.GC.Props

/-!
# The generated C code linked with the collector

`Clight.lean` leaves the collector open and has words of different kinds (`CVal`); `GC/Model.lean` models `garbage_collect`
on words that are natural numbers.  Here a state of the former is read as a state of the latter, `GC.garbageCollect` is run
on it, and the result is read back.

* `struct heap` (runtime/gc_stack.h:120) is stored in memory, as 43 descriptors of four words each, from the address `desc` on.
* The address of the generated function `f` is `code f`; a code pointer is the word `8 * code f`, which the collector takes
  for a pointer outside its spaces.
* The root arrays of the activations are on the C stack, one behind the other from the address `stack` on.
* What `malloc` returns for the next generation is a function of the descriptors.

Simplification: a word has no kind when it is read back; its kind is found from the block it is in (headers, scanned fields,
other words) and a scanned word from its value.
-/

namespace CGen

open ANF

/-- Where the runtime and the program are in memory. `Static` are the addresses outside every space that is or will be
allocated, `depth` is the macro `DEPTH` (runtime/gc_stack.c:96-98). -/
structure Rt where
  Static : Nat → Prop
  code : Var → Nat
  desc : Nat
  stack : Nat
  depth : Nat
  malloc : GC.Heap → Nat → Option Nat

/-- What is assumed of the layout: code, descriptors and stack are outside the spaces, functions have different addresses,
and what `malloc` returns is fresh. -/
structure Rt.Fits (R : Rt) (B : Defs) : Prop where
  code : ∀ f ∈ B.names, R.Static (R.code f)
  codeNe : ∀ f ∈ B.names, ∀ g ∈ B.names, R.code f = R.code g → f = g
  desc : ∀ j, j < 4 * GC.maxSpaces → R.Static (R.desc + j)
  stack : ∀ x, R.stack ≤ x → R.Static x
  malloc : ∀ (H : GC.Heap) N, 0 < N → (∀ i, i < N ↔ (H i).start ≠ 0) →
    GC.MallocOK R.Static H N (fun _ => False) (H 0).size (R.malloc H)

namespace Rt

variable (R : Rt)

/-- The bits of a word. -/
def word : CVal → Nat
  | .int z => z.toNat
  | .ptr p => 8 * p
  | .fn f => 8 * R.code f
  | .raw w => w

/-- The bits at an address. -/
def bits (mem : Nat → Option CVal) (x : Nat) : Nat :=
  match mem x with
  | some c => R.word c
  | none => 0

/-- `heap->spaces[i]` (runtime/gc_stack.h:119-120). -/
def heapOf (mem : Nat → Option CVal) : GC.Heap := fun i =>
  if i < GC.maxSpaces then
    ⟨R.bits mem (R.desc + 4 * i), R.bits mem (R.desc + (4 * i + 1)), R.bits mem (R.desc + (4 * i + 2)),
      R.bits mem (R.desc + (4 * i + 3))⟩
  else GC.nullSpace

/-- The thread information without stack frames. -/
def tiOf (mem : Nat → Option CVal) (lo hi : Nat) : GC.TI :=
  { mem := R.bits mem, alloc := lo, limit := hi, heap := R.heapOf mem, fp := [], nalloc := 0 }

/-- The invariant of the collector of `GC/Spec.lean`, as an invariant of the memory of the generated code; the nursery has its
standard size. -/
def heapI : HeapI where
  good mem lo hi := ∃ N objs, (R.heapOf mem 0).size = GC.nurserySize ∧ GC.MutatorOK R.Static (R.tiOf mem lo hi) N objs
  obj mem lo hi p := ∃ N objs, GC.MutatorOK R.Static (R.tiOf mem lo hi) N objs ∧ GC.InHeap objs p

/-- Address of the root array of activation `k`. -/
def base (h : Th) (k : Nat) : Nat := R.stack + ((List.range k).map fun j => (h.frames j).size).sum

/-- The activations on the list of frames from `o` on. -/
def chainFrom (h : Th) : Nat → Option Nat → List Nat
  | 0, _ => []
  | _ + 1, none => []
  | n + 1, some k => k :: chainFrom h n (h.frames k).prev

/-- The activations on the list of frames, innermost first. -/
def chain (h : Th) : List Nat :=
  match h.fp with
  | some k => chainFrom h (k + 1) (some k)
  | none => []

/-- `x` is the address of slot `q.2` of the root array of activation `q.1`. -/
def Slot (h : Th) (x : Nat) (q : Nat × Nat) : Prop :=
  q.1 ∈ chain h ∧ q.2 < (h.frames q.1).next ∧ x = R.base h q.1 + q.2

open Classical in
/-- The memory the collector sees: heap and root arrays. -/
noncomputable def memOf (h : Th) (x : Nat) : Nat :=
  if hx : ∃ q, R.Slot h x q then
    match (h.frames hx.choose.1).roots hx.choose.2 with
    | some c => R.word c
    | none => 0
  else R.bits h.mem x

/-- The state the collector is called in. -/
noncomputable def enc (h : Th) : GC.TI :=
  { mem := R.memOf h, alloc := h.alloc, limit := h.limit, heap := R.heapOf h.mem,
    fp := (chain h).map fun k => ⟨R.base h k, R.base h k + (h.frames k).next⟩, nalloc := h.nalloc }

/-- `a` is the address of a block. -/
def Block (ti : GC.TI) (a : Nat) : Prop := ∃ N objs, GC.Layout ti N objs ∧ GC.InHeap objs a

open Classical in
/-- Reads back a word of a scanned block or of a root array. -/
noncomputable def decWord (B : Defs) (ti : GC.TI) (w : Nat) : CVal :=
  if w % 2 = 1 then .int w
  else if ∃ a, w = 8 * a ∧ Block ti a then .ptr (w / 8)
  else if hf : ∃ f ∈ B.names, w = 8 * R.code f then .fn hf.choose
  else .raw w

open Classical in
/-- Reads back the word at the address `x` of a space. -/
noncomputable def decAt (B : Defs) (ti : GC.TI) (x : Nat) : CVal :=
  if ∃ a, Block ti a ∧ x = a - 1 then .int (ti.mem x)
  else if ∃ a i, Block ti a ∧ GC.Scanned ti.mem a ∧ i < GC.blockSize ti.mem a ∧ x = a + i then R.decWord B ti (ti.mem x)
  else .raw (ti.mem x)

/-- Word `j` of `struct heap`. -/
def descWord (H : GC.Heap) (j : Nat) : Nat :=
  if j % 4 = 0 then (H (j / 4)).start else if j % 4 = 1 then (H (j / 4)).next
  else if j % 4 = 2 then (H (j / 4)).limit else (H (j / 4)).remLimit

open Classical in
/-- Reads back the memory: descriptors and spaces; all other words are unchanged. -/
noncomputable def decMem (B : Defs) (mem : Nat → Option CVal) (ti : GC.TI) (x : Nat) : Option CVal :=
  if R.desc ≤ x ∧ x < R.desc + 4 * GC.maxSpaces then some (.raw (descWord ti.heap (x - R.desc)))
  else if ∃ k, (ti.heap k).start ≤ x ∧ x < (ti.heap k).remLimit then some (R.decAt B ti x)
  else mem x

open Classical in
/-- Reads back the state after the collection. -/
noncomputable def dec (B : Defs) (h : Th) (ti : GC.TI) : Th :=
  { h with
    mem := R.decMem B h.mem ti
    alloc := ti.alloc
    limit := ti.limit
    frames := fun k => { h.frames k with
      roots := fun i => if k ∈ chain h ∧ i < (h.frames k).next then some (R.decWord B ti (ti.mem (R.base h k + i)))
        else (h.frames k).roots i } }

open Classical in
/-- `garbage_collect` (runtime/gc_stack.c:397-437) called by generated code. In a state that is not as the collector expects
it (a heap that is not well-formed, a slot without a value, ...) the call is undefined. The bound of the model's scan loop is
above the size of all spaces. -/
noncomputable def collect (cenv : Ctor.PMap Ctor.Info) (B : Defs) (h : Th) : GcRes :=
  if h.Ok R.heapI cenv B then
    match GC.garbageCollect R.depth (2 ^ 41 * (R.heapOf h.mem 0).size + 1) (R.malloc (R.heapOf h.mem)) (R.enc h) with
    | .ok ti => .ok (R.dec B h ti)
    | .abort => .abort
    | .oof => .ub
  else .ub

/-- The runtime: this collector, and any primitives. -/
noncomputable def world (cenv : Ctor.PMap Ctor.Info) (B : Defs) (prim : Tag → List CVal → (Nat → Option CVal) → Option CVal)
    (primT : Tag → List CVal → Th → Out) : World :=
  { gc := R.collect cenv B, prim := prim, primT := primT }

/-- The state `make_tinfo` (runtime/gc_stack.c:360-375, with `create_heap`, 344-358) leaves when `malloc` has returned the
address `a` for the nursery: an empty nursery and no other space. -/
def start (a : Nat) : Th :=
  { mem := fun x => if R.desc ≤ x ∧ x < R.desc + 4 * GC.maxSpaces then some (.raw (descWord (GC.createHeap a) (x - R.desc)))
      else none
    alloc := a, limit := a + GC.nurserySize, nalloc := 0, args := fun _ => none, fp := none
    frames := fun _ => ⟨0, 0, none, fun _ => none⟩ }

end Rt

end CGen
