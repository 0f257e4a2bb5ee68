/-!
# The generational copying collector (`runtime/gc_stack.c`, `runtime/gc_stack.h`, `runtime/values.h`)

Memory is word addressed: an address `a : Nat` stands for the byte address `8*a`. A word is a natural number; a
pointer to word address `a` is the word `8*a` (`ptr a`), an odd word is an unboxed value. Simplifications:

* words are unbounded (no wrap-around of sizes and addresses);
* an even word is taken to be an aligned pointer, as the comments in gc_stack.c:23-35 require;
* the linked list of stack frames is a Lean list of `(root, next)` pairs (gc_stack.h:133-137), the space descriptors
  are a Lean function, not words in memory;
* `malloc` is an oracle: the caller of `garbageCollect` supplies the addresses it returns; failure is `none`;
* `assert` failures and `abort_with` end in the outcome `abort`;
* the unbounded loop of `do_scan` and the recursion are driven by fuel; running out is the distinct outcome `oof`.
-/

namespace GC

/-- Word-addressed memory. -/
abbrev Mem := Nat → Nat

/-- `*a = v`. -/
def upd (m : Mem) (a v : Nat) : Mem := fun x => if x = a then v else m x

/-- `ptr_to_int_or_ptr` of the word address `a` (gc_stack.c:35-37): the byte address. -/
def ptr (a : Nat) : Nat := 8 * a

/-- `is_ptr` (gc_stack.c:39-41, 19-21). -/
def isPtr (v : Nat) : Bool := v % 2 == 0

/-- `int_or_ptr_to_ptr` (gc_stack.c:27-29): the word address of a pointer. -/
def addrOf (v : Nat) : Nat := v / 8

/-- `Wosize_hd` (values.h:132). -/
def wosize (hd : Nat) : Nat := hd / 1024

/-- `Tag_hd` (values.h:127). -/
def tagOf (hd : Nat) : Nat := hd % 256

/-- `No_scan(t) ((t) >= No_scan_tag)`, `No_scan_tag` is 251 (gc_stack.h:91-92). -/
def noScan (t : Nat) : Bool := 251 ≤ t

/-- `struct space` (gc_stack.h:119). `start = 0` is `NULL`. -/
structure Space where
  start : Nat
  next : Nat
  limit : Nat
  remLimit : Nat
deriving DecidableEq, Repr

inductive Outcome (α : Type) where
  | ok (a : α)
  | abort
  | oof
deriving DecidableEq, Repr

/-- Sequencing of outcomes. -/
def Outcome.bind {α β : Type} : Outcome α → (α → Outcome β) → Outcome β
  | .ok a, f => f a
  | .abort, _ => .abort
  | .oof, _ => .oof

/-- `Is_from` (gc_stack.c:158-160). -/
def isFrom (fs fl v : Nat) : Bool := fs ≤ v && v < fl

/-- A `for (i = 0; i < n; i++)` loop: `body` is run with `i = 0, 1, …, n-1`. -/
def forLoop {σ : Type} (n : Nat) (body : Nat → σ → σ) (s : σ) : σ :=
  match n with
  | 0 => s
  | n + 1 => body n (forLoop n body s)

/-- The field-copying loop of `forward` (gc_stack.c:203-206). -/
def copyFields (m : Mem) (v newv sz : Nat) : Mem :=
  forLoop sz (fun i m => upd m (newv + i) (m (v + i))) m

/-- The state threaded through `forward`: memory and the allocation pointer `*next` of the to-space. -/
structure FS where
  mem : Mem
  next : Nat

/-- `forward` (gc_stack.c:164-222). -/
def forward (fs fl : Nat) (depth : Nat) (st : FS) (p : Nat) : FS :=
  let va := st.mem p
  if isPtr va then
    let v := addrOf va
    if isFrom fs fl v then
      let hd := st.mem (v - 1)
      if hd = 0 then ⟨upd st.mem p (st.mem v), st.next⟩
      else
        let sz := wosize hd
        let newv := st.next + 1
        let next := newv + sz
        let m := upd st.mem (newv - 1) hd
        let m := copyFields m v newv sz
        let m := upd m (v - 1) 0
        let m := upd m v (ptr newv)
        let m := upd m p (ptr newv)
        match depth with
        | 0 => ⟨m, next⟩
        | d + 1 =>
          if noScan (tagOf hd) then ⟨m, next⟩
          else forLoop sz (fun i st => forward fs fl d st (newv + i)) ⟨m, next⟩
    else st
  else st

/-- State of `forward_remset`: memory, `to->next`, `to->limit`. -/
structure RS where
  mem : Mem
  next : Nat
  toLimit : Nat

/-- One iteration of `forward_remset` (gc_stack.c:230-240) on the entry stored at address `q`. -/
def remStep (D fs fl : Nat) (q : Nat) (s : RS) : RS :=
  let p := addrOf (s.mem q)
  if ¬ (fs ≤ p ∧ p < fl) then
    let oldp := s.mem p
    let r := forward fs fl D ⟨s.mem, s.next⟩ p
    let newp := r.mem p
    if oldp ≠ newp then ⟨upd r.mem (s.toLimit - 1) (ptr p), r.next, s.toLimit - 1⟩
    else ⟨r.mem, r.next, s.toLimit⟩
  else s

/-- `forward_remset` (gc_stack.c:223-241): `q` runs over `from_limit, …, from_rem_limit - 1`. -/
def forwardRemset (D : Nat) (m : Mem) (frm dst : Space) : Outcome RS :=
  if frm.remLimit - frm.limit ≤ dst.limit - dst.start then
    .ok (forLoop (frm.remLimit - frm.limit) (fun i s => remStep D frm.start frm.limit (frm.limit + i) s)
      ⟨m, dst.next, dst.limit⟩)
  else .abort

/-- `struct stack_frame` (gc_stack.h:133-137) without the link. -/
structure Frame where
  root : Nat
  next : Nat
deriving DecidableEq, Repr

/-- `forward_roots` (gc_stack.c:243-261): from the innermost frame outwards. -/
def forwardRoots (D fs fl : Nat) : List Frame → FS → FS
  | [], s => s
  | fr :: rest, s =>
    forwardRoots D fs fl rest (forLoop (fr.next - fr.root) (fun i s => forward fs fl D s (fr.root + i)) s)

/-- `do_scan` (gc_stack.c:263-291). -/
def doScan (D fs fl : Nat) : Nat → Nat → FS → Outcome FS
  | 0, _, _ => .oof
  | fuel + 1, s, st =>
    if s < st.next then
      let hd := st.mem s
      let sz := wosize hd
      let st' := if noScan (tagOf hd) then st
        else forLoop sz (fun j st => forward fs fl D st (s + (j + 1))) st
      doScan D fs fl fuel (s + (1 + sz)) st'
    else .ok st

/-- `do_generation` (gc_stack.c:293-313): memory and the two descriptors afterwards. `D` is the macro `DEPTH`. -/
def doGeneration (D fuel : Nat) (m : Mem) (frm dst : Space) (fr : List Frame) : Outcome (Mem × Space × Space) :=
  (forwardRemset D m frm dst).bind fun r =>
    let s := forwardRoots D frm.start frm.limit fr ⟨r.mem, r.next⟩
    (doScan D frm.start frm.limit fuel dst.next s).bind fun s' =>
      .ok (s'.mem, { frm with next := frm.start, limit := frm.remLimit },
        { dst with next := s'.next, limit := r.toLimit })

/-- `MAX_SPACES` on a 64-bit machine: `8*8 - (2+3+16)` (gc_stack.h:117). -/
def maxSpaces : Nat := 43

/-- `NURSERY_SIZE` (gc_stack.h:116). -/
def nurserySize : Nat := 65536

/-- `RATIO` (gc_stack.c:52). -/
def ratio : Nat := 2

/-- `NULL` descriptor as set by `create_heap` (gc_stack.c:351-356). -/
def nullSpace : Space := ⟨0, 0, 0, 0⟩

/-- `create_space` (gc_stack.c:322-342) once `malloc` has returned word address `a`. -/
def createSpace (a n : Nat) : Space := ⟨a, a, a + n, a + n⟩

/-- `struct heap` (gc_stack.h:120). -/
abbrev Heap := Nat → Space

/-- Descriptor update. -/
def setSpace (h : Heap) (i : Nat) (s : Space) : Heap := fun j => if j = i then s else h j

/-- `struct thread_info` (gc_stack.h:140-148) with the memory. `args` and `odata` are not used by the collector. -/
structure TI where
  mem : Mem
  alloc : Nat
  limit : Nat
  heap : Heap
  fp : List Frame
  nalloc : Nat

/-- `create_heap` (gc_stack.c:344-358). -/
def createHeap (a : Nat) : Heap := setSpace (fun _ => nullSpace) 0 (createSpace a nurserySize)

/-- `make_tinfo` (gc_stack.c:360-375). -/
def makeTinfo (m : Mem) (a : Nat) : TI :=
  { mem := m, alloc := a, limit := a + nurserySize, heap := createHeap a, fp := [], nalloc := 0 }

/-- `resume` (gc_stack.c:377-395). -/
def resume (ti : TI) : Outcome TI :=
  let lo := (ti.heap 0).start
  let hi := (ti.heap 0).limit
  if hi - lo < ti.nalloc then .abort else .ok { ti with alloc := lo, limit := hi }

/-- Creation of generation `i+1` in the loop of `garbage_collect` (gc_stack.c:411-414). `malloc i` is the address the
allocator returns if this happens in iteration `i`; `none` models a failing `malloc`. -/
def ensureSpace (malloc : Nat → Option Nat) (h : Heap) (i : Nat) : Outcome Heap :=
  if (h (i+1)).start = 0 then
    match malloc i with
    | some a => .ok (setSpace h (i+1) (createSpace a (ratio * ((h i).remLimit - (h i).start))))
    | none => .abort
  else .ok h

/-- The loop of `garbage_collect` (gc_stack.c:404-432); `n` is the number of iterations left, `i` the loop variable. -/
def gcLoop (D fuel : Nat) (malloc : Nat → Option Nat) : (n : Nat) → (i : Nat) → TI → Outcome TI
  | 0, _, _ => .abort
  | n + 1, i, ti =>
    (ensureSpace malloc ti.heap i).bind fun h =>
      (doGeneration D fuel ti.mem (h i) (h (i+1)) ti.fp).bind fun (m, s, t) =>
        let h := setSpace (setSpace h i s) (i+1) t
        let ti := { ti with mem := m, heap := h }
        if (h i).remLimit - (h i).start ≤ (h (i+1)).limit - (h (i+1)).next then resume ti
        else gcLoop D fuel malloc n (i+1) ti

/-- `garbage_collect` (gc_stack.c:397-437). -/
def garbageCollect (D fuel : Nat) (malloc : Nat → Option Nat) (ti : TI) : Outcome TI :=
  let h := setSpace ti.heap 0 { ti.heap 0 with limit := ti.limit, next := ti.alloc }
  gcLoop D fuel malloc (maxSpaces - 1) 0 { ti with heap := h }

/-- `reset_heap` (gc_stack.c:448-453): only `next` is reset. -/
def resetHeap (h : Heap) : Heap := fun i => { h i with next := (h i).start }

/-- `certirocq_modify` (gc_stack.c:525-531). -/
def modify (ti : TI) (pCell pVal : Nat) : Outcome TI :=
  if ti.alloc < ti.limit then
    let m := upd ti.mem pCell pVal
    if isPtr pVal then .ok { ti with mem := upd m (ti.limit - 1) (ptr pCell), limit := ti.limit - 1 }
    else .ok { ti with mem := m }
  else .abort

/-- What generated code does to build a block: header and fields at `alloc`, then `alloc += 1 + n`
(`Codegen/LambdaANF_to_Clight_stack.v`, `assignConstructorS`); the words must have been reserved. The header is
`n * 1024 + tag` (`makeTagZ`). -/
def allocBlock (ti : TI) (tag : Nat) (fields : List Nat) : Outcome (TI × Nat) :=
  if ti.alloc + 1 + fields.length ≤ ti.limit then
    let a := ti.alloc + 1
    let m := upd ti.mem ti.alloc (fields.length * 1024 + tag)
    let m := forLoop fields.length (fun i m => upd m (a + i) (fields.getD i 1)) m
    .ok ({ ti with mem := m, alloc := ti.alloc + 1 + fields.length }, a)
  else .abort

end GC
