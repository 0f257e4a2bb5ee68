import Mathlib.Data.List.Perm.Basic
import Mathlib.Tactic.Common

/-!
# Handing the result of a compiled program to OCaml: bootstrap/certirocqc/certirocqc_wrapper.c

The compiled compiler is called from OCaml, and its result is copied to the OCaml heap.  The OCaml collector may run at every allocation and
moves the blocks of the OCaml heap; it updates the variables registered with `CAMLparam` and `CAMLlocal`, and no others.

Simplifications: the depth of the C stack is not bounded; a block without fields is allocated like others (OCaml returns a static one).
-/

namespace Boot

/-- A block: its tag and its words.  Odd words are integers, even words are addresses. -/
structure Block where
  tag : Nat
  fields : List Nat
  deriving DecidableEq

/-- Memory: the block at an address. -/
abbrev Heap := Nat → Option Block

/-- `No_scan_tag` (caml/mlvalues.h; runtime/values.h). -/
def noScan : Nat := 251

/-- `Val_unit`. -/
def unit : Nat := 1

/-- The OCaml heap, the registered variables (innermost first) and the number of allocations so far. -/
structure St where
  heap : Heap
  roots : List Nat
  time : Nat

/-- The OCaml allocator `caml_alloc`: given the number of the allocation, the heap, the registered variables, the size and the tag, it gives
the heap and the variables afterwards and the new address. -/
abbrev Alloc := Nat → Heap → List Nat → Nat → Nat → Heap × List Nat × Nat

/-- All memory: `R` is what the OCaml collector does not manage. -/
def mem (R H : Heap) (a : Nat) : Option Block := (R a).or (H a)

/-- `Store_field (result, i, w)` (certirocqc_wrapper.c:32): `result` is the innermost registered variable. -/
def store (s : St) (i w : Nat) : Option St :=
  match s.roots with
  | [] => none
  | r :: _ => match s.heap r with
    | some b => if i < b.fields.length then some { s with heap := fun a => if a = r then some ⟨b.tag, b.fields.set i w⟩ else s.heap a } else none
    | none => none

/-- The loop (certirocqc_wrapper.c:29-33), with `k` fields left, the next being `i`; `copy` copies a field.  `Field (v, i)` is read in each
round. -/
def loop (R : Heap) (copy : Nat → St → Option (Nat × St)) (v : Nat) : Nat → Nat → St → Option St
  | 0, _, s => some s
  | k + 1, i, s => match (mem R s.heap v).bind (·.fields[i]?) with
    | none => none
    | some x => match copy x s with
      | none => none
      | some (w, s') => match store s' i w with
        | none => none
        | some s'' => loop R copy v k (i + 1) s''

/-- `copy_value` (certirocqc_wrapper.c:14-37) with a bound on the depth of the recursion; `none` if the bound is reached or the behaviour is
undefined: an address without a block, or more fields than `int i` can count. -/
def copy (R : Heap) (al : Alloc) : Nat → Nat → St → Option (Nat × St)
  | 0, _, _ => none
  | n + 1, v, s =>
    if v % 2 = 1 then some (v, s) else
    match mem R s.heap v with
    | none => none
    | some b =>
      if 2 ^ 31 ≤ b.fields.length then none else
      let (H, rs, r) := al s.time s.heap (unit :: s.roots) b.fields.length b.tag
      match loop R (copy R al n) v b.fields.length 0 ⟨H, r :: rs.tail, s.time + 1⟩ with
      | none => none
      | some s' => match s'.roots with
        | [] => none
        | r' :: rs' => some (r', { s' with roots := rs' })

end Boot
