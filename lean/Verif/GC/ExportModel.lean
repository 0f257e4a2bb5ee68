import Verif.GC.Spec

/-!
# `garbage_collect_all` and `export_heap` (`runtime/gc_stack.c`)

Simplifications, besides those of `Verif.GC.Model`: the heap descriptor exists (`ti->heap` is set by `make_tinfo`, so
the branch creating it in `garbage_collect_all` is left out); the two `malloc(sizeof(struct space))` succeed and the
descriptors they return are Lean values; the `free`s at the end have no effect on the words of memory (the freed region
is simply not part of any result).
-/

namespace GC

/-- The loop of `garbage_collect_all` (gc_stack.c:476-477); `n` is the number of iterations left, `i` the loop
variable. The second component of the result is the value of `i` at the end. -/
def gcAllLoop (D fuel : Nat) : (n : Nat) → (i : Nat) → TI → Outcome (TI × Nat)
  | 0, i, ti => .ok (ti, i)
  | n + 1, i, ti =>
    if (ti.heap (i+1)).start ≠ 0 then
      (doGeneration D fuel ti.mem (ti.heap i) (ti.heap (i+1)) ti.fp).bind fun (m, s, t) =>
        gcAllLoop D fuel n (i+1) { ti with mem := m, heap := setSpace (setSpace ti.heap i s) (i+1) t }
    else .ok (ti, i)

/-- `garbage_collect_all` (gc_stack.c:466-480). `ti->alloc` and `ti->limit` are not updated. -/
def garbageCollectAll (D fuel : Nat) (ti : TI) : Outcome (TI × Nat) :=
  let h := setSpace ti.heap 0 { ti.heap 0 with limit := ti.limit, next := ti.alloc }
  gcAllLoop D fuel (maxSpaces - 1) 0 { ti with heap := h }

/-- `export_heap` (gc_stack.c:483-517). `r` is the address of the local array `roots`; `mallocF n` and `mallocV n` are
the addresses `malloc` returns when asked for `n` words for `fake_sp` and for `value_sp`. The result is the returned
word and the thread info afterwards, whose `fp` still refers to the local frame. -/
def exportHeap (D fuel : Nat) (mallocF mallocV : Nat → Option Nat) (r : Nat) (ti : TI) (root : Nat) :
    Outcome (TI × Nat) :=
  let ti := { ti with mem := upd ti.mem r root, fp := [⟨r, r + 1⟩] }
  if isPtr root then
    (garbageCollectAll D fuel ti).bind fun (ti, g) =>
      let sp := ti.heap g
      match mallocF (sp.next - sp.start) with
      | none => .abort
      | some f =>
        (doGeneration D fuel ti.mem sp (createSpace f (sp.next - sp.start)) ti.fp).bind fun (m, sp, fake) =>
          match mallocV (fake.next - fake.start) with
          | none => .abort
          | some v =>
            (doGeneration D fuel m fake (createSpace v (fake.next - fake.start)) ti.fp).bind fun (m, _, val) =>
              .ok ({ ti with mem := m, heap := setSpace ti.heap g sp }, ptr (val.start + 1))
  else .ok (ti, root)

/-! ## Specification of a deep copy -/

/-- Blocks reachable from the word `w`. -/
inductive ReachFrom (B : Nat → Prop) (m : Nat → Nat) (w : Nat) : Nat → Prop
  | here {a : Nat} : w = 8 * a → B a → ReachFrom B m w a
  | field {a i b : Nat} : ReachFrom B m w a → Scanned m a → i < blockSize m a → m (a + i) = 8 * b → B b →
      ReachFrom B m w b

/-- The value `w'` in `m'` is a copy of the value `w` in `m`: an injective renaming `ψ` takes the blocks reachable from
`w` to blocks of `B'` with the same headers and, up to the renaming, the same fields; raw blocks are equal word for
word; words that are not pointers to blocks of `B` are kept. -/
def DeepCopy (Static B B' : Nat → Prop) (m : Nat → Nat) (w : Nat) (m' : Nat → Nat) (w' : Nat) : Prop :=
  ∃ ψ : Nat → Nat, WordIso Static B ψ w w' ∧
    (∀ a, ReachFrom B m w a → B' (ψ a) ∧ m' (ψ a - 1) = m (a - 1) ∧
      ∀ i, i < blockSize m a →
        (Scanned m a → WordIso Static B ψ (m (a + i)) (m' (ψ a + i))) ∧
        (¬ Scanned m a → m' (ψ a + i) = m (a + i))) ∧
    (∀ a b, ReachFrom B m w a → ReachFrom B m w b → ψ a = ψ b → a = b)

/-- What is assumed of the two `malloc`s of `export_heap` when they succeed: the regions returned are disjoint from the
generations, from static data, from the local root word `r` and from each other. -/
structure ExportMallocOK (Static : Nat → Prop) (h : Nat → Space) (N r : Nat) (mallocF mallocV : Nat → Option Nat) :
    Prop where
  freshF : ∀ n f, mallocF n = some f → (∀ j, j < N → f + n ≤ (h j).start ∨ (h j).remLimit ≤ f) ∧
    (∀ x, Static x ∨ x = r → x < f ∨ f + n ≤ x)
  freshV : ∀ n v, mallocV n = some v → (∀ j, j < N → v + n ≤ (h j).start ∨ (h j).remLimit ≤ v) ∧
    (∀ x, Static x ∨ x = r → x < v ∨ v + n ≤ x)
  apart : ∀ n f n' v, mallocF n = some f → mallocV n' = some v → f + n ≤ v ∨ v + n' ≤ f

end GC
