import Verif.GC.Model

/-!
# Specification of the collector

What a well-formed heap is and what it means that two memories hold the same object graph. Apart from the record types
`Space`, `Frame` of the model nothing of the collector is used here.
-/

namespace GC

/-- `Blocks m s l e`: the words `s, …, e-1` of `m` are a sequence of blocks, each a header word followed by as many
fields (at least one) as the header says; `l` lists the addresses of the first fields. -/
inductive Blocks (m : Nat → Nat) : Nat → List Nat → Nat → Prop
  | nil (s : Nat) : Blocks m s [] s
  | cons {s e : Nat} {l : List Nat} : 1 ≤ m s / 1024 → Blocks m (s + 1 + m s / 1024) l e → Blocks m s ((s + 1) :: l) e

/-- Number of fields of the block at `a`. -/
def blockSize (m : Nat → Nat) (a : Nat) : Nat := m (a - 1) / 1024

/-- Blocks with a tag of 251 or more hold raw data. -/
def Scanned (m : Nat → Nat) (a : Nat) : Prop := m (a - 1) % 256 < 251

/-- A word of a value: unboxed (odd), a pointer to a heap block, or a pointer to static data. -/
def ValidWord (Static : Nat → Prop) (B : Nat → Prop) (w : Nat) : Prop :=
  w % 2 = 1 ∨ (∃ a, w = 8 * a ∧ B a) ∨ (∃ a, w = 8 * a ∧ Static a)

/-- The root words: the contents of the root arrays of all stack frames. -/
def Roots (fr : List Frame) (x : Nat) : Prop := ∃ f ∈ fr, f.root ≤ x ∧ x < f.next

/-- The blocks of a heap whose generation `i` holds the blocks `objs i`. -/
def InHeap (objs : Nat → List Nat) (a : Nat) : Prop := ∃ j, a ∈ objs j

/-- Size of a generation in words. -/
def Space.size (s : Space) : Nat := s.remLimit - s.start

/-- Words of a generation that are occupied by blocks or by the remembered set. -/
def Space.used (s : Space) : Nat := (s.next - s.start) + (s.remLimit - s.limit)

/-- A well-formed generational heap with `N` generations in use. Generations below `i0` are empty and only the ones from
`i0` on are guaranteed to have room for a collection of the generation below (`i0 = 0` between collections). -/
structure WF (Static : Nat → Prop) (m : Nat → Nat) (h : Nat → Space) (N : Nat) (objs : Nat → List Nat)
    (roots : Nat → Prop) (i0 : Nat) : Prop where
  pos : i0 < N
  inUse : ∀ i, i < N → 0 < (h i).start
  unused : ∀ i, N ≤ i → (h i).start = 0 ∧ objs i = []
  order : ∀ i, i < N → (h i).start ≤ (h i).next ∧ (h i).next ≤ (h i).limit ∧ (h i).limit ≤ (h i).remLimit
  sizes : ∀ i, i + 1 < N → (h (i+1)).size = 2 * (h i).size
  disj : ∀ i j, i < N → j < N → i ≠ j → (h i).remLimit ≤ (h j).start ∨ (h j).remLimit ≤ (h i).start
  blocks : ∀ i, i < N → Blocks m (h i).start (objs i) (h i).next
  room : ∀ i, i0 ≤ i → i + 1 < N → (h i).size ≤ (h (i+1)).limit - (h (i+1)).next
  below : ∀ i, i < i0 → objs i = [] ∧ (h i).next = (h i).start ∧ (h i).limit = (h i).remLimit
  static : ∀ x i, Static x → i < N → x < (h i).start ∨ (h i).remLimit ≤ x
  rootsOut : ∀ x i, roots x → i < N → x < (h i).start ∨ (h i).remLimit ≤ x
  rootVal : ∀ x, roots x → ValidWord Static (InHeap objs) (m x)
  fieldVal : ∀ k a i, a ∈ objs k → Scanned m a → i < blockSize m a → ValidWord Static (InHeap objs) (m (a + i))
  /-- a pointer from an older to a younger generation is recorded in the younger one's remembered set -/
  barrier : ∀ k a i j b, a ∈ objs k → Scanned m a → i < blockSize m a → m (a + i) = 8 * b → b ∈ objs j → j < k →
    ∃ q, (h j).limit ≤ q ∧ q < (h j).remLimit ∧ m q = 8 * (a + i)
  /-- the remembered set of a generation holds addresses of fields of blocks that are not younger -/
  remset : ∀ j q, j < N → (h j).limit ≤ q → q < (h j).remLimit →
    ∃ k a i, j ≤ k ∧ a ∈ objs k ∧ Scanned m a ∧ i < blockSize m a ∧ m q = 8 * (a + i)

/-- Blocks reachable from the roots. -/
inductive Reach (B : Nat → Prop) (m : Nat → Nat) (roots : Nat → Prop) : Nat → Prop
  | root {x a : Nat} : roots x → m x = 8 * a → B a → Reach B m roots a
  | field {a i b : Nat} : Reach B m roots a → Scanned m a → i < blockSize m a → m (a + i) = 8 * b → B b →
      Reach B m roots b

/-- `w'` is `w` with addresses renamed by `ψ`. -/
def WordIso (Static B : Nat → Prop) (ψ : Nat → Nat) (w w' : Nat) : Prop :=
  (w % 2 = 1 ∧ w' = w) ∨ (∃ a, w = 8 * a ∧ B a ∧ w' = 8 * ψ a) ∨ (∃ a, w = 8 * a ∧ Static a ∧ w' = w)

/-- The graph reachable from the roots in `m'` is the one in `m` up to an injective renaming `ψ` of addresses: same
headers, same fields, same sharing; raw blocks are equal word for word. `B`, `B'` are the heap blocks. -/
def SameGraph (Static B B' : Nat → Prop) (roots : Nat → Prop) (m m' : Nat → Nat) : Prop :=
  ∃ ψ : Nat → Nat,
    (∀ x, roots x → WordIso Static B ψ (m x) (m' x)) ∧
    (∀ a, Reach B m roots a →
      B' (ψ a) ∧ m' (ψ a - 1) = m (a - 1) ∧
      ∀ i, i < blockSize m a →
        (Scanned m a → WordIso Static B ψ (m (a + i)) (m' (ψ a + i))) ∧
        (¬ Scanned m a → m' (ψ a + i) = m (a + i))) ∧
    (∀ a b, Reach B m roots a → Reach B m roots b → ψ a = ψ b → a = b)

end GC

namespace GC

/-- The heap descriptors as the mutator sees them: between collections the nursery's `next` and `limit` are kept in the
thread info (`alloc`, `limit`). -/
def currentHeap (ti : TI) : Nat → Space := fun i =>
  if i = 0 then { ti.heap 0 with limit := ti.limit, next := ti.alloc } else ti.heap i

/-- A state in which the mutator runs: well-formed heap, `objs i` are the blocks of generation `i`. -/
def MutatorOK (Static : Nat → Prop) (ti : TI) (N : Nat) (objs : Nat → List Nat) : Prop :=
  WF Static ti.mem (currentHeap ti) N objs (Roots ti.fp) 0

/-- What is assumed of `malloc`: when it succeeds, the region returned for generation `i+1` is disjoint from the
generations in use, from static data, from the root arrays and from the regions returned for other generations.
`size0` is the size of the nursery; generation `k` has `2^k * size0` words. -/
structure MallocOK (Static : Nat → Prop) (h : Nat → Space) (N : Nat) (roots : Nat → Prop) (size0 : Nat)
    (malloc : Nat → Option Nat) : Prop where
  fresh : ∀ i a, N ≤ i + 1 → malloc i = some a → 0 < a ∧
    (∀ j, j < N → a + 2 ^ (i+1) * size0 ≤ (h j).start ∨ (h j).remLimit ≤ a) ∧
    (∀ x, Static x ∨ roots x → x < a ∨ a + 2 ^ (i+1) * size0 ≤ x)
  apart : ∀ i j a b, N ≤ i + 1 → N ≤ j + 1 → i ≠ j → malloc i = some a → malloc j = some b →
    a + 2 ^ (i+1) * size0 ≤ b ∨ b + 2 ^ (j+1) * size0 ≤ a

end GC

namespace GC

/-- `objs i` are the blocks found in generation `i` and `N` is the number of generations that exist. -/
structure Layout (ti : TI) (N : Nat) (objs : Nat → List Nat) : Prop where
  inUse : ∀ i, i < N → (currentHeap ti i).start ≠ 0 ∧
    Blocks ti.mem (currentHeap ti i).start (objs i) (currentHeap ti i).next
  unused : ∀ i, N ≤ i → (currentHeap ti i).start = 0 ∧ objs i = []

/-- One action of a program that uses the runtime. `allowed k j` restricts mutation: a pointer to a block of generation
`j` may be stored in a block of generation `k`. `fuel` is only a bound for the model's scan loop. -/
inductive Action (Static : Nat → Prop) (allowed : Nat → Nat → Prop) (D fuel : Nat) :
    TI → Nat → (Nat → List Nat) → TI → Nat → (Nat → List Nat) → Prop
  /-- allocate a block whose fields are values (or raw words when the tag is 251 or more) -/
  | alloc {ti ti' N objs tag fields a} : tag < 256 → fields ≠ [] →
      (tag < 251 → ∀ v ∈ fields, ValidWord Static (InHeap objs) v) →
      allocBlock ti tag fields = .ok (ti', a) →
      Action Static allowed D fuel ti N objs ti' N (fun k => if k = 0 then objs 0 ++ [a] else objs k)
  /-- store a value in a field of a block through the write barrier -/
  | modify {ti ti' N objs k a i v} : a ∈ objs k → Scanned ti.mem a → i < blockSize ti.mem a →
      ValidWord Static (InHeap objs) v → (∀ b j, v = 8 * b → b ∈ objs j → allowed k j) →
      modify ti (a + i) v = .ok ti' → Action Static allowed D fuel ti N objs ti' N objs
  /-- push, pop or fill stack frames, set `nalloc`; memory outside the heap may change -/
  | frames {ti N objs m' fp' nalloc'} :
      (∀ x k, k < N → (ti.heap k).start ≤ x → x < (ti.heap k).remLimit → m' x = ti.mem x) →
      (∀ x k, Roots fp' x → k < N → x < (ti.heap k).start ∨ (ti.heap k).remLimit ≤ x) →
      (∀ x, Roots fp' x → ValidWord Static (InHeap objs) (m' x)) →
      Action Static allowed D fuel ti N objs { ti with mem := m', fp := fp', nalloc := nalloc' } N objs
  /-- a collection that returns -/
  | collect {ti ti' N objs N' objs' malloc} : MallocOK Static ti.heap N (Roots ti.fp) (ti.heap 0).size malloc →
      2 ^ 41 * (ti.heap 0).size < fuel → garbageCollect D fuel malloc ti = .ok ti' → Layout ti' N' objs' →
      Action Static allowed D fuel ti N objs ti' N' objs'

/-- A history of actions. -/
inductive History (Static : Nat → Prop) (allowed : Nat → Nat → Prop) (D fuel : Nat) :
    TI → Nat → (Nat → List Nat) → TI → Nat → (Nat → List Nat) → Prop
  | refl {ti N objs} : History Static allowed D fuel ti N objs ti N objs
  | step {ti N objs ti' N' objs' ti'' N'' objs''} : History Static allowed D fuel ti N objs ti' N' objs' →
      Action Static allowed D fuel ti' N' objs' ti'' N'' objs'' →
      History Static allowed D fuel ti N objs ti'' N'' objs''

end GC
