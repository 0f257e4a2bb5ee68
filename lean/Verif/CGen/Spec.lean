import Verif.CGen.Model
import Verif.ANF.Util

/-!
# What the C backend has to guarantee

How source values are represented in the C heap, what the garbage collector and the primitives are assumed to do, and
which programs the theorems are about.  Nothing here refers to the translation.
-/

namespace CGen

open ANF

/-- The object of `n` words at `p` (header at `p - 1`) does not overlap the free interval `[lo, hi)`. -/
def Outside (lo hi p n : Nat) : Prop := 1 ≤ p ∧ (p + n ≤ lo ∨ hi < p)

/-- What the runtime regards as a well-formed heap, as a function of the memory and the free interval `[lo, hi)` of the
nursery: `good` is the invariant the collector relies on, `obj p` says that `p` is the address of a heap object. Nothing is
assumed of the two but `HeapI.Laws`. -/
structure HeapI where
  good : (Nat → Option CVal) → Nat → Nat → Prop
  obj : (Nat → Option CVal) → Nat → Nat → Nat → Prop

/-- The interface of a runtime that relies on nothing. -/
def HeapI.top : HeapI := ⟨fun _ _ _ => True, fun _ _ _ _ => True⟩

/-- The value `v` is represented by the word `c` in a memory whose free interval is `[lo, hi)`: constructors without
arguments are odd integers, constructors with arguments point behind a header holding arity and ordinal, functions of the
program `B` are code pointers. -/
inductive VRep (G : HeapI) (cenv : Ctor.PMap Ctor.Info) (B : Defs) (mem : Nat → Option CVal) (lo hi : Nat) : Val → CVal → Prop
  | enum {t i} : cenv t = some i → i.arity = 0 → VRep G cenv B mem lo hi (.constr t []) (.int (2 * i.ordinal + 1))
  | boxed {t i vs p} {cs : List CVal} : cenv t = some i → i.arity = vs.length → 0 < vs.length →
      Outside lo hi p vs.length → mem (p - 1) = some (.int (i.arity * 1024 + i.ordinal)) → cs.length = vs.length →
      (∀ (k : Nat) c, cs[k]? = some c → mem (p + k) = some c) →
      (∀ (k : Nat) v c, vs[k]? = some v → cs[k]? = some c → VRep G cenv B mem lo hi v c) →
      G.obj mem lo hi p → VRep G cenv B mem lo hi (.constr t vs) (.ptr p)
  | int {n} : VRep G cenv B mem lo hi (.prim (.int n)) (.int (n * 2 + 1))
  | float {b p} : Outside lo hi p 1 → mem (p - 1) = some (.int 1277) → mem p = some (.raw b) →
      G.obj mem lo hi p → VRep G cenv B mem lo hi (.prim (.float b)) (.ptr p)
  | str {s p} : Outside lo hi p (s.length / 8 + 1) → mem (p - 1) = some (.int ((s.length / 8 + 1) * 1024 + 252)) →
      (∀ (k : Nat) w, (encodeList s)[k]? = some w → mem (p + k) = some (.raw w)) →
      G.obj mem lo hi p → VRep G cenv B mem lo hi (.prim (.str s)) (.ptr p)
  | fn {f} : f ∈ B.names → VRep G cenv B mem lo hi (.fn emp B f) (.fn f)

/-- Representation in a state whose registers have been saved. -/
def Th.Rep (G : HeapI) (cenv : Ctor.PMap Ctor.Info) (B : Defs) (h : Th) (v : Val) (c : CVal) : Prop :=
  VRep G cenv B h.mem h.alloc h.limit v c

/-- The frames the collector visits: from `tinfo->fp` along `prev`. -/
inductive OnChain (h : Th) : Nat → Prop
  | top {k} : h.fp = some k → OnChain h k
  | step {k j} : OnChain h k → (h.frames k).prev = some j → OnChain h j

/-- Writing a block with valid fields at the beginning of the free interval, which moves behind it, keeps the heap
well-formed and makes the block an object of it. -/
def HeapI.Laws (G : HeapI) (cenv : Ctor.PMap Ctor.Info) (B : Defs) : Prop :=
  ∀ mem mem' lo hi (cs : List CVal) (ord : Nat), G.good mem lo hi → cs ≠ [] → ord < 251 → lo + (cs.length + 1) ≤ hi →
    (∀ c ∈ cs, ∃ v, VRep G cenv B mem lo hi v c) → mem' lo = some (.int (cs.length * 1024 + ord)) →
    (∀ (k : Nat) c, cs[k]? = some c → mem' (lo + 1 + k) = some c) →
    (∀ a, a < lo ∨ lo + (cs.length + 1) ≤ a → mem' a = mem a) →
    G.good mem' (lo + (cs.length + 1)) hi ∧ G.obj mem' (lo + (cs.length + 1)) hi (lo + 1) ∧
      ∀ p, G.obj mem lo hi p → G.obj mem' (lo + (cs.length + 1)) hi p

theorem HeapI.top_laws (cenv : Ctor.PMap Ctor.Info) (B : Defs) : HeapI.top.Laws cenv B :=
  fun _ _ _ _ _ _ _ _ _ _ _ _ _ _ => ⟨trivial, trivial, fun _ _ => trivial⟩

/-- A state in which the collector may be called: the heap is well-formed, and the frames on the chain, each below the one
before it, hold only representations of values up to `next`, which is inside the array. -/
structure Th.Ok (G : HeapI) (cenv : Ctor.PMap Ctor.Info) (B : Defs) (h : Th) : Prop where
  heap : G.good h.mem h.alloc h.limit
  size : ∀ k, OnChain h k → (h.frames k).next ≤ (h.frames k).size
  down : ∀ k, OnChain h k → ∀ j, (h.frames k).prev = some j → j < k
  roots : ∀ k, OnChain h k → ∀ i, i < (h.frames k).next → ∃ c v, (h.frames k).roots i = some c ∧ h.Rep G cenv B v c

/-- What a copying collector does with the objects reachable from the roots: integers and code pointers are unchanged;
an object moves together with its header; words of scanned objects are forwarded, those of objects with tag 251 or more
(`No_scan_tag`) are copied. -/
structure Forwards (G : HeapI) (mem mem' : Nat → Option CVal) (lo' hi' : Nat) (R : CVal → CVal → Prop) : Prop where
  int : ∀ z c', R (.int z) c' → c' = .int z
  fn : ∀ f c', R (.fn f) c' → c' = .fn f
  ptr : ∀ p c' hd, R (.ptr p) c' → mem (p - 1) = some (.int hd) → 0 ≤ hd → ∃ p', c' = .ptr p' ∧
    mem' (p' - 1) = some (.int hd) ∧ Outside lo' hi' p' (hd / 1024).toNat ∧ G.obj mem' lo' hi' p' ∧
    ∀ (k : Nat) c, k < (hd / 1024).toNat → mem (p + k) = some c → ∃ d, mem' (p' + k) = some d ∧
      if hd % 256 < 251 then R c d else d = c

/-- The specification of the collector (the subject of C11-C17): called in a state as it should be, it gives up (out of
memory), or it keeps the frames, forwards every root of every frame on the chain, leaves at least `nalloc` free words and a
well-formed heap. -/
def GcOk (G : HeapI) (cenv : Ctor.PMap Ctor.Info) (B : Defs) (W : World) : Prop := ∀ h, h.Ok G cenv B → W.gc h = .abort ∨
  ∃ h', W.gc h = .ok h' ∧ h'.alloc + h.nalloc ≤ h'.limit ∧ h'.fp = h.fp ∧
  (∀ k, (h'.frames k).size = (h.frames k).size ∧ (h'.frames k).next = (h.frames k).next ∧
    (h'.frames k).prev = (h.frames k).prev) ∧ G.good h'.mem h'.alloc h'.limit ∧
  ∃ R, Forwards G h.mem h'.mem h'.alloc h'.limit R ∧
    ∀ k, OnChain h k → ∀ i, i < (h.frames k).next → ∀ c, (h.frames k).roots i = some c →
      ∃ c', (h'.frames k).roots i = some c' ∧ R c c'

/-- Between the two states the frames of the activations below depth `d` are unchanged, except that the roots of those on
the chain may have been moved: they still represent the same values. -/
structure Keeps (G : HeapI) (cenv : Ctor.PMap Ctor.Info) (B : Defs) (d : Nat) (h h' : Th) : Prop where
  fp : h'.fp = h.fp
  size : ∀ k, k < d → (h'.frames k).size = (h.frames k).size
  next : ∀ k, k < d → (h.frames k).next ≤ (h'.frames k).next
  prev : ∀ k, k < d → (h'.frames k).prev = (h.frames k).prev
  roots : ∀ k, k < d → OnChain h k → ∀ i, i < (h.frames k).next → ∀ c v, (h.frames k).roots i = some c →
    h.Rep G cenv B v c → ∃ c', (h'.frames k).roots i = some c' ∧ h'.Rep G cenv B v c'

/-- The specification of the primitives: on representations of the arguments they return a representation of the result.
Those with access to the thread information may allocate and collect. -/
structure PrimsOk (G : HeapI) (S : Sig) (alloc : Tag → Option Bool) (B : Defs) (W : World) : Prop where
  pure : ∀ p vs v cs mem lo hi, alloc p = some false → S.op p vs = some v → cs.length = vs.length →
    (∀ (i : Nat) w c, vs[i]? = some w → cs[i]? = some c → VRep G S.cenv B mem lo hi w c) →
    ∃ c, W.prim p cs mem = some c ∧ VRep G S.cenv B mem lo hi v c
  heap : ∀ p vs v cs h d, alloc p = some true → S.op p vs = some v → cs.length = vs.length → h.alloc ≤ h.limit →
    (∀ k, OnChain h k → k < d) → h.Ok G S.cenv B → (∀ (i : Nat) w c, vs[i]? = some w → cs[i]? = some c → h.Rep G S.cenv B w c) →
    W.primT p cs h = .abort ∨
    ∃ c h', W.primT p cs h = .ret c h' ∧ h'.Rep G S.cenv B v c ∧ Keeps G S.cenv B d h h' ∧ h'.alloc ≤ h'.limit ∧ h'.Ok G S.cenv B

/-- Constructors of one type have distinct representations: those without arguments distinct ordinals, those with
arguments distinct ordinals below 251 (what C23 shows of the tags assigned by the compiler for types with at most 251
constructors with arguments). -/
structure CtorsOk (cenv : Ctor.PMap Ctor.Info) : Prop where
  small : ∀ t i, cenv t = some i → i.arity ≠ 0 → i.ordinal < 251
  distinct : ∀ t t' i i', cenv t = some i → cenv t' = some i' → i.indTag = i'.indTag → (i.arity = 0 ↔ i'.arity = 0) →
    i.ordinal = i'.ordinal → t = t'

mutual
/-- Constructors of known tags are fully applied, calls through a tag all pass the same number of arguments, and there are
no float or string literals. -/
def OkE (cenv : Ctor.PMap Ctor.Info) (ar : Tag → Nat) : Exp → Prop
  | .constr _ t ys e => (∃ i, cenv t = some i ∧ i.arity = ys.length) ∧ OkE cenv ar e
  | .case _ bs => OkBs cenv ar bs
  | .proj _ _ _ _ e => OkE cenv ar e
  | .letapp _ _ ft ys e => ys.length = ar ft ∧ OkE cenv ar e
  | .fn B e => OkB cenv ar B ∧ OkE cenv ar e
  | .app _ ft ys => ys.length = ar ft
  | .primVal _ p e => (∃ n, p = .int n) ∧ OkE cenv ar e
  | .prim _ _ _ e => OkE cenv ar e
  | .halt _ => True
/-- The same for branches. -/
def OkBs (cenv : Ctor.PMap Ctor.Info) (ar : Tag → Nat) : Brs → Prop
  | .nil => True
  | .cons t e bs => (∃ i, cenv t = some i) ∧ OkE cenv ar e ∧ OkBs cenv ar bs
/-- The same for functions: each takes the number of arguments belonging to its tag. -/
def OkB (cenv : Ctor.PMap Ctor.Info) (ar : Tag → Nat) : Defs → Prop
  | .nil => True
  | .cons _ ft xs e B => xs.length = ar ft ∧ OkE cenv ar e ∧ OkB cenv ar B
end

mutual
/-- What the backend is given: constructors of known tags fully applied, no float or string literals, and calls and
functions with at most 1024 arguments.  Nothing is said of whether calls pass as many arguments as functions take. -/
def SeenE (cenv : Ctor.PMap Ctor.Info) : Exp → Prop
  | .constr _ t ys e => (∃ i, cenv t = some i ∧ i.arity = ys.length) ∧ SeenE cenv e
  | .case _ bs => SeenBs cenv bs
  | .proj _ _ _ _ e => SeenE cenv e
  | .letapp _ _ _ ys e => ys.length ≤ 1024 ∧ SeenE cenv e
  | .fn B e => SeenB cenv B ∧ SeenE cenv e
  | .app _ _ ys => ys.length ≤ 1024
  | .primVal _ p e => (∃ n, p = .int n) ∧ SeenE cenv e
  | .prim _ _ _ e => SeenE cenv e
  | .halt _ => True
/-- The same for branches. -/
def SeenBs (cenv : Ctor.PMap Ctor.Info) : Brs → Prop
  | .nil => True
  | .cons t e bs => (∃ i, cenv t = some i) ∧ SeenE cenv e ∧ SeenBs cenv bs
/-- The same for functions. -/
def SeenB (cenv : Ctor.PMap Ctor.Info) : Defs → Prop
  | .nil => True
  | .cons _ _ xs e B => xs.length ≤ 1024 ∧ SeenE cenv e ∧ SeenB cenv B
end

end CGen
