import Verif.CGen.Cps.Model

/-!
# What the C backend for CPS programs has to guarantee
-/

namespace CGen.Cps

open ANF

/-- The collector as gc.h:102-118 describes it: it leaves as many free words as the table asks for, and forwards the
entries of `args` the table lists (those that hold values). -/
def GcOkV (cenv : Ctor.PMap Ctor.Info) (B : Defs) (W : VWorld) : Prop := ∀ i h h', W.gc i h = some h' →
  h'.alloc + i.need ≤ h'.limit ∧
  ∃ R, Forwards .top h.mem h'.mem h'.alloc h'.limit R ∧
    ∀ r ∈ i.roots, ∀ c, h.args r = some c → (∃ v, h.Rep .top cenv B v c) → ∃ c', h'.args r = some c' ∧ R c c'

/-- The collector does not move the end of the nursery. -/
def LimitKept (W : VWorld) : Prop := ∀ i h h', W.gc i h = some h' → h'.limit = h.limit

mutual
/-- No calls in the middle of a function (there are none in continuation-passing style) and no allocating primitives. -/
def PlainE (prims : Tag → Option Bool) : Exp → Prop
  | .constr _ _ _ e => PlainE prims e
  | .case _ bs => PlainBs prims bs
  | .proj _ _ _ _ e => PlainE prims e
  | .letapp _ _ _ _ _ => False
  | .fn B e => PlainB prims B ∧ PlainE prims e
  | .app _ _ _ => True
  | .primVal _ _ e => PlainE prims e
  | .prim _ p _ e => prims p ≠ some true ∧ PlainE prims e
  | .halt _ => True
/-- The same for branches. -/
def PlainBs (prims : Tag → Option Bool) : Brs → Prop
  | .nil => True
  | .cons _ e bs => PlainE prims e ∧ PlainBs prims bs
/-- The same for functions. -/
def PlainB (prims : Tag → Option Bool) : Defs → Prop
  | .nil => True
  | .cons _ _ _ e B => PlainE prims e ∧ PlainB prims B
end

/-- What a generated function has to do for a given result of the source program: leave a representation of the value in
`args[1]`; run out of the same call depth; or be aborted by the collector. -/
def SimV (cenv : Ctor.PMap Ctor.Info) (B : Defs) : Res → VOut → Prop
  | .val v, o => o = .abort ∨ ∃ c h', o = .done h' ∧ h'.args 1 = some c ∧ h'.Rep .top cenv B v c ∧ h'.alloc ≤ h'.limit
  | .oot, o => o = .abort ∨ o = .oot
  | .stuck, _ => True

end CGen.Cps
