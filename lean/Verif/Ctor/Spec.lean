import Verif.Ctor.Model

/-!
# Specification of constructor representations

What a user of compiled code and glue code relies on, stated without the functions of the model.
-/

namespace Ctor

/-- The ordinal of constructor `i`: the number of earlier constructors of the same kind (with or without arguments). -/
def specOrdinal (cs : List Cnstr) (i : Nat) : Nat :=
  match cs[i]? with
  | none => 0
  | some c =>
    if c.arity = 0 then ((cs.take i).filter fun d => d.arity = 0).length
    else ((cs.take i).filter fun d => d.arity ≠ 0).length

/-- Number of constructors with arguments. -/
def boxedCount (cs : List Cnstr) : Nat := (cs.filter fun d => d.arity ≠ 0).length

/-- What can be observed of a value without following its fields: an odd word is itself, an even word is a pointer to
a block whose header is the word before it and whose tag is the low byte of the header. -/
inductive Shape
  | imm (w : BitVec 64)
  | block (tag : Nat)
  deriving DecidableEq, Repr

/-- The shape of the value `v` in memory `m`. -/
def shapeOf (m : BitVec 64 → BitVec 64) (v : BitVec 64) : Shape :=
  if v.toNat % 2 = 1 then .imm v else .block ((m (v - 8)).toNat % 256)

/-- Declarations of constructor `c` as number `j` of type number `k` (called `t`) of block `kn`. -/
structure Declares (g : List (Kername × List Ityp)) (kn : Kername) (k j : Nat) (t : Ityp) (c : Cnstr) : Prop where
  block : ∃ tys, (kn, tys) ∈ g ∧ tys[k]? = some t
  ctor : t.ctors[j]? = some c

/-- The components of a qualified name, outermost first. -/
def ModPath.components : ModPath → List Str
  | .file dp => dp.reverse
  | .bound dp id _ => dp.reverse ++ [id]
  | .dot mp id => mp.components ++ [id]

/-- The components of a qualified name, outermost first, ending with the identifier. -/
def Kername.components (n : Kername) : List Str := n.mp.components ++ [n.id]

/-- A constructor list permuted by an `Extract Inductives` mapping: entry `i` of `perm` is the source index of the
constructor that takes position `i` (`apply_reordering`, cplugin/certirocq.ml). -/
def reorder (perm : List Nat) (cs : List Cnstr) : List Cnstr := perm.filterMap fun i => cs[i]?

end Ctor
