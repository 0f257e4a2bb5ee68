import Verif.CGen.Prim.IntModel

/-!
# What integer primitives mean

The meaning of the registered operations on Rocq's integers, and the operands for which runtime/prim_int63.c computes it
(C04-C07 show that it does not always).
-/

namespace CGen.Prim

open ANF

/-- The meaning of the operations (Rocq's `Uint63` and `Sint63`). The shift `asr` has a meaning below 63 only. -/
def Means : IntOp → List Nat → Wasm.PRes → Prop
  | .u op, ns, r => Wasm.Means op ns r
  | .divs, [x, y], r => r = .int (Uint63.divs x y)
  | .mods, [x, y], r => r = .int (Uint63.mods x y)
  | .asr, [x, y], r => y < 63 ∧ r = .int (Uint63.asr x y)
  | .lesb, [x, y], r => r = .bool (decide (Uint63.toSigned x ≤ Uint63.toSigned y))
  | .ltsb, [x, y], r => r = .bool (decide (Uint63.toSigned x < Uint63.toSigned y))
  | .compares, [x, y], r => r = .cmp (Uint63.compareInt (Uint63.toSigned x) (Uint63.toSigned y))
  | _, _, _ => False

/-- Operands for which the C function is right, whatever the state of the nursery. -/
def Safe : IntOp → List Nat → Prop
  | .u .ltb, [x, y] | .u .leb, [x, y] | .compares, [x, y] | .u .subc, [x, y] | .u .subcarryc, [x, y] => x < 2 ^ 62 ↔ y < 2 ^ 62
  | .mods, [x, y] => x < 2 ^ 62 ∧ y < 2 ^ 62
  | .asr, [x, _] => x < 2 ^ 62
  | .u .addc, [x, y] => x + y < 2 ^ 63
  | .u .addcarryc, [x, y] => x < y ∧ y < 2 ^ 62
  | .u .mulc, _ | .u .diveucl, _ | .u .diveucl21, _ => False
  | _, _ => True

/-- The primitives of the source program are integer operations on 63-bit integers, applied to safe operands only: on others
the program has no behaviour. -/
def SafeSig (S : Sig) (penv : Tag → Option IntOp) : Prop :=
  ∀ p ps v, S.prims p ps = some v → ∃ op ns r, penv p = some op ∧ ps = ns.map .int ∧ (∀ n ∈ ns, n < 2 ^ 63) ∧ Means op ns r ∧
    Wasm.Encodes S.cenv r v ∧ Safe op ns

end CGen.Prim
