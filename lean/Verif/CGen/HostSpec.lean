import Verif.CGen.HostModel
import Verif.CGen.Spec

/-!
# What a C program that uses compiled code relies on
-/

namespace CGen

open ANF

/-- Applying a closure (a record of code and environment) to an argument. -/
def applyClo (S : Sig) (n : Nat) : Val → Val → Res
  | .constr _ [.fn ρ B f, env], a => match findDef f B with
    | some (_, xs, e) => match setLists xs [env, a] (defFuns B B ρ ρ) with
      | some ρ' => run S n ρ' e
      | none => .stuck
    | none => .stuck
  | _, _ => .stuck

/-- Values at positions. -/
def pick (vs : List Val) : List Nat → Option (List Val)
  | [] => some []
  | i :: is => match vs[i]?, pick vs is with
    | some v, some ws => some (v :: ws)
    | _, _ => none

/-- What an operation of the C program means for the compiled program `B`, `e`. -/
def srcOp (S : Sig) (B : Defs) (e : Exp) (n : Nat) (vs : List Val) : HostOp → Res
  | .main => run S n emp (.fn B e)
  | .call i j => match vs[i]?, vs[j]? with
    | some f, some a => applyClo S n f a
    | _, _ => .stuck
  | .enum t => match S.cenv t with
    | some i => if i.arity = 0 then .val (.constr t []) else .stuck
    | none => .stuck
  | .make t is => match S.cenv t, pick vs is with
    | some i, some ws => if i.arity = is.length ∧ i.arity ≠ 0 then .val (.constr t ws) else .stuck
    | _, _ => .stuck
  | .field i k => match vs[i]? with
    | some (.constr _ ws) => match ws[k]? with
      | some v => .val v
      | none => .stuck
    | _ => .stuck

/-- Outcome of a sequence of operations: the values obtained. -/
inductive SRes
  | vals (vs : List Val)
  | oot
  | stuck

/-- A sequence of operations. -/
def srcRun (S : Sig) (B : Defs) (e : Exp) (n : Nat) : List HostOp → List Val → SRes
  | [], vs => .vals vs
  | o :: os, vs => match srcOp S B e n vs o with
    | .val v => srcRun S B e n os (vs ++ [v])
    | .oot => .oot
    | .stuck => .stuck

/-- The C program may go on: its frame is the only one on the list, its values are representations of `vs`. -/
structure Holds (G : HeapI) (cenv : Ctor.PMap Ctor.Info) (B : Defs) (vs : List Val) (h : Th) : Prop where
  fp : h.fp = some 0
  prev : (h.frames 0).prev = none
  next : vs.length ≤ (h.frames 0).next
  vals : ∀ (i : Nat) v, vs[i]? = some v → ∃ c, (h.frames 0).roots i = some c ∧ h.Rep G cenv B v c
  room : h.alloc ≤ h.limit
  ok : h.Ok G cenv B

end CGen
