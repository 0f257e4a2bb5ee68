import Verif.CGen.FfiModel

/-!
# What the callers of the functions generated for a foreign function see: specification

A caller holds a closure.  The calling convention passes the first `np` of the values as C parameters and the others in
`tinfo->args`.  A closure that has received some arguments is described by what it holds, whatever else is in memory.
-/

namespace CGen.Ffi

open ANF (Var)

/-- The entries of `tinfo->args` after the values behind the first `np` are stored. -/
def passArgs (np : Nat) (vs : List CVal) (args : Nat → Option CVal) : Nat → Option CVal :=
  fun i => if np ≤ i ∧ i < vs.length then vs[i]? else args i

/-- An address that the free part of the nursery does not contain. -/
def Off (h : Th) (a : Nat) : Prop := a < h.alloc ∨ h.limit ≤ a

/-- An environment that holds these arguments, the last one received in front. -/
def EnvIs (h : Th) : CVal → List CVal → Prop
  | _, [] => True
  | c, a :: as => ∃ p c', c = .ptr p ∧ h.mem p = some a ∧ h.mem (p + 1) = some c' ∧ Off h p ∧ Off h (p + 1) ∧
      EnvIs h c' as

/-- A closure of function `f` that has received `as`, in this order. -/
def FClo (h : Th) (f : Var) (as : List CVal) (c : CVal) : Prop :=
  ∃ p e, c = .ptr p ∧ h.mem p = some (.fn f) ∧ h.mem (p + 1) = some e ∧ Off h p ∧ Off h (p + 1) ∧ EnvIs h e as.reverse

/-- A continuation: a closure with this code and environment. -/
def KIs (h : Th) (k kf ke : CVal) : Prop :=
  ∃ p, k = .ptr p ∧ h.mem p = some kf ∧ h.mem (p + 1) = some ke ∧ Off h p ∧ Off h (p + 1)

/-- The continuation is called with `r`, in a state that is `h` but for `tinfo->args`. -/
def contWith (np : Nat) (kf ke r : CVal) (h : Th) : FOut :=
  .cont kf ([ke, r].take np) { h with args := passArgs np [ke, r] h.args }

/-- What only `tinfo->args` may differ in. -/
def SameBut (h h' : Th) : Prop :=
  h'.mem = h.mem ∧ h'.alloc = h.alloc ∧ h'.limit = h.limit ∧ h'.nalloc = h.nalloc ∧ h'.fp = h.fp ∧ h'.frames = h.frames

/-- Memory grew by `n` words: nothing outside the free part of the nursery changed. -/
def Grew (n : Nat) (h h' : Th) : Prop :=
  (∀ a, Off h a → h'.mem a = h.mem a) ∧ h'.alloc = h.alloc + n ∧ h'.limit = h.limit ∧ h'.nalloc = h.nalloc ∧
    h'.fp = h.fp ∧ h'.frames = h.frames

/-- A call of a closure in continuation-passing style, as compiled code does it: the code is called with the environment,
the continuation and the argument. -/
def applyCps (ext : Ext) (n np : Nat) (P : List (Var × FFun)) (k c a : CVal) (h : Th) : FOut :=
  match rd h 0 (some c), rd h 1 (some c) with
  | some (.fn f), some e =>
    callF ext n P f ([e, k, a].take np) { h with args := passArgs np [e, k, a] h.args }
  | _, _ => .ub

/-- A call of a closure in direct style. -/
def applyDirect (ext : Ext) (n np : Nat) (P : List (Var × FFun)) (c a : CVal) (h : Th) : FOut :=
  match rd h 0 (some c), rd h 1 (some c) with
  | some (.fn f), some e =>
    callF ext n P f ([e, a].take np) { h with args := passArgs np [e, a] h.args }
  | _, _ => .ub

/-- What a continuation with this convention finds as its argument. -/
def received (np : Nat) : FOut → Option (CVal × Th)
  | .cont _ cs h => (if 2 ≤ np then cs[1]? else h.args 1).map (·, h)
  | _ => none

/-- Calls a closure with several arguments, one after the other. -/
def applyAll (ext : Ext) (n np : Nat) (P : List (Var × FFun)) (k c : CVal) : List CVal → Th → FOut
  | [], _ => .ub
  | [a], h => applyCps ext n np P k c a h
  | a :: as, h => match received np (applyCps ext n np P k c a h) with
    | some (r, h') => applyAll ext n np P k r as h'
    | none => .ub

/-- What the call is to a compiled caller in direct style, which then assigns the value of the call (`afterCall`). -/
def FOut.asCall (l : CGen.Loc) : FOut → Out
  | .done h => .norm l h
  | .ret c h => .ret c h
  | .cont _ _ _ => .ub
  | .ub => .ub

/-- A pair `(r, w)` at address `p`, with the header of a block of two fields. -/
def PairAt (h : Th) (p : Nat) (r w : CVal) : Prop :=
  h.mem (p - 1) = some (.int 2048) ∧ h.mem p = some r ∧ h.mem (p + 1) = some w

end CGen.Ffi
