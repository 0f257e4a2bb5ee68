import Verif.CGen.Prim.IntLemmas
import Verif.CGen.Example

/-! # Programs with one integer operation -/

namespace CGen

open ANF Prim
open Uint63 (word)

/-- The constructors of `bool` (as reordered by cplugin/Loader.v:3), `comparison`, `carry` and `prod`. -/
def cenv63 (t : Tag) : Option Ctor.Info :=
  if t = 100 then some ⟨none, none, 0, 0, 0⟩ else if t = 101 then some ⟨none, none, 0, 0, 1⟩
  else if t = 110 then some ⟨none, none, 1, 0, 0⟩ else if t = 111 then some ⟨none, none, 1, 0, 1⟩
  else if t = 112 then some ⟨none, none, 1, 0, 2⟩
  else if t = 120 then some ⟨none, none, 2, 1, 0⟩ else if t = 121 then some ⟨none, none, 2, 1, 1⟩
  else if t = 130 then some ⟨none, none, 3, 2, 0⟩ else none

/-- The constructor of a comparison. -/
def cmpTag : Uint63.Cmp → Tag
  | .eq => 110
  | .lt => 111
  | .gt => 112

/-- The program `op x y`. -/
def opMain (x y : Nat) : Exp := .primVal 1 (.int x) (.primVal 2 (.int y) (.prim 3 0 [1, 2] (.halt 3)))

/-- Its primitive. -/
def opEnv (op : IntOp) (p : Tag) : Option IntOp := if p = 0 then some op else none

/-- A language with one operation. -/
def opSig (f : Nat → Nat → Option FO) : Sig := ⟨cenv63, fun p ps => match p, ps with
  | 0, [.int x, .int y] => f x y
  | _, _ => none⟩

/-- The configuration of the backend. -/
def opCfg (op : IntOp) : Cfg := ⟨2, 5, table (opEnv op), cenv63⟩

theorem op_returns {f : Nat → Nat → Option FO} {x y : Nat} {v : FO} (h : f x y = some v) :
    Returns (opSig f) emp (.fn .nil (opMain x y)) v.toVal := by
  refine ⟨5, ?_⟩
  simp [run, opMain, evalE, getList, Env.set, Sig.op, asPrims, opSig, h, defFuns]

/-- What the compiled program does for an operation without thread information. -/
theorem op_run {op : IntOp} (ht : tinfo op = false) (gc : Th → GcRes) {x y : Nat} (hx : x < 2 ^ 63) (hy : y < 2 ^ 63) :
    ∃ M, compileC (opCfg op) 1 (.fn .nil (opMain x y)) = some M ∧ ∀ n d h, match pureFun (cfun op) [word x, word y] with
      | some w => ∃ h', runC (world (opEnv op) gc) M n d h = .ret (ofWord w) h'
      | none => runC (world (opEnv op) gc) M n d h = .ub := by
  have hw : toWords [.int (x * 2 + 1), .int (y * 2 + 1)] = some [word x, word y] := by
    simp only [toWords, toWord_int hx, toWord_int hy]
  refine ⟨⟨⟨1, [], 0, _⟩, []⟩, by
    simp only [compileC, infoOk, if_true, trDefs, opMain, trE, opCfg, table, opEnv, Option.map_some, ht, List.length_cons, List.length_nil, mkCallVars, makeVar, Defs.names,
      List.not_mem_nil, if_false]; rfl, ?_⟩
  intro n d h
  simp only [runC, enter, exec, maxAllocsE, opMain, gcCall, if_true, compilePrim, evalC, evalCs, Loc.setT, List.length_nil, world, prim, opEnv]
  simp [hw]
  cases pureFun (cfun op) [word x, word y] with
  | none => simp
  | some w => simp

theorem op_around (c : CStmt) : aroundCall [1, 2, 3].toFinset 3 (.halt 3) .skip c =
    (.seq .skip (.seq .saveAlloc (.seq .saveLimit (.seq (.seq .skip (.seq .skip .skip)) (.seq c (.seq .loadAlloc (.seq .loadLimit
      (.seq .skip (.seq .skip .skip)))))))), 0) := by
  have h1 : ((Exp.halt 3).fv ∩ [1, 2, 3].toFinset).erase 3 = ∅ := by decide
  have h2 : elements ∅ = [] := by decide
  simp only [aroundCall, h1, h2, pushVars, pushAux, popVars, popAux, gcCall, maxAllocsE, if_true, updateStack, setStack, resetStack,
    true_or]

/-- What the compiled program does for an operation with thread information. -/
theorem op_runT {op : IntOp} (ht : tinfo op = true) (gc : Th → GcRes) {x y : Nat} (hx : x < 2 ^ 63) (hy : y < 2 ^ 63) :
    ∃ M, compileC (opCfg op) 1 (.fn .nil (opMain x y)) = some M ∧ ∀ n d (h : Th), ∃ h1 : Th, h1.mem = h.mem ∧ h1.alloc = h.alloc ∧
      h1.limit = h.limit ∧ match allocFun gc (cfun op) [word x, word y] h1 with
      | .ret c h2 => runC (world (opEnv op) gc) M n d h = .ret c h2
      | .abort => runC (world (opEnv op) gc) M n d h = .abort
      | .oot => runC (world (opEnv op) gc) M n d h = .oot
      | _ => runC (world (opEnv op) gc) M n d h = .ub := by
  have hw : toWords [.int (x * 2 + 1), .int (y * 2 + 1)] = some [word x, word y] := by
    simp only [toWords, toWord_int hx, toWord_int hy]
  have hl : (localsE (opMain x y)).toFinset = [1, 2, 3].toFinset := rfl
  refine ⟨⟨⟨1, [], 0, _⟩, []⟩, by
    simp only [compileC, infoOk, if_true, trDefs, hl]
    simp only [opMain, trE, opCfg, table, opEnv, Option.map_some, ht, List.length_cons, List.length_nil, mkCallVars, makeVar, Defs.names,
      List.not_mem_nil, if_false, if_true, op_around]
    rfl, ?_⟩
  intro n d h
  simp only [runC, enter, exec, maxAllocsE, gcCall, if_true, compilePrim, evalC, evalCs, Loc.setT, List.length_nil, world, primT, opEnv]
  simp [hw]
  refine ⟨{ (h.setFrame d ⟨0, 0, none, fun _ => none⟩).setFrame d
    { (h.setFrame d ⟨0, 0, none, fun _ => none⟩).frames d with next := 0, prev := (h.setFrame d ⟨0, 0, none, fun _ => none⟩).fp } with
      alloc := (h.setFrame d ⟨0, 0, none, fun _ => none⟩).alloc, limit := (h.setFrame d ⟨0, 0, none, fun _ => none⟩).limit },
    rfl, rfl, rfl, ?_⟩
  generalize allocFun gc (cfun op) [word x, word y] _ = o
  cases o <;> simp [afterCall, Loc.setT]

/-- A constructor without arguments is represented by one word. -/
theorem enum_rep {G : HeapI} {cenv B mem lo hi} {t : Tag} {c : CVal} (h : VRep G cenv B mem lo hi (.constr t []) c) :
    ∃ i, cenv t = some i ∧ c = .int (2 * i.ordinal + 1) := by
  generalize hw : Val.constr t [] = w at h
  cases h with
  | enum h1 _ => cases hw; exact ⟨_, h1, rfl⟩
  | boxed _ _ h3 => cases hw; simp at h3
  | _ => cases hw

theorem cmp_rep {G : HeapI} {mem lo hi} {a b : Uint63.Cmp} :
    VRep G cenv63 .nil mem lo hi (FO.con (cmpTag a) []).toVal (ofWord (Uint63.cmpWord b)) ↔ a = b := by
  constructor
  · intro hv
    obtain ⟨i, h1, h2⟩ := enum_rep hv
    cases a <;> simp [cenv63, cmpTag] at h1 <;> subst h1 <;> cases b <;> first | rfl | (exfalso; revert h2; decide)
  · rintro rfl
    cases a
    · exact .enum (i := ⟨none, none, 1, 0, 0⟩) rfl rfl
    · exact .enum (i := ⟨none, none, 1, 0, 1⟩) rfl rfl
    · exact .enum (i := ⟨none, none, 1, 0, 2⟩) rfl rfl

theorem bool_rep {G : HeapI} {mem lo hi} {b b' : Bool} :
    VRep G cenv63 .nil mem lo hi (.constr (if b then 101 else 100) []) (ofWord (Uint63.boolWord b')) ↔ b' = b := by
  constructor
  · intro hv
    obtain ⟨i, h1, h2⟩ := enum_rep hv
    cases b <;> simp [cenv63] at h1 <;> subst h1 <;> cases b' <;> first | rfl | (exfalso; revert h2; decide)
  · rintro rfl
    cases b'
    · exact .enum (i := ⟨none, none, 0, 0, 0⟩) rfl rfl
    · exact .enum (i := ⟨none, none, 0, 0, 1⟩) rfl rfl

theorem cmp_sides {x y : Nat} (hx : x < 2 ^ 63) (hy : y < 2 ^ 63)
    (h : Uint63.compareInt (Uint63.toSigned x) (Uint63.toSigned y) = Uint63.compareInt x y) : x < 2 ^ 62 ↔ y < 2 ^ 62 := by
  by_contra hne
  have hd : (x < 2 ^ 62 ∧ 2 ^ 62 ≤ y) ∨ (2 ^ 62 ≤ x ∧ y < 2 ^ 62) := by omega
  rcases hd with ⟨a, b⟩ | ⟨a, b⟩
  · simp only [Uint63.toSigned, Uint63.compareInt, if_pos a, if_neg (Nat.not_lt.2 b)] at h
    rw [if_neg (by omega), if_neg (by omega), if_neg (by omega), if_pos (by omega)] at h
    cases h
  · simp only [Uint63.toSigned, Uint63.compareInt, if_pos b, if_neg (Nat.not_lt.2 a)] at h
    rw [if_neg (by omega), if_pos (by omega), if_neg (by omega), if_neg (by omega)] at h
    cases h

end CGen
