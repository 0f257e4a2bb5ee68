import Verif.Wasm.ModModel

/-!
# Lemmas: typing of the emitted code
-/

namespace Wasm
open Instr

section iff
variable {C : VCtx} {is : List Instr} {st st' : List Ty}

theorem typed_nil : Typed C [] st st' ↔ st = st' :=
  ⟨fun h => by cases h; rfl, fun h => h ▸ .nil⟩
theorem typed_const {v} : Typed C (const v :: is) st st' ↔ v.Fits ∧ Typed C is (v.ty :: st) st' :=
  ⟨fun h => by cases h with | const h1 h2 => exact ⟨h1, h2⟩, fun h => .const h.1 h.2⟩
theorem typed_localGet {i} : Typed C (localGet i :: is) st st' ↔ ∃ t, C.locals[i]? = some t ∧ Typed C is (t :: st) st' :=
  ⟨fun h => by cases h with | localGet h1 h2 => exact ⟨_, h1, h2⟩, fun ⟨_, h1, h2⟩ => .localGet h1 h2⟩
theorem typed_localSet {i t} : Typed C (localSet i :: is) (t :: st) st' ↔ C.locals[i]? = some t ∧ Typed C is st st' :=
  ⟨fun h => by cases h with | localSet h1 h2 => exact ⟨h1, h2⟩, fun ⟨h1, h2⟩ => .localSet h1 h2⟩
theorem typed_globalGet {i} : Typed C (globalGet i :: is) st st' ↔
    ∃ p, C.globals[i]? = some p ∧ Typed C is (p.2 :: st) st' :=
  ⟨fun h => by cases h with | globalGet h1 h2 => exact ⟨_, h1, h2⟩, fun ⟨_, h1, h2⟩ => .globalGet h1 h2⟩
theorem typed_globalSet {i t} : Typed C (globalSet i :: is) (t :: st) st' ↔
    C.globals[i]? = some (true, t) ∧ Typed C is st st' :=
  ⟨fun h => by cases h with | globalSet h1 h2 => exact ⟨h1, h2⟩, fun ⟨h1, h2⟩ => .globalSet h1 h2⟩
theorem typed_load {t off} : Typed C (load t off :: is) (.t32 :: st) st' ↔
    C.mems ≠ [] ∧ off < 2 ^ 32 ∧ Typed C is (t :: st) st' :=
  ⟨fun h => by cases h with | load h1 h2 h3 => exact ⟨h1, h2, h3⟩, fun ⟨h1, h2, h3⟩ => .load h1 h2 h3⟩
theorem typed_store {t off} : Typed C (store t off :: is) (t :: .t32 :: st) st' ↔
    C.mems ≠ [] ∧ off < 2 ^ 32 ∧ Typed C is st st' :=
  ⟨fun h => by cases h with | store h1 h2 h3 => exact ⟨h1, h2, h3⟩, fun ⟨h1, h2, h3⟩ => .store h1 h2 h3⟩
theorem typed_binop {t op} : Typed C (binop t op :: is) (t :: t :: st) st' ↔ Typed C is (t :: st) st' :=
  ⟨fun h => by cases h with | binop h => exact h, .binop⟩
theorem typed_relop {t op} : Typed C (relop t op :: is) (t :: t :: st) st' ↔ Typed C is (.t32 :: st) st' :=
  ⟨fun h => by cases h with | relop h => exact h, .relop⟩
theorem typed_unop {t op} : Typed C (unop t op :: is) (t :: st) st' ↔ Typed C is (t :: st) st' :=
  ⟨fun h => by cases h with | unop h => exact h, .unop⟩
theorem typed_eqz {t} : Typed C (eqz t :: is) (t :: st) st' ↔ Typed C is (.t32 :: st) st' :=
  ⟨fun h => by cases h with | eqz h => exact h, .eqz⟩
theorem typed_memorySize : Typed C (memorySize :: is) st st' ↔ C.mems ≠ [] ∧ Typed C is (.t32 :: st) st' :=
  ⟨fun h => by cases h with | memorySize h1 h2 => exact ⟨h1, h2⟩, fun ⟨h1, h2⟩ => .memorySize h1 h2⟩
theorem typed_memoryGrow : Typed C (memoryGrow :: is) (.t32 :: st) st' ↔ C.mems ≠ [] ∧ Typed C is (.t32 :: st) st' :=
  ⟨fun h => by cases h with | memoryGrow h1 h2 => exact ⟨h1, h2⟩, fun ⟨h1, h2⟩ => .memoryGrow h1 h2⟩
theorem typed_ifte {ts a b} : Typed C (ifte ts a b :: is) (.t32 :: st) st' ↔
    Typed { C with labels := ts :: C.labels } a [] ts.reverse ∧ Typed { C with labels := ts :: C.labels } b [] ts.reverse ∧
      Typed C is (ts.reverse ++ st) st' :=
  ⟨fun h => by cases h with | ifte h1 h2 h3 => exact ⟨h1, h2, h3⟩, fun ⟨h1, h2, h3⟩ => .ifte h1 h2 h3⟩
theorem typed_loop {a} : Typed C (loop a :: is) st st' ↔
    Typed { C with labels := [] :: C.labels } a [] [] ∧ Typed C is st st' :=
  ⟨fun h => by cases h with | loop h1 h2 => exact ⟨h1, h2⟩, fun ⟨h1, h2⟩ => .loop h1 h2⟩

end iff

theorem Typed.append {C : VCtx} {a b : List Instr} {s m e : List Ty} (h : Typed C a s m) (h2 : Typed C b m e) :
    Typed C (a ++ b) s e := by
  induction h with
  | nil => exact h2
  | const h1 _ ih => exact .const h1 (ih h2)
  | localGet h1 _ ih => exact .localGet h1 (ih h2)
  | localSet h1 _ ih => exact .localSet h1 (ih h2)
  | globalGet h1 _ ih => exact .globalGet h1 (ih h2)
  | globalSet h1 _ ih => exact .globalSet h1 (ih h2)
  | load h1 h3 _ ih => exact .load h1 h3 (ih h2)
  | store h1 h3 _ ih => exact .store h1 h3 (ih h2)
  | binop _ ih => exact .binop (ih h2)
  | relop _ ih => exact .relop (ih h2)
  | unop _ ih => exact .unop (ih h2)
  | eqz _ ih => exact .eqz (ih h2)
  | memorySize h1 _ ih => exact .memorySize h1 (ih h2)
  | memoryGrow h1 _ ih => exact .memoryGrow h1 (ih h2)
  | ifte h1 h3 _ _ _ ih => exact .ifte h1 h3 (ih h2)
  | loop h1 _ _ ih => exact .loop h1 (ih h2)
  | br h1 _ ih => exact .br h1 (ih h2)
  | ret _ ih => exact .ret (ih h2)
  | callIndirect h1 h3 _ ih => exact .callIndirect h1 h3 (ih h2)
  | returnCallIndirect h1 h3 h4 _ ih => exact .returnCallIndirect h1 h3 h4 (ih h2)
  | unreachable _ ih => exact .unreachable (ih h2)

/-- Contexts of the emitted functions, with `n` locals. -/
structure Good (C : VCtx) (n : Nat) : Prop where
  types : C.types = funTypes maxFunctionArgs
  tables : C.tables ≠ []
  mems : C.mems ≠ []
  globals : C.globals = [(true, .t32), (true, .t32), (true, .t32), (true, .t32), (true, .t64), (true, .t64), (true, .t64),
    (true, .t64)]
  locals : C.locals = List.replicate n .t32
  ret : C.ret = []

theorem Good.label {C : VCtx} {n : Nat} (h : Good C n) (ts : List Ty) : Good { C with labels := ts :: C.labels } n :=
  ⟨h.types, h.tables, h.mems, h.globals, h.locals, h.ret⟩

theorem Good.get {C : VCtx} {n i : Nat} (h : Good C n) (hi : i < n) : C.locals[i]? = some .t32 := by
  rw [h.locals]; simp [hi]

theorem funTypes_get : ∀ {k n : Nat}, n ≤ k → (funTypes k)[n]? = some ⟨List.replicate n .t32, []⟩
  | 0, n, h => by have : n = 0 := by omega
                  subst this; rfl
  | k + 1, 0, _ => rfl
  | k + 1, n + 1, h => by
    simp only [funTypes, List.getElem?_cons_succ, List.getElem?_map]
    rw [funTypes_get (by omega)]; rfl

theorem funTypes_length : ∀ k : Nat, (funTypes k).length = k + 1
  | 0 => rfl
  | k + 1 => by simp [funTypes, funTypes_length k]

/-- Turns typing of straight-line code into its side conditions. -/
macro "typed" hg:term "," extra:Lean.Parser.Tactic.simpLemma,* : tactic =>
  `(tactic| simp [typed_nil, typed_const, typed_localGet, typed_localSet, typed_globalGet, typed_globalSet, typed_load,
      typed_store, typed_binop, typed_relop, typed_unop, typed_eqz, typed_memorySize, typed_memoryGrow, typed_ifte,
      typed_loop, Val.Fits, Val.ty, ($hg).mems, ($hg).globals, globMemPtr, globCap, globResult, globOutOfMem, globTmp1,
      globTmp2, globTmp3, globTmp4, c32, c64, b64, w32, loadLocal, incMemPtr, bitmask, maxuint63, $extra,*])

section prim
variable {C : VCtx} {n x y z : Nat} {st : List Ty}

theorem typed_applyBinop (hg : Good C n) (hx : x < n) (hy : y < n) (op : Bin) (mask : Bool) :
    Typed C (applyBinop op x y mask) st (.t32 :: st) := by
  cases mask <;> typed hg, applyBinop, hg.get hx, hg.get hy

theorem typed_makeCarry (hg : Good C n) {ord g : Nat} (ho : ord < 2 ^ 32) (h : C.globals[g]? = some (true, .t64)) :
    Typed C (makeCarry ord g) st (.t32 :: st) := by
  rw [hg.globals] at h
  typed hg, makeCarry, h
  simpa using ho

theorem typed_makeProduct (hg : Good C n) {g1 g2 : Nat} (h1 : C.globals[g1]? = some (true, .t64))
    (h2 : C.globals[g2]? = some (true, .t64)) : Typed C (makeProduct g1 g2) st (.t32 :: st) := by
  rw [hg.globals] at h1 h2
  typed hg, makeProduct, h1, h2, pairOrd

theorem typed_div (hg : Good C n) (gx : C.locals[x]? = some .t32) (gy : C.locals[y]? = some .t32) :
    Typed C (divInstrs x y) st (.t32 :: st) := by typed hg, divInstrs, gx, gy

theorem typed_mod (hg : Good C n) (gx : C.locals[x]? = some .t32) (gy : C.locals[y]? = some .t32) :
    Typed C (modInstrs x y) st (.t32 :: st) := by typed hg, modInstrs, gx, gy

theorem typed_shift (hg : Good C n) (gx : C.locals[x]? = some .t32) (gy : C.locals[y]? = some .t32) (op : Bin) (mask : Bool) :
    Typed C (shiftInstrs x y op mask) st (.t32 :: st) := by cases mask <;> typed hg, shiftInstrs, gx, gy

theorem typed_boolCompare (hg : Good C n) (gx : C.locals[x]? = some .t32) (gy : C.locals[y]? = some .t32) (op : Rel) :
    Typed C (boolCompare x y op) st (.t32 :: st) := by typed hg, boolCompare, gx, gy, trueOrd, falseOrd

theorem typed_compare (hg : Good C n) (gx : C.locals[x]? = some .t32) (gy : C.locals[y]? = some .t32) :
    Typed C (compareInstrs x y) st (.t32 :: st) := by typed hg, compareInstrs, gx, gy, ltOrd, eqOrd, gtOrd

theorem typed_addCarry (hg : Good C n) (gx : C.locals[x]? = some .t32) (gy : C.locals[y]? = some .t32) (b : Bool) :
    Typed C (addCarryInstrs x y b) st (.t32 :: st) := by
  have hc := fun ts ord (ho : ord < 2 ^ 32) => typed_makeCarry (st := []) (g := globTmp1) (hg.label ts) ho (by simp [hg.globals, globTmp1])
  simp only [hg.globals, globTmp1] at hc
  have h1 := hc [.t32] c1Ord (by decide)
  have h0 := hc [.t32] c0Ord (by decide)
  cases b <;> typed hg, addCarryInstrs, gx, gy, h1, h0

theorem typed_subCarry (hg : Good C n) (gx : C.locals[x]? = some .t32) (gy : C.locals[y]? = some .t32) (b : Bool) :
    Typed C (subCarryInstrs x y b) st (.t32 :: st) := by
  have hc := fun ts ord (ho : ord < 2 ^ 32) => typed_makeCarry (st := []) (g := globTmp1) (hg.label ts) ho (by simp [hg.globals, globTmp1])
  simp only [hg.globals, globTmp1] at hc
  have h1 := hc [.t32] c1Ord (by decide)
  have h0 := hc [.t32] c0Ord (by decide)
  cases b <;> typed hg, subCarryInstrs, gx, gy, h1, h0

theorem typed_mulc (hg : Good C n) (gx : C.locals[x]? = some .t32) (gy : C.locals[y]? = some .t32) :
    Typed C (mulcInstrs x y) st (.t32 :: st) := by
  refine Typed.append (m := st) ?_ (typed_makeProduct hg (by simp [hg.globals, globTmp2]) (by simp [hg.globals, globTmp1]))
  typed hg, low32, high32, gx, gy

theorem typed_diveucl (hg : Good C n) (gx : C.locals[x]? = some .t32) (gy : C.locals[y]? = some .t32) :
    Typed C (diveuclInstrs x y) st (.t32 :: st) := by
  refine Typed.append (m := st) ?_ (typed_makeProduct hg (by simp [hg.globals, globTmp1]) (by simp [hg.globals, globTmp2]))
  typed hg, gx, gy

theorem typed_binary (hg : Good C n) (hx : x < n) (hy : y < n) {op : Primop} {is : List Instr}
    (h : translateBinary op x y = some is) : Typed C is st (.t32 :: st) := by
  have gx := hg.get hx
  have gy := hg.get hy
  cases op <;> simp only [translateBinary, Option.some.injEq, reduceCtorEq] at h <;> subst h
  all_goals first
    | with_reducible exact typed_applyBinop hg hx hy _ _
    | with_reducible exact typed_div hg gx gy
    | with_reducible exact typed_mod hg gx gy
    | with_reducible exact typed_shift hg gx gy _ _
    | with_reducible exact typed_boolCompare hg gx gy _
    | with_reducible exact typed_compare hg gx gy
    | with_reducible exact typed_addCarry hg gx gy _
    | with_reducible exact typed_subCarry hg gx gy _
    | with_reducible exact typed_mulc hg gx gy
    | with_reducible exact typed_diveucl hg gx gy

theorem typed_br_nil {C : VCtx} {k : Nat} {st st' : List Ty} (h : C.labels[k]? = some []) : Typed C [br k] st st' := by
  have := Typed.br (st := st) h (Typed.nil (C := C) (st := st'))
  simpa using this

theorem typed_div21Body (hg : Good C n) : Typed C diveucl21Body [] [] := by
  typed hg, diveucl21Body

theorem typed_ternary (hg : Good C n) (hx : x < n) (hy : y < n) (hz : z < n) {op : Primop} {is : List Instr}
    (h : translateTernary op x y z = some is) : Typed C is st (.t32 :: st) := by
  have gx := hg.get hx
  have gy := hg.get hy
  have gz := hg.get hz
  cases op <;> simp only [translateTernary, Option.some.injEq, reduceCtorEq] at h <;> subst h
  · have hb := typed_div21Body (((hg.label [.t32]).label []).label [])
    simp only [hg.globals] at hb
    typed hg, diveucl21Instrs, gx, gy, gz, makeProduct, pairOrd, diveucl21Loop
    refine hb.append ?_
    typed hg, typed_br_nil
  · typed hg, addmuldivInstrs, gx, gy, gz

theorem typed_primop (hg : Good C n) {js : List Nat} (hj : ∀ j ∈ js, j < n) {op : Primop} {is : List Instr}
    (h : translatePrimop op js = some is) : Typed C is st (.t32 :: st) := by
  unfold translatePrimop at h
  split at h
  · next x =>
    have hx := hg.get (hj x (by simp))
    cases op <;> simp only [translateUnary, Option.some.injEq, reduceCtorEq] at h <;> subst h
    · typed hg, head0Instrs, hx
    · typed hg, tail0Instrs, hx
  · exact typed_binary hg (hj _ (by simp)) (hj _ (by simp)) h
  · exact typed_ternary hg (hj _ (by simp)) (hj _ (by simp)) (hj _ (by simp)) h
  · simp at h

end prim

end Wasm
