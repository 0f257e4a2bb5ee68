import Verif.CGen.Prim.IntExample
import Verif.CGen.RtProps

/-!
# Property C57: programs with integer operations, linked with prim_int63.c

C01-C08 are about the functions of runtime/prim_int63.c one by one, C24 and C56 about programs whose primitives meet a
specification.  Here compiled programs call these functions, through the table of cplugin/PrimInt63.v.
-/

namespace CGen

open ANF Prim
open Uint63 (word)

/-- C57: on operands on which the C functions are right, the registered functions are what generated code relies on, with any
collector that is.  Missing: the other operands (refuted below) and the operations that return pairs. -/
theorem C57_prims_partial {G : HeapI} {S : Sig} {penv : Tag → Option IntOp} {B : Defs} {W : World} (hS : SafeSig S penv)
    (hW : GcOk G S.cenv B W) (hC : CtorsOk S.cenv) (hG : G.Laws S.cenv B) (hp : W.prim = prim penv)
    (hpT : W.primT = primT penv W.gc) : PrimsOk G S (table penv) B W where
  pure p vs v cs mem lo hi ht hv hl hr := by
    obtain ⟨op, ns, r, w, h1, h2, h3, h4, h5, h6, rfl⟩ := op_inv hS hv
    have ht' : tinfo op = false := by simpa [table, h1] using ht
    obtain ⟨e, hres⟩ := pure_means ht' h3 h4 h6
    refine ⟨ofWord (resWord r), ?_, encodes_rep h5 hres⟩
    rw [hp, prim, h1, toWords_rep h2 hl h3 hr]
    simp only [e, Option.map_some]
  heap p vs v cs h d ht hv hl _ hb ok hr := by
    obtain ⟨op, ns, r, w, h1, h2, h3, h4, h5, h6, rfl⟩ := op_inv hS hv
    have ht' : tinfo op = true := by simpa [table, h1] using ht
    have := alloc_means hW hC hG ht' h3 h4 h6 h5 ok hb
    rw [hpT]
    simp only [primT, h1, toWords_rep h2 hl h3 hr]
    exact this

/-- C57: the operations that return pairs are right if there are enough free words: three, or six for `mulc` with both operands
at least `2^62`.  Missing: nothing makes sure that there are (see `C57_pair_refuted`). -/
theorem C57_pair_partial {G : HeapI} {S : Sig} {B : Defs} (hG : G.Laws S.cenv B) {penv : Tag → Option IntOp} {p : Tag} {op : IntOp}
    (gc : Th → GcRes) (hp : penv p = some op) {ns : List Nat} (hn : ∀ n ∈ ns, n < 2 ^ 63) {n k : Nat}
    (hM : Means op ns (.pair (n, k))) {t : Tag} (ht : Wasm.HasCtor S.cenv t 2 0) (hnk : n < 2 ^ 63 ∧ k < 2 ^ 63) {h : Th} {d : Nat}
    (ok : h.Ok G S.cenv B) (hb : ∀ k, OnChain h k → k < d)
    (hc : ∀ x y, op = .u .mulc → ns = [x, y] →
      (x < 2 ^ 62 ∨ y < 2 ^ 62 ∨ x % 4 ≠ 1 ∨ x * (y - 2 ^ 62) % 2 ^ 63 < 2 ^ 62) ∧ (2 ^ 62 ≤ x → 2 ^ 62 ≤ y → h.alloc + 6 ≤ h.limit))
    (hroom : h.alloc + 3 ≤ h.limit) :
    ∃ c h', primT penv gc p (ns.map fun n : Nat => .int (n * 2 + 1)) h = .ret c h' ∧
      h'.Rep G S.cenv B (.constr t [.prim (.int n), .prim (.int k)]) c ∧ Keeps G S.cenv B d h h' ∧ h'.alloc ≤ h'.limit ∧
      h'.Ok G S.cenv B := by
  have hw : toWords (ns.map fun n : Nat => CVal.int (n * 2 + 1)) = some (ns.map word) := by
    clear hM hc
    induction ns with
    | nil => rfl
    | cons m ns ih =>
      simp only [List.map_cons, toWords, toWord_int (hn m (by simp)), ih (fun m hm => hn m (List.mem_cons_of_mem _ hm))]
  simp only [primT, hp, hw]
  have fin : ∀ {h1 : Th}, h1.Ok G S.cenv B → h1.alloc + 3 ≤ h1.limit → Keeps G S.cenv B d h h1 →
      ∃ c h', mkPair (word n, word k) h1 = .ret c h' ∧ h'.Rep G S.cenv B (.constr t [.prim (.int n), .prim (.int k)]) c ∧
        Keeps G S.cenv B d h h' ∧ h'.alloc ≤ h'.limit ∧ h'.Ok G S.cenv B := by
    intro h1 ok1 r1 k1
    obtain ⟨c, h', a1, a2, a3, a4, a5, a6⟩ := mkPair_rep (d := d) hG ht hnk.1 hnk.2 ok1 r1
    exact ⟨c, h', a1, a2, k1.trans hb a3, by omega, a6⟩
  cases op with
  | u op =>
    cases op with
    | mulc =>
      match ns, hn, hM, hc with
      | [x, y], hn, hM, hc =>
        have hx := hn x (by simp)
        have hy := hn y (by simp)
        simp only [Means, Wasm.Means, Wasm.PRes.pair.injEq] at hM
        obtain ⟨hc1, hc2⟩ := hc x y rfl rfl
        have e := Int63.C07_mulc_partial hx hy hc1
        rw [← hM] at e
        simp only [cfun, List.map_cons, List.map_nil, allocFun]
        split
        · rw [e]; exact fin ok hroom Keeps.refl
        · rename_i hcond
          have hge : 2 ^ 62 ≤ x ∧ 2 ^ 62 ≤ y := by
            have key : ∀ z, z < 2 ^ 63 → ¬ (Int63.ulongVal (word z) >>> 62 = 0#64) → 2 ^ 62 ≤ z := by
              intro z hz hne
              by_contra hlt
              apply hne
              apply BitVec.eq_of_toNat_eq
              rw [BitVec.toNat_ushiftRight, Int63.ulongVal_word hz, Nat.shiftRight_eq_div_pow]
              show z / 2 ^ 62 = 0
              exact Nat.div_eq_of_lt (by omega)
            exact ⟨key x hx (fun h0 => hcond (.inl h0)), key y hy (fun h0 => hcond (.inr h0))⟩
          have r6 := hc2 hge.1 hge.2
          obtain ⟨a, b, ea, eb, e1⟩ : ∃ a b : Nat, a < 2 ^ 63 ∧ b < 2 ^ 63 ∧
              Int63.mulcAux (Int63.ulongVal (word x)) (Int63.ulongVal (word y) ^^^ (1 <<< 62)) = (word a, word b) := by
            have key : ∀ w : Int63.W, ∃ a : Nat, a < 2 ^ 63 ∧ Int63.valLong w = word a := fun w =>
              ⟨w.toNat % 2 ^ 63, Nat.mod_lt _ (by decide), Int63.valLong_eq_word w⟩
            obtain ⟨a, ha, ea⟩ := key (Int63.mulcAuxRaw (Int63.ulongVal (word x)) (Int63.ulongVal (word y) ^^^ (1 <<< 62))).1
            obtain ⟨b, hb, eb⟩ := key (Int63.mulcAuxRaw (Int63.ulongVal (word x)) (Int63.ulongVal (word y) ^^^ (1 <<< 62))).2
            exact ⟨a, b, ha, hb, by rw [← ea, ← eb]; rfl⟩
          obtain ⟨c1, h1, a1, a2, a3, a4, a5, a6⟩ := mkPair_rep (d := d) hG ht ea eb ok hroom
          rw [e1, a1]
          simp only
          rw [e]
          exact fin a6 (by omega) a3
    | diveucl =>
      match ns, hn, hM with
      | [x, y], hn, hM =>
        simp only [Means, Wasm.Means, Wasm.PRes.pair.injEq] at hM
        have e := Int63.C07_diveucl (hn x (by simp)) (hn y (by simp))
        rw [← hM] at e
        simp only [cfun, List.map_cons, List.map_nil, allocFun, e]
        exact fin ok hroom Keeps.refl
    | diveucl21 =>
      match ns, hn, hM with
      | [x, y, z], hn, hM =>
        simp only [Means, Wasm.Means, Wasm.PRes.pair.injEq] at hM
        have e := Int63.C07_diveucl21 (hn x (by simp)) (hn y (by simp)) (hn z (by simp))
        rw [← hM] at e
        simp only [cfun, List.map_cons, List.map_nil, allocFun, e]
        exact fin ok hroom Keeps.refl
    | _ =>
      exfalso
      match ns, hM with
      | [], hM => simp [Means, Wasm.Means] at hM
      | [_], hM => simp [Means, Wasm.Means] at hM
      | [_, _], hM => simp [Means, Wasm.Means] at hM
      | [_, _, _], hM => simp [Means, Wasm.Means] at hM
      | _ :: _ :: _ :: _ :: _, hM => simp [Means, Wasm.Means] at hM
  | _ =>
    exfalso
    match ns, hM with
    | [], hM => simp [Means] at hM
    | [_], hM => simp [Means] at hM
    | [_, _], hM => simp [Means] at hM
    | _ :: _ :: _ :: _, hM => simp [Means] at hM

/-- A program with integer operations on safe operands, the runtime it is linked to and the place of both in memory. -/
structure Loaded63 (R : Rt) (a : Nat) (S : Sig) (C : Cfg) (penv : Tag → Option IntOp) (B : Defs) (e : Exp) (body : Var)
    (M : CFun × List CFun) : Prop where
  fits : R.Fits B
  nursery : 0 < a ∧ ∀ x, R.Static x → x < a ∨ a + GC.nurserySize ≤ x
  cenv : C.cenv = S.cenv
  ctors : CtorsOk S.cenv
  table : C.prims = Prim.table penv
  safe : SafeSig S penv
  result : C.result ∉ B.names
  compiled : compileC C body (.fn B e) = some M
  seen : SeenE S.cenv (.fn B e)
  binders : (Exp.fn B e).bv.Nodup
  closed : (Exp.fn B e).fv = ∅

/-- The runtime: the collector of C56 and the integer operations, which call it. -/
noncomputable def Rt.world63 (R : Rt) (cenv : Ctor.PMap Ctor.Info) (B : Defs) (penv : Tag → Option IntOp) : World :=
  R.world cenv B (prim penv) (primT penv (R.collect cenv B))

section
variable {R : Rt} {a : Nat} {S : Sig} {C : Cfg} {penv : Tag → Option IntOp} {B : Defs} {e : Exp} {body : Var} {M : CFun × List CFun}

theorem Loaded63.loaded (h : Loaded63 R a S C penv B e body M) :
    Loaded R a S C (prim penv) (primT penv (R.collect S.cenv B)) B e body M :=
  ⟨h.fits, h.nursery, h.cenv, h.ctors, by
    rw [h.table]
    exact C57_prims_partial h.safe (C56_collector h.fits h.ctors _ _) h.ctors (C56_allocation h.fits) rfl rfl,
    h.result, h.compiled, h.seen, h.binders, h.closed⟩

/-- C57: a program with integer operations, compiled to C and linked with the collector and prim_int63.c, returns what it should
or is aborted, as long as the operands are safe. -/
theorem C57_returns_partial (hL : Loaded63 R a S C penv B e body M) {v : Val} (hr : Returns S emp (.fn B e) v) (d : Nat) :
    ∃ n, runC (R.world63 S.cenv B penv) M n d (R.start a) = .abort ∨
      ∃ c h', runC (R.world63 S.cenv B penv) M n d (R.start a) = .ret c h' ∧
        VRep R.heapI S.cenv B h'.mem h'.alloc h'.limit v c := C56_returns_partial hL.loaded hr d

/-- C57: it has no undefined behaviour. -/
theorem C57_defined_partial (hL : Loaded63 R a S C penv B e body M) (hw : ¬ GoesWrong S emp (.fn B e)) (n d : Nat) :
    runC (R.world63 S.cenv B penv) M n d (R.start a) ≠ .ub := C56_defined_partial hL.loaded hw n d

/-- C57: if it does not terminate, neither does the compiled program. -/
theorem C57_diverges_partial (hL : Loaded63 R a S C penv B e body M) (hr : Diverges S emp (.fn B e)) (n d : Nat) :
    runC (R.world63 S.cenv B penv) M n d (R.start a) = .abort ∨ runC (R.world63 S.cenv B penv) M n d (R.start a) = .oot :=
  C56_diverges_partial hL.loaded hr n d

end

/-! ## Programs on which it fails -/

/-- C57 fails for the signed comparison, which is registered with the function for the unsigned one: a program that compares
two integers gets the right answer only if both are negative or both are not. -/
theorem C57_compares_refuted {x y : Nat} (hx : x < 2 ^ 63) (hy : y < 2 ^ 63) (gc : Th → GcRes) :
    ∃ M v, compileC (opCfg .compares) 1 (.fn .nil (opMain x y)) = some M ∧
      Returns (opSig fun x y => some (.con (cmpTag (Uint63.compareInt (Uint63.toSigned x) (Uint63.toSigned y))) [])) emp
        (.fn .nil (opMain x y)) v ∧
      ∀ n d h, ∃ c h', runC (world (opEnv .compares) gc) M n d h = .ret c h' ∧
        ∀ G mem lo hi, VRep G cenv63 .nil mem lo hi v c ↔ (x < 2 ^ 62 ↔ y < 2 ^ 62) := by
  obtain ⟨M, hM, hrun⟩ := op_run (op := .compares) rfl gc hx hy
  refine ⟨M, _, hM, op_returns rfl, fun n d h => ?_⟩
  have e : pureFun (cfun .compares) [word x, word y] = some (Uint63.cmpWord (Uint63.compareInt x y)) := Int63.C04_compare hx hy
  have hr := hrun n d h
  rw [e] at hr
  obtain ⟨h', hr⟩ := hr
  refine ⟨_, h', hr, fun G mem lo hi => ?_⟩
  rw [cmp_rep]
  constructor
  · intro h; exact cmp_sides hx hy h
  · exact compares_eq

/-- C57 fails for the unsigned order: a program gets the right answer only for operands on the same side of `2^62`. -/
theorem C57_order_refuted {x y : Nat} (hx : x < 2 ^ 63) (hy : y < 2 ^ 63) (gc : Th → GcRes) :
    ∃ M v, compileC (opCfg (.u .ltb)) 1 (.fn .nil (opMain x y)) = some M ∧
      Returns (opSig fun x y => some (.con (if x < y then 101 else 100) [])) emp (.fn .nil (opMain x y)) v ∧
      ∀ n d h, ∃ c h', runC (world (opEnv (.u .ltb)) gc) M n d h = .ret c h' ∧
        ∀ G mem lo hi, VRep G cenv63 .nil mem lo hi v c ↔ (x < 2 ^ 62 ↔ y < 2 ^ 62) := by
  obtain ⟨M, hM, hrun⟩ := op_run (op := .u .ltb) rfl gc hx hy
  refine ⟨M, _, hM, op_returns rfl, fun n d h => ?_⟩
  have hr := hrun n d h
  simp only [cfun, pureFun] at hr
  obtain ⟨h', hr⟩ := hr
  refine ⟨_, h', hr, fun G mem lo hi => ?_⟩
  rw [← Int63.C04_ltb_wrong_iff hx hy, Int63.C04_ltb_is_signed hx hy]
  have := bool_rep (G := G) (mem := mem) (lo := lo) (hi := hi) (b := decide (x < y)) (b' := decide (Uint63.toSigned x < Uint63.toSigned y))
  simp only [decide_eq_true_eq] at this
  refine Iff.trans this ⟨congrArg _, fun h => ?_⟩
  clear this
  revert h
  generalize decide (Uint63.toSigned x < Uint63.toSigned y) = b
  generalize decide (x < y) = b'
  revert b b'
  decide

/-- C57 fails for the addition with carry: no program ever gets a carry. -/
theorem C57_carry_refuted {x y : Nat} (hx : x < 2 ^ 63) (hy : y < 2 ^ 63) (hc : 2 ^ 63 ≤ x + y) (gc : Th → GcRes) :
    ∃ M v, compileC (opCfg (.u .addc)) 1 (.fn .nil (opMain x y)) = some M ∧
      Returns (opSig fun x y => some (.con (if x + y < 2 ^ 63 then 120 else 121) [.prim (.int ((x + y) % 2 ^ 63))])) emp
        (.fn .nil (opMain x y)) v ∧
      ∀ n d h, h.alloc + 2 ≤ h.limit → ∃ c h', runC (world (opEnv (.u .addc)) gc) M n d h = .ret c h' ∧
        ∀ G, ¬ h'.Rep G cenv63 .nil v c := by
  obtain ⟨M, hM, hrun⟩ := op_runT (op := .u .addc) rfl gc hx hy
  refine ⟨M, _, hM, op_returns rfl, fun n d h hroom => ?_⟩
  obtain ⟨h1, e1, e2, e3, hr⟩ := hrun n d h
  have e : allocFun gc (cfun (.u .addc)) [word x, word y] h1 = mkCarry gc 1024 (ofWord (word ((x + y) % 2 ^ 63))) h1 := by
    simp only [cfun, allocFun, Int63.C06_addc_never_carries hx hy, mkCarryRes]
  rw [e, mkCarry, if_pos (by omega), store, if_pos (by simp; omega)] at hr
  refine ⟨_, _, hr, fun G hv => ?_⟩
  rw [if_neg (by omega)] at hv
  cases hv with
  | boxed h1 h2 h3 h4 h5 =>
    simp [cenv63] at h1
    subst h1
    simp at h5

/-- C57 fails for the operations that return pairs: they do not check for space. A program that divides, started with fewer than
three free words, writes behind the end of the nursery, whatever the collector. -/
theorem C57_pair_refuted {x y : Nat} (hx : x < 2 ^ 63) (hy : y < 2 ^ 63) (gc : Th → GcRes) :
    ∃ M v, compileC (opCfg (.u .diveucl)) 1 (.fn .nil (opMain x y)) = some M ∧
      Returns (opSig fun x y => some (.con 130 [.prim (.int (Uint63.diveucl x y).1), .prim (.int (Uint63.diveucl x y).2)])) emp
        (.fn .nil (opMain x y)) v ∧
      ∀ n d h, h.limit < h.alloc + 3 → runC (world (opEnv (.u .diveucl)) gc) M n d h = .ub := by
  obtain ⟨M, hM, hrun⟩ := op_runT (op := .u .diveucl) rfl gc hx hy
  refine ⟨M, _, hM, op_returns rfl, fun n d h hroom => ?_⟩
  obtain ⟨h1, e1, e2, e3, hr⟩ := hrun n d h
  simp only [cfun, allocFun, Int63.C07_diveucl hx hy, mkPair, store] at hr
  rw [if_neg (by simp; omega)] at hr
  exact hr

/-! ## A program on which it holds -/

/-- The addition with carry, on operands without one. -/
def addcSafe (x y : Nat) : Option FO := if x + y < 2 ^ 63 then some (.con 120 [.prim (.int (x + y))]) else none

theorem addc_safe : SafeSig (opSig addcSafe) (opEnv (.u .addc)) := by
  intro p ps v h
  simp only [opSig] at h
  split at h
  · rename_i x y
    simp only [addcSafe] at h
    split at h
    case isFalse => cases h
    rename_i hxy
    cases h
    refine ⟨.u .addc, [x, y], .carry (.C0 (x + y)), rfl, rfl, ?_, ?_, ?_, ?_⟩
    · intro n hn
      simp at hn
      omega
    · show Wasm.PRes.carry _ = .carry (if x + y < 2 ^ 63 then _ else _)
      rw [if_pos hxy]
    · exact ⟨120, ⟨⟨none, none, 2, 1, 0⟩, rfl, rfl, rfl⟩, hxy, rfl⟩
    · exact hxy
  · cases h

theorem cenv63_ok : CtorsOk cenv63 := by
  constructor
  · intro t i h
    simp only [cenv63] at h
    split_ifs at h <;> simp at h <;> subst h <;> simp
  · have key : ∀ t i, cenv63 t = some i → t = 100 + 10 * i.indTag + i.ordinal := by
      intro t i h
      simp only [cenv63] at h
      split_ifs at h <;> simp only [Option.some.injEq, reduceCtorEq] at h <;> subst h <;> assumption
    intro t t' i i' h h' e1 _ e2
    rw [key t i h, key t' i' h', e1, e2]

/-- `addc 3 4`, compiled and linked with the collector and prim_int63.c, in the address space of C56. -/
example : ∃ M, Loaded63 arena 1024 (opSig addcSafe) (opCfg (.u .addc)) (opEnv (.u .addc)) .nil (opMain 3 4) 1 M ∧
    Returns (opSig addcSafe) emp (.fn .nil (opMain 3 4)) (.constr 120 [.prim (.int 7)]) := by
  obtain ⟨M, hM, _⟩ := op_runT (op := .u .addc) (x := 3) (y := 4) rfl (fun _ => .abort) (by decide) (by decide)
  exact ⟨M, ⟨arena_fits _ (by decide), arena_nursery, rfl, cenv63_ok, rfl, addc_safe, by decide, hM,
    by simp [SeenE, SeenB, opMain], by decide, by decide⟩, op_returns (v := .con 120 [.prim (.int 7)]) rfl⟩

/-- Operands on which the signed comparison is wrong: -1 and 1. -/
example : ¬ ((2 ^ 63 - 1) < 2 ^ 62 ↔ 1 < 2 ^ 62) := by decide

/-- A state in which the division has enough room. -/
example : (arena.start 1024).Ok arena.heapI cenv63 .nil ∧ (arena.start 1024).alloc + 6 ≤ (arena.start 1024).limit :=
  ⟨(C56_start arena_nursery.1 arena_nursery.2).1, by show 1024 + 6 ≤ 1024 + GC.nurserySize; decide⟩

end CGen
