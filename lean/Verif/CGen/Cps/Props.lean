import Verif.CGen.Cps.Example

/-!
# Properties C51 and C52: the C backend for programs in continuation-passing style

The collector is any one that does what gc.h:102-118 says (`GcOkV`); it may move every object.
-/

namespace CGen.Cps

open ANF

/-- A program the backend is given, with the runtime it is linked to: closed, binders distinct, constructors fully applied,
no more than 1024 parameters and arguments, no float and string literals, no calls in the middle of functions, no allocating primitives, and a collector that does not change the end of the nursery. -/
structure LinkedV (S : Sig) (C : Cfg) (W : VWorld) (B : Defs) (e : Exp) (body : Var) (M : VFun × List VFun) : Prop where
  cenv : C.cenv = S.cenv
  ctors : CtorsOk S.cenv
  gc : GcOkV S.cenv B W
  limit : LimitKept W
  prims : PrimsOk .top S C.prims B W.base
  compiled : compileV C body (.fn B e) = some M
  seen : SeenE S.cenv (.fn B e)
  plain : PlainE C.prims (.fn B e)
  binders : (Exp.fn B e).bv.Nodup
  closed : (Exp.fn B e).fv = ∅

variable {S : Sig} {C : Cfg} {W : VWorld} {ar : Tag → Nat} {B : Defs} {e : Exp} {body : Var} {M : VFun × List VFun}

/-- A program that meets all hypotheses: a recursive function with one argument in a C parameter and one in the argument
array, a match, allocation before and after a tail call, and a collector that moves everything. -/
theorem linked_tail : ∃ M, LinkedV sigNat cfgNat shiftWorld defsTail mainTail 1 M ∧
    Returns sigNat emp (.fn defsTail mainTail) (natVal 2) := by
  obtain ⟨M, hM⟩ := compiles_tail
  exact ⟨M, ⟨rfl, cenvNat_ok, shiftWorld_ok cenvNat_ok _, shiftWorld_limit, prims_none _ _ _ _, hM, seen_tail,
    by simp [PlainE, PlainB, PlainBs, defsTail, mainTail], by decide, by decide⟩, returns_tail⟩

/-- The backend accepts every program without nested functions whose primitives are known. -/
theorem C51_compiles (C : Cfg) (body : Var) (hok : OkE C.cenv ar (.fn B e)) (hB : FlatB C.prims B) (he : FlatE C.prims e) :
    ∃ M, compileV C body (.fn B e) = some M := compileV_total hok hB he

/-- Compiled programs return representations of the values the source programs return (or run out of memory). -/
theorem C51_returns_partial (hL : LinkedV S C W B e body M) {v : Val} (hr : Returns S emp (.fn B e) v) (h : Th)
    (hle : h.alloc ≤ h.limit) :
    ∃ n, runV W M n h = .abort ∨ ∃ c h', runV W M n h = .ret c h' ∧ VRep .top S.cenv B h'.mem h'.alloc h'.limit v c := by
  obtain ⟨n, hn⟩ := hr
  have := compileV_sim hL.cenv hL.ctors hL.gc hL.limit hL.prims hL.compiled hL.seen hL.plain hL.binders hL.closed n h hle
  rw [hn] at this
  rcases this with h1 | ⟨c, h', h1, h2, _⟩
  · exact ⟨n, .inl h1⟩
  · exact ⟨n, .inr ⟨c, h', h1, h2⟩⟩

/-- Started with a full nursery of 100 words, the program is not aborted: the collector runs and the program returns. -/
example : ∃ M, compileV cfgNat 1 (.fn defsTail mainTail) = some M ∧ ∃ c h', runV shiftWorld M 3 (th0 0) = .ret c h' :=
  ⟨_, rfl, _, _, rfl⟩

/-- Programs that do not terminate are compiled to programs that do not return. -/
theorem C51_diverges_partial (hL : LinkedV S C W B e body M) (hr : Diverges S emp (.fn B e)) (n : Nat) (h : Th)
    (hle : h.alloc ≤ h.limit) : runV W M n h = .abort ∨ runV W M n h = .oot := by
  have := compileV_sim hL.cenv hL.ctors hL.gc hL.limit hL.prims hL.compiled hL.seen hL.plain hL.binders hL.closed n h hle
  rw [hr n] at this
  exact this

/-- No store of the generated code is outside the free part of the nursery or of the argument array, and no uninitialised
variable is read, whatever the fill level of the nursery when the program starts. -/
theorem C51_no_overflow_partial (hL : LinkedV S C W B e body M) (hw : ¬ GoesWrong S emp (.fn B e)) (n : Nat) (h : Th)
    (hle : h.alloc ≤ h.limit) : runV W M n h ≠ .ub := by
  have := compileV_sim hL.cenv hL.ctors hL.gc hL.limit hL.prims hL.compiled hL.seen hL.plain hL.binders hL.closed n h hle
  intro hu
  rw [hu] at this
  cases hr : run S n emp (.fn B e) with
  | val v => rw [hr] at this; rcases this with h1 | ⟨_, _, h1, _⟩ <;> cases h1
  | oot => rw [hr] at this; rcases this with h1 | h1 <;> cases h1
  | stuck => exact hw ⟨n, hr⟩

/-- After the heap check at function entry the words the function needs are free and the parameters hold representations
of the values they had. -/
theorem C51_entry_partial {cenv : Ctor.PMap Ctor.Info} {vcall : Var → List CVal → Th → VOut} (hc : CtorsOk cenv)
    (hW : GcOkV cenv B W) (hk : LimitKept W) {xs : List Var} (hmax : xs.length ≤ 1024) (hxn : xs.Nodup)
    (hdis : ∀ y ∈ xs, y ∉ B.names) {need : Nat} {res : VStmt}
    (hres : reserveV xs.length B.names ⟨need, List.range xs.length⟩ xs (List.range xs.length) = some res)
    {vs : List Val} {cs : List CVal} {l : Loc} {h : Th} (hvl : xs.length = vs.length) (hcl : cs.length = vs.length)
    (hrep : ∀ (i : Nat) v c, vs[i]? = some v → cs[i]? = some c → h.Rep .top cenv B v c)
    (htmp : ∀ (i : Nat) x, xs[i]? = some x → l.temps x = cs[i]?)
    (hla : l.alloc = h.alloc) (hll : l.limit = h.limit) (hset : l.argsSet = true) (hle : h.alloc ≤ h.limit) :
    execV W vcall res l h = .abort ∨ ∃ (l' : Loc) (h' : Th) (cs' : List CVal), execV W vcall res l h = .norm l' h' ∧
      cs'.length = vs.length ∧ (∀ (i : Nat) v c, vs[i]? = some v → cs'[i]? = some c → h'.Rep .top cenv B v c) ∧
      (∀ (i : Nat) x, xs[i]? = some x → l'.temps x = cs'[i]?) ∧ l'.alloc = h'.alloc ∧ l'.alloc + need ≤ l'.limit := by
  rcases exec_reserveV (S := ⟨cenv, fun _ _ => none⟩) (vcall := vcall) (ar := fun _ => xs.length) (ft := 0) hc hW hk
    (fun _ => hmax) rfl hxn hdis hres hvl hcl hrep
    (fun i c hi hci => by have := (List.getElem?_eq_some_iff.mp hci).1; omega)
    (fun i x _ hx => htmp i x hx) hla hll hset hle with q | ⟨l', h', cs', q, q1, q2, q3, q4, q5, q6, q7, q8⟩
  · exact .inl q
  · exact .inr ⟨l', h', cs', q, q1, q2, fun i x hx => q4 i x (List.getElem?_eq_some_iff.mp hx).1 hx, q5, by omega⟩

/-- `limit` is not fetched again after a collection: with a collector that meets the specification but takes a new nursery,
a program writes outside the nursery. -/
theorem C51_limit_refuted : ∃ (S : Sig) (C : Cfg) (W : VWorld) (B : Defs) (e : Exp) (M : VFun × List VFun) (v : Val) (h : Th),
    CtorsOk S.cenv ∧ C.cenv = S.cenv ∧ GcOkV S.cenv B W ∧ PrimsOk .top S C.prims B W.base ∧ compileV C 1 (.fn B e) = some M ∧
    OkE S.cenv (fun _ => 2) (.fn B e) ∧ PlainE C.prims (.fn B e) ∧ (Exp.fn B e).bv.Nodup ∧ (Exp.fn B e).fv = ∅ ∧
    Returns S emp (.fn B e) v ∧ h.alloc ≤ h.limit ∧ runV W M 3 h = .ub := by
  obtain ⟨M, hM⟩ := compiles_tail
  refine ⟨sigNat, cfgNat, freshWorld, defsTail, mainTail, M, natVal 2, th0 0, cenvNat_ok, rfl, freshWorld_ok cenvNat_ok _,
    prims_none _ _ _ _, hM, ok_tail, by simp [PlainE, PlainB, PlainBs, defsTail, mainTail], by decide, by decide, returns_tail,
    Nat.le_refl _, ?_⟩
  have : M = (compileV cfgNat 1 (.fn defsTail mainTail)).get (by rw [hM]; rfl) := by simp [hM]
  rw [this]
  rfl

/-- Nothing limits the number of parameters of a function, but the argument array has 1024 entries: every program of the
following form with more arguments is accepted, returns a number by its semantics, and writes past the end of the array. -/
theorem C51_arguments_refuted {n : Nat} (hn : 1024 < n) : ∃ M, compileV cfgNat 1 (.fn (wideDefs n) (wideMain n)) = some M ∧
    (Exp.fn (wideDefs n) (wideMain n)).bv.Nodup ∧ (Exp.fn (wideDefs n) (wideMain n)).fv = ∅ ∧
    PlainE cfgNat.prims (.fn (wideDefs n) (wideMain n)) ∧
    Returns sigNat emp (.fn (wideDefs n) (wideMain n)) (natVal 0) ∧ ∀ fuel room, runV shiftWorld M fuel (th0 room) = .ub := by
  obtain ⟨M, hM⟩ := compileV_total (C := cfgNat) (ar := fun _ => n) (B := wideDefs n) (e := wideMain n) (body := 1)
    (wide_ok n) (by simp [FlatB, FlatE, wideDefs]) (by simp [FlatE, wideMain])
  refine ⟨M, hM, wide_bv n, wide_closed (by omega), by simp [PlainE, PlainB, wideDefs, wideMain], wide_returns (by omega), ?_⟩
  intro fuel room
  simp only [compileV] at hM
  split at hM
  case isFalse => cases hM
  split at hM
  case h_2 => cases hM
  rename_i P s _ htr
  simp only [Option.some.injEq] at hM
  subst hM
  simp only [wideMain, trV] at htr
  split at htr
  case h_2 => cases htr
  rename_i p s' hp hs'
  cases htr
  split at hs'
  case h_2 => cases hs'
  rename_i a ind hf
  split at hs'
  case h_2 => cases hs'
  rename_i asgn c ha hc
  cases hs'
  have hp' : p = .set 310 (.cst (.int 1)) := by
    simp [assignConstructor, ctorRep, cfgNat, cenvNat, Rep.tag] at hp
    exact hp.symm
  subst hp'
  have hub := fun W call me l h => wide_asgn hn hf ha (W := W) (call := call) (me := me) l h
  simp [runV, execV, exec, evalC, hub, loadRegs, reserveBody, th0, maxAllocsV, wideMain]

/-- With 1024 arguments the program returns. -/
example : ((compileV cfgNat 1 (.fn (wideDefs 1024) (wideMain 1024))).map fun M => match runV shiftWorld M 5 (th0 10) with
    | .ret (.int z) _ => z
    | _ => 0) = some 1 := by decide +kernel

/-- The words needed by float and string literals are not counted: a program consisting of a float literal, started with a
full nursery, writes past its end. -/
theorem C51_literal_refuted : ∃ (S : Sig) (C : Cfg) (W : VWorld) (p : Exp) (M : VFun × List VFun) (h : Th) (v : Val),
    GcOkV S.cenv .nil W ∧ LimitKept W ∧ PrimsOk .top S C.prims .nil W.base ∧ CtorsOk S.cenv ∧ compileV C 1 (.fn .nil p) = some M ∧
    Returns S emp (.fn .nil p) v ∧ PlainE C.prims p ∧ maxAllocsV p = 0 ∧ h.alloc ≤ h.limit ∧ ∀ n, runV W M n h = .ub := by
  refine ⟨sigNat, cfgNat, shiftWorld, .primVal 300 (.float 0) (.halt 300), _, th0 0, .prim (.float 0),
    shiftWorld_ok cenvNat_ok _, shiftWorld_limit, prims_none _ _ _ _, cenvNat_ok, rfl, ⟨0, rfl⟩, by simp [PlainE], rfl,
    Nat.le_refl _, fun n => ?_⟩
  rfl

/-- The same program run with two free words returns. -/
example : ∃ M, compileV cfgNat 1 (.fn .nil (.primVal 300 (.float 0) (.halt 300))) = some M ∧
    ∃ c h', runV shiftWorld M 0 (th0 2) = .ret c h' := ⟨_, rfl, _, _, rfl⟩

/-- There is no heap check after a primitive that allocates: if it uses up the nursery, what the program allocates
afterwards is written past its end. -/
theorem C51_primitive_refuted : ∃ (S : Sig) (C : Cfg) (W : VWorld) (p : Exp) (M : VFun × List VFun) (h : Th) (v : Val),
    GcOkV S.cenv .nil W ∧ LimitKept W ∧ PrimsOk .top S C.prims .nil W.base ∧ CtorsOk S.cenv ∧ compileV C 1 (.fn .nil p) = some M ∧
    OkE S.cenv (fun _ => 2) p ∧ Returns S emp (.fn .nil p) v ∧ h.alloc ≤ h.limit ∧ ∀ n, runV W M n h = .ub := by
  refine ⟨sigGreedy, cfgGreedy, greedyWorld, .prim 300 7 [] (.constr 301 101 [300] (.halt 301)), _, th0 2, natVal 1,
    shiftWorld_ok cenvNat_ok _, shiftWorld_limit, ⟨?_, ?_⟩, cenvNat_ok, rfl, by simp [OkE, sigGreedy, cenvNat], ⟨0, rfl⟩,
    by simp [th0], fun n => rfl⟩
  · intro p vs v cs mem lo hi hp
    cases hp
  · intro p vs v cs h d _ hop _ hle _ hok _
    right
    have hm : ∀ w c, h.Rep .top sigGreedy.cenv .nil w c → ({ h with alloc := h.limit } : Th).Rep .top sigGreedy.cenv .nil w c :=
      fun w c hr => hr.mono hle (Nat.le_refl _) (fun _ _ => rfl) (fun _ _ => trivial)
    refine ⟨.int 1, { h with alloc := h.limit }, rfl, ?_, ?_, Nat.le_refl _, hok.grow trivial hm rfl rfl⟩
    · have hv : v = .constr 100 [] := by
        unfold Sig.op at hop
        split at hop
        · simp only [sigGreedy, Option.map_some, FO.toVal, FO.toVals, Option.some.injEq] at hop; exact hop.symm
        · cases hop
      subst hv
      exact .enum (i := ⟨none, none, 100, 0, 0⟩) rfl rfl
    · refine ⟨rfl, fun _ _ => rfl, fun _ _ => Nat.le_refl _, fun _ _ => rfl, ?_⟩
      intro k _ _ i _ c w hc hr
      exact ⟨c, hc, hm w c hr⟩

/-! ## C52: declarations -/

/-- Every C function generated for a function of the program declares the variables it uses: each is a parameter, a
declared temporary or a function of the program; and it declares `arg`, which its matches use. -/
theorem C52_declared (hM : compileV C body (.fn B e) = some M) (hb : (Exp.fn B e).bv.Nodup) (hf : (Exp.fn B e).fv = ∅) :
    ∀ F ∈ M.2, F.caseDecl = true ∧ ∀ x, UsesV x F.body → x ∈ F.params ∨ x ∈ F.temps ∨ x ∈ B.names := by
  simp only [compileV] at hM
  split at hM
  case isFalse => cases hM
  split at hM
  case h_2 => cases hM
  rename_i P s hPs htr
  simp only [Option.some.injEq] at hM
  subst hM
  intro F hF
  obtain ⟨h1, t, xs, eb, h2, h3⟩ := trVDefs_declared hPs F hF
  refine ⟨h1, fun x hu => ?_⟩
  rcases h3 x hu with h | h | ⟨h4, h5⟩
  · exact .inl h
  · exact .inr (.inl h)
  · right; right
    simp only [Exp.bv] at hb
    have hBn := (List.nodup_append.1 hb).1
    have hfd := findDef_of_mem (hBn.sublist (names_bv B)) h2
    rcases fv_body hfd x h4 with h | h | h
    · exact absurd h h5
    · exact h
    · simp only [Exp.fv] at hf
      rw [Finset.eq_empty_iff_forall_notMem] at hf
      simp only [Defs.fv, Finset.mem_sdiff] at h
      exact absurd (by simp only [Finset.mem_sdiff, Finset.mem_union]; exact ⟨.inl h.1, h.2⟩) (hf x)

/-- The same for the C function of the main expression, except for `arg`, which it does not declare: if there is no match
in the main expression, it declares the variables it uses. -/
theorem C52_main_partial (hM : compileV C body (.fn B e) = some M) (hf : (Exp.fn B e).fv = ∅) :
    (∀ x, UsesV x M.1.body → x ∈ M.1.temps ∨ x ∈ B.names) ∧ (¬ HasCase e → ¬ UsesArg M.1.body) := by
  simp only [compileV] at hM
  split at hM
  case isFalse => cases hM
  split at hM
  case h_2 => cases hM
  rename_i P s hPs htr
  simp only [Option.some.injEq] at hM
  subst hM
  refine ⟨fun x hu => ?_, fun hc hu => ?_⟩
  · simp only [UsesV, uses_loadRegs, reserveBody, UsesC, false_or, or_false] at hu
    rcases uses_tr e htr hu with h | h
    · right
      by_contra hn
      rw [Finset.eq_empty_iff_forall_notMem] at hf
      exact hf x (by simp [Exp.fv, h, hn])
    · exact .inl h
  · simp only [UsesArg, loadRegs, reserveBody, false_or, or_false] at hu
    exact hc ((usesArg_tr e htr).1 hu)

/-- If there is a match in the main expression, its C function uses a variable it does not declare. -/
theorem C52_main_refuted (hM : compileV C body (.fn B e) = some M) (hc : HasCase e) :
    UsesArg M.1.body ∧ M.1.caseDecl = false := by
  simp only [compileV] at hM
  split at hM
  case isFalse => cases hM
  split at hM
  case h_2 => cases hM
  rename_i P s hPs htr
  simp only [Option.some.injEq] at hM
  subst hM
  refine ⟨?_, rfl⟩
  simp only [UsesArg, loadRegs, reserveBody, false_or, or_false]
  exact (usesArg_tr e htr).2 hc

/-- Such a program. -/
example : ∃ (e : Exp) (M : VFun × List VFun), compileV cfgNat 1 (.fn .nil e) = some M ∧ HasCase e ∧ (Exp.fn .nil e).fv = ∅ ∧
    Returns sigNat emp (.fn .nil e) (natVal 0) :=
  ⟨.constr 300 100 [] (.case 300 (.cons 100 (.halt 300) .nil)), _, rfl, trivial, by decide, ⟨0, rfl⟩⟩

end CGen.Cps
