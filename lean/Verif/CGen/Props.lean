import Verif.CGen.Example
import Verif.Ctor.Props

/-!
# Properties C24, C25 and C26: the direct-style C backend

The generated code is run by the semantics of `Clight.lean`, in which a store outside the free part of the nursery, a slot
outside the frame, an argument outside the argument array, an uninitialised variable or a value of the wrong shape is the
distinct outcome `ub`, and so is a call of the collector in a state it does not expect.  The collector is any one satisfying
`GcOk` for some invariant `G` of its heap that allocation preserves; in particular it may move every object.
-/

namespace CGen

open ANF

/-- A program the backend is given, with the runtime it is linked to: closed, binders distinct, constructors fully applied,
no more than 1024 parameters and arguments, no float and string literals. -/
structure Linked (G : HeapI) (S : Sig) (C : Cfg) (W : World) (B : Defs) (e : Exp) (body : Var) (M : CFun × List CFun) : Prop where
  cenv : C.cenv = S.cenv
  ctors : CtorsOk S.cenv
  gc : GcOk G S.cenv B W
  prims : PrimsOk G S C.prims B W
  laws : G.Laws S.cenv B
  result : C.result ∉ B.names
  compiled : compileC C body (.fn B e) = some M
  seen : SeenE S.cenv (.fn B e)
  binders : (Exp.fn B e).bv.Nodup
  closed : (Exp.fn B e).fv = ∅

variable {G : HeapI} {S : Sig} {C : Cfg} {W : World} {ar : Tag → Nat} {B : Defs} {e : Exp} {body : Var} {M : CFun × List CFun}

/-- A program that meets all hypotheses: it has a recursive function with one argument in a C parameter and one in the
argument array, a match, a call with a live variable, allocation after the call, and returns a number. -/
example : ∃ M, Linked .top sigNat cfgNat world0 defsNat mainNat 1 M ∧
    Returns sigNat emp (.fn defsNat mainNat) (natVal 2) ∧ (th0 0).alloc ≤ (th0 0).limit ∧
    (∀ k, OnChain (th0 0) k → k < 0) ∧ (th0 0).Ok .top sigNat.cenv defsNat := by
  obtain ⟨M, hM⟩ := compiles_nat
  refine ⟨M, ⟨rfl, cenvNat_ok, world0_ok cenvNat_ok _, prims_none _ _ _ _, HeapI.top_laws _ _, by decide, hM, seen_nat, by decide, by decide⟩,
    returns_nat, by simp [th0], fun k hk => absurd hk th0_chain, th0_ok _ _ _⟩

/-- The backend accepts every program without nested functions whose primitives are known. -/
theorem C24_compiles (C : Cfg) (body : Var) (hok : OkE C.cenv ar (.fn B e)) (hB : FlatB C.prims B) (he : FlatE C.prims e) :
    ∃ M, compileC C body (.fn B e) = some M := compileC_total hok hB he

/-- The constructor environment built from the types of a program, extended with the records of closure conversion, is as
the other theorems require. -/
theorem C24_ctors (g : List (Ctor.Kername × List Ctor.Ityp)) (hb : ∀ p ∈ g, ∀ t ∈ p.2, Ctor.boxedCount t.ctors ≤ 251) :
    CtorsOk (Ctor.convertEnv Ctor.defaultCtorTag Ctor.defaultIndTag g).ce ∧
    ∀ cenv t (i : Ctor.Info), CtorsOk cenv → (∀ u j, cenv u = some j → j.indTag ≠ i.indTag) → i.ordinal = 0 →
      CtorsOk (Ctor.PMap.set t i cenv) :=
  ⟨ctorsOk_convertEnv _ _ g hb, fun _ _ _ h h1 h2 => h.record h1 h2⟩

/-- A match on (the representation of) a constructor runs the code of the branch of that constructor. -/
theorem C24_match_partial {fenv : FEnv} {fns : List Var} {loc : Finset Var} {call : Nat → Var → List CVal → Th → Out}
    (hc : CtorsOk C.cenv) {y : Var} {bs : Brs} {sl n : Nat} {s : CStmt} (htr : trE C fenv fns loc (.case y bs) sl = some (s, n))
    {t : Tag} {vs : List Val} {b : Exp} (hcons : consistent C.cenv t bs.tags = true) (hb : findTag t bs = some b) (me : Nat)
    (l : Loc) (h : Th) {c : CVal} (hy : l.temps y = some c) (hr : VRep G C.cenv B h.mem l.alloc l.limit (.constr t vs) c) :
    ∃ s' m, trE C fenv fns loc b sl = some (s', m) ∧
      (Final (exec W call me s' l h) → exec W call me s l h = exec W call me s' l h) := by
  simp only [trE] at htr
  split at htr
  case h_2 => cases htr
  rename_i ls ls' n' htr'
  simp only [Option.some.injEq, Prod.mk.injEq] at htr
  obtain ⟨rfl, rfl⟩ := htr
  obtain ⟨i, _, hi, _, _⟩ := consistent_all hcons t (findTag_mem hb)
  obtain ⟨s', m, hs', hm, hbox, hen⟩ := trBs_switch (W := W) (call := call) (me := me) hc
    (t := t) (i := i) hi htr' (fun t' ht' => by
      obtain ⟨i1, i', h1, h2, h3⟩ := consistent_all hcons t' ht'
      rw [hi] at h1; cases h1
      exact ⟨i', h2, h3⟩) hb
  refine ⟨s', m, hs', fun hfin => ?_⟩
  cases hr with
  | enum g1 g2 =>
    rw [hi] at g1; cases g1
    rw [← (hen g2).2 l h hfin]
    simp only [caseSwitch, exec, hy]
    rw [if_neg (by omega)]
    rfl
  | boxed g1 g2 g3 g4 g5 g6 g7 g8 g9 =>
    rename_i i1 p cs
    rw [hi] at g1; cases g1
    have hr1 : readAt h.mem p (-1) = some (.int (i.arity * 1024 + i.ordinal)) := by
      have := g4.1
      rw [readAt, if_pos (by omega), show ((p : Int) + -1).toNat = p - 1 by omega]
      exact g5
    rw [← (hbox (by omega)).2 l h hfin]
    simp only [caseSwitch, exec, evalC, hy, hr1]
    rfl

/-- A projection yields (the representation of) the argument of the constructor. -/
theorem C24_projection {fenv : FEnv} {fns : List Var} {loc : Finset Var} {call : Nat → Var → List CVal → Th → Out}
    {x y : Var} {t t' : Tag} {k sl n : Nat} {e' : Exp} {s : CStmt} (htr : trE C fenv fns loc (.proj x t k y e') sl = some (s, n))
    {vs : List Val} {v : Val} (hk : vs[k]? = some v) (me : Nat) (l : Loc) (h : Th) {c : CVal} (hy : l.temps y = some c)
    (hr : VRep G C.cenv B h.mem l.alloc l.limit (.constr t' vs) c) :
    ∃ c' s', VRep G C.cenv B h.mem l.alloc l.limit v c' ∧ trE C fenv fns loc e' sl = some (s', n) ∧
      exec W call me s l h = exec W call me s' (l.setT x c') h := by
  simp only [trE] at htr
  split at htr
  case h_2 => cases htr
  rename_i s' n' htr'
  simp only [Option.some.injEq, Prod.mk.injEq] at htr
  obtain ⟨rfl, rfl⟩ := htr
  cases hr with
  | enum g1 g2 => simp at hk
  | boxed g1 g2 g3 g4 g5 g6 g7 g8 g9 =>
    rename_i i p cs
    have hlt := (List.getElem?_eq_some_iff.mp hk).1
    have hck := List.getElem?_eq_getElem (l := cs) (i := k) (by omega)
    refine ⟨cs[k], s', g8 k v _ hk hck, htr', ?_⟩
    apply exec_seq
    simp only [exec, evalC, hy]
    rw [readAt, if_pos (by omega), show ((p : Int) + (k : Int)).toNat = p + k by omega, g7 k _ hck]

/-- Compiled programs return representations of the values the source programs return (or run out of memory). -/
theorem C24_returns_partial (hL : Linked G S C W B e body M) {v : Val} (hr : Returns S emp (.fn B e) v) (d : Nat) (h : Th)
    (hd : ∀ k, OnChain h k → k < d) (hle : h.alloc ≤ h.limit) (hok : h.Ok G S.cenv B) :
    ∃ n, runC W M n d h = .abort ∨ ∃ c h', runC W M n d h = .ret c h' ∧ VRep G S.cenv B h'.mem h'.alloc h'.limit v c := by
  obtain ⟨n, hn⟩ := hr
  have := compileC_sim hL.cenv hL.ctors hL.gc hL.prims hL.laws hL.result hL.compiled hL.seen hL.binders hL.closed n d h hd hle hok
  rw [hn] at this
  rcases this with h1 | ⟨c, h', h1, h2, _⟩
  · exact ⟨n, .inl h1⟩
  · exact ⟨n, .inr ⟨c, h', h1, h2⟩⟩

/-- Programs that do not terminate are compiled to programs that do not return. -/
theorem C24_diverges_partial (hL : Linked G S C W B e body M) (hr : Diverges S emp (.fn B e)) (n d : Nat) (h : Th)
    (hd : ∀ k, OnChain h k → k < d) (hle : h.alloc ≤ h.limit) (hok : h.Ok G S.cenv B) : runC W M n d h = .abort ∨ runC W M n d h = .oot := by
  have := compileC_sim hL.cenv hL.ctors hL.gc hL.prims hL.laws hL.result hL.compiled hL.seen hL.binders hL.closed n d h hd hle hok
  rw [hr n] at this
  exact this

/-- With more than 256 constructors with arguments, a match runs the wrong branch: if the tags of two constructors agree
modulo 256, a match whose first branch is that of the one runs it for values of the other. -/
theorem C24_match_refuted {fenv : FEnv} {fns : List Var} {loc : Finset Var} {call : Nat → Var → List CVal → Th → Out}
    {y : Var} {t0 t : Tag} {i0 i : Ctor.Info} {b0 b : Exp} {bs : Brs} {sl n : Nat} {s : CStmt}
    (h0 : C.cenv t0 = some i0) (ht : C.cenv t = some i) (ha0 : i0.arity ≠ 0) (ha : i.arity ≠ 0)
    (hmod : i0.ordinal % 256 = i.ordinal % 256) (hmem : findTag t bs = some b)
    (htr : trE C fenv fns loc (.case y (.cons t0 b0 bs)) sl = some (s, n)) {vs : List Val} (me : Nat)
    (l : Loc) (h : Th) {c : CVal} (hy : l.temps y = some c) (hr : VRep G C.cenv B h.mem l.alloc l.limit (.constr t vs) c) :
    ∃ s0 m, trE C fenv fns loc b0 sl = some (s0, m) ∧
      (Final (exec W call me s0 l h) → exec W call me s l h = exec W call me s0 l h) := by
  simp only [trE] at htr
  split at htr
  case h_2 => cases htr
  rename_i ls ls' n' htr'
  simp only [Option.some.injEq, Prod.mk.injEq] at htr
  obtain ⟨rfl, rfl⟩ := htr
  simp only [trBs] at htr'
  split at htr'
  case h_2 => cases htr'
  rename_i s0 n1 l1 l2 n2 he hbs
  refine ⟨s0, n1, he, fun hfin => ?_⟩
  have hne := trBs_boxed ht ha hbs hmem
  rw [ctorRep, h0] at htr'
  simp only [if_neg ha0] at htr'
  cases l1 with
  | nil => exact absurd rfl hne
  | cons lb s1 r =>
    simp only [Option.some.injEq, Prod.mk.injEq] at htr'
    obtain ⟨rfl, rfl, rfl⟩ := htr'
    cases hr with
    | enum g1 g2 => rw [ht] at g1; cases g1; exact absurd g2 ha
    | boxed g1 g2 g3 g4 g5 g6 g7 g8 g9 =>
      rename_i i1 p cs
      rw [ht] at g1; cases g1
      have hr1 : readAt h.mem p (-1) = some (.int (i.arity * 1024 + i.ordinal)) := by
        have := g4.1
        rw [readAt, if_pos (by omega), show ((p : Int) + -1).toNat = p - 1 by omega]
        exact g5
      have htag : (Rep.boxed i0.ordinal i0.arity).tag % 256 = ((i.arity : Int) * 1024 + i.ordinal) % 256 := by
        simp only [Rep.tag]; omega
      rw [htag]
      rw [← execSw_hit (W := W) (call := call) (me := me) (z := ((i.arity : Int) * 1024 + i.ordinal) % 256)
        (ls := .cons lb s1 r) hfin]
      simp only [caseSwitch, exec, evalC, hy, hr1]
      rfl

/-- The type of C23 has two such constructors. -/
example : ∃ (g : List (Ctor.Kername × List Ctor.Ityp)) (kn : Ctor.Kername) (i0 i : Ctor.Info),
    let E := Ctor.convertEnv Ctor.defaultCtorTag Ctor.defaultIndTag g
    let t0 := Ctor.dconToInfo Ctor.defaultCtorTag ⟨kn, 0, 0⟩ E.dcm
    let t := Ctor.dconToInfo Ctor.defaultCtorTag ⟨kn, 0, 256⟩ E.dcm
    E.ce t0 = some i0 ∧ E.ce t = some i ∧ i0.arity ≠ 0 ∧ i.arity ≠ 0 ∧ i0.ordinal % 256 = i.ordinal % 256 := by
  have hg : (([(⟨.file [['M']], ['t']⟩, [⟨['t'], Ctor.manyCtors 257⟩])] : List (Ctor.Kername × List Ctor.Ityp)).map
    (·.1)).Nodup := by simp
  have hd : ∀ j, j < 257 → Ctor.Declares [(⟨.file [['M']], ['t']⟩, [⟨['t'], Ctor.manyCtors 257⟩])] ⟨.file [['M']], ['t']⟩ 0 j
      ⟨['t'], Ctor.manyCtors 257⟩ ⟨['C'], 1⟩ := fun j hj =>
    ⟨⟨_, List.mem_singleton.2 rfl, rfl⟩, Ctor.many_get 257 _ hj⟩
  obtain ⟨_, _, _, _, _, _, _, h0, _⟩ := Ctor.C45_info _ hg _ _ _ _ _ (hd 0 (by omega))
  obtain ⟨_, _, _, _, _, _, _, h1, _⟩ := Ctor.C45_info _ hg _ _ _ _ _ (hd 256 (by omega))
  refine ⟨_, _, _, _, h0, h1, by simp, by simp, ?_⟩
  simp only [Ctor.many_ordinal 257 0 (by omega), Ctor.many_ordinal 257 256 (by omega)]

/-- Nothing limits the number of parameters of a function, but the argument array has 1024 entries: every program of the
following form with more arguments is accepted, returns a number by its semantics, and writes past the end of the array. -/
theorem C24_arguments_refuted {n : Nat} (hn : 1024 < n) : ∃ M, compileC cfgNat 1 (.fn (wideDefs n) (wideMain n)) = some M ∧
    (Exp.fn (wideDefs n) (wideMain n)).bv.Nodup ∧ (Exp.fn (wideDefs n) (wideMain n)).fv = ∅ ∧
    Returns sigNat emp (.fn (wideDefs n) (wideMain n)) (natVal 0) ∧ ∀ fuel d room, runC world0 M fuel d (th0 room) = .ub := by
  obtain ⟨M, hM⟩ := compileC_total (C := cfgNat) (ar := fun _ => n) (B := wideDefs n) (e := wideMain n) (body := 1)
    (wide_ok n) (by simp [FlatB, FlatE, wideDefs]) (by simp [FlatE, wideMain])
  refine ⟨M, hM, wide_bv n, wide_closed (by omega), wide_returns (by omega), ?_⟩
  · intro fuel d room
    simp only [compileC] at hM
    split at hM
    case isFalse => cases hM
    split at hM
    case h_2 => cases hM
    rename_i P s m _ htr
    simp only [Option.some.injEq] at hM
    subst hM
    have hs : ∀ l h, l.argsSet = true → exec world0 (callC world0 P fuel) d s l h = .ub := by
      intro l h hl
      simp only [wideMain, trE] at htr
      split at htr
      case h_2 => cases htr
      rename_i p s' m' hp hs'
      cases htr
      split at hs'
      case h_2 => cases hs'
      rename_i a ind hf
      split at hs'
      case h_2 => cases hs'
      rename_i asgn c ha hc
      cases hs'
      have hub := fun l h => wide_asgn hn hf ha (W := world0) (call := callC world0 P fuel) (me := d) l h
      have hp' : p = .set 310 (.cst (.int 1)) := by
        simp [assignConstructor, ctorRep, cfgNat, cenvNat, Rep.tag] at hp
        exact hp.symm
      subst hp'
      simp only [exec, evalC, hub]
    simp only [runC, enter, List.length_nil, if_true, exec, show maxAllocsE (wideMain n) = 0 by simp [maxAllocsE, wideMain], gcCall, hs]
/-- With 1024 arguments the program returns. -/
example : ((compileC cfgNat 1 (.fn (wideDefs 1024) (wideMain 1024))).map fun M => match runC world0 M 5 0 (th0 10) with
    | .ret (.int z) _ => z
    | _ => 0) = some 1 := by decide +kernel

/-! ## C25: heap checks -/

/-- On every path to the next heap check at most as many words are allocated as the check reserved (without float and
string literals). -/
theorem C25_reserved_partial {cenv : Ctor.PMap Ctor.Info} {prims : Tag → Option Bool} {e : Exp} {k : Nat}
    (hok : OkE cenv ar e) (h : Needs prims e k) : k ≤ maxAllocsE e := needs_le h hok

/-- No store of the generated code is outside the free part of the nursery: such a store is undefined behaviour (`ub`), and
a program that does not go wrong has none, whatever the fill level of the nursery when it starts. -/
theorem C25_no_overflow_partial (hL : Linked G S C W B e body M) (hw : ¬ GoesWrong S emp (.fn B e)) (n d : Nat) (h : Th)
    (hd : ∀ k, OnChain h k → k < d) (hle : h.alloc ≤ h.limit) (hok : h.Ok G S.cenv B) : runC W M n d h ≠ .ub := by
  have := compileC_sim hL.cenv hL.ctors hL.gc hL.prims hL.laws hL.result hL.compiled hL.seen hL.binders hL.closed n d h hd hle hok
  intro hu
  rw [hu] at this
  cases hr : run S n emp (.fn B e) with
  | val v => rw [hr] at this; rcases this with h1 | ⟨_, _, h1, _⟩ <;> cases h1
  | oot => rw [hr] at this; rcases this with h1 | h1 <;> cases h1
  | stuck => exact hw ⟨n, hr⟩

/-- After the check at the start of a function the reserved words are available: the collector is called unless they are. -/
theorem C25_check {cenv : Ctor.PMap Ctor.Info} (hW : GcOk G cenv B W) {call : Nat → Var → List CVal → Th → Out} (me n : Nat)
    (l l' : Loc) (h h' : Th) (hla : l.alloc = h.alloc) (hll : l.limit = h.limit) (hle : h.alloc ≤ h.limit)
    (hok : h.Ok G cenv B) (hx : exec W call me (gcCall n [] 0).1 l h = .norm l' h') : l'.alloc + n ≤ l'.limit := by
  unfold gcCall at hx
  by_cases hn : n = 0
  · rw [if_pos hn] at hx
    rw [exec_skip] at hx
    cases hx; omega
  · rw [if_neg hn] at hx
    simp only [exec] at hx
    by_cases hlow : (n : Int) ≤ (l.limit : Int) - l.alloc
    · rw [if_pos hlow] at hx
      cases hx; omega
    · rw [if_neg hlow] at hx
      simp only [pushVars, pushAux, popVars, popAux, updateStack, setStack, resetStack, exec, if_true, true_or] at hx
      rcases hW _ (hok.nalloc (n := n)) with hg | ⟨h1, hg, hr, _⟩
      · simp only [hg] at hx; cases hx
      · simp only [hg] at hx
        cases hx
        exact hr

/-- The words needed by float and string literals are not counted: a program consisting of a float literal, started with a
full nursery, writes past its end. -/
theorem C25_literal_refuted : ∃ (S : Sig) (C : Cfg) (W : World) (p : Exp) (M : CFun × List CFun) (h : Th) (v : Val),
    GcOk .top S.cenv .nil W ∧ PrimsOk .top S C.prims .nil W ∧ CtorsOk S.cenv ∧ compileC C 1 (.fn .nil p) = some M ∧
    Returns S emp (.fn .nil p) v ∧ Needs C.prims p 2 ∧ maxAllocsE p = 0 ∧ h.alloc ≤ h.limit ∧ h.Ok .top S.cenv .nil ∧
    ∀ n d, runC W M n d h = .ub := by
  refine ⟨sigNat, cfgNat, world0, .primVal 300 (.float 0) (.halt 300), _, th0 0, .prim (.float 0), world0_ok cenvNat_ok _,
    prims_none _ _ _ _, cenvNat_ok, rfl, ⟨0, rfl⟩, .float .halt, rfl, Nat.le_refl _, th0_ok _ _ _, fun n d => ?_⟩
  simp [runC, enter, exec, compilePrim, evalC, gcCall, maxAllocsE, th0, Th.setFrame, Loc.setT, cfgNat]

/-- The same program run with two free words returns. -/
example : ∃ M, compileC cfgNat 1 (.fn .nil (.primVal 300 (.float 0) (.halt 300))) = some M ∧
    ∃ c h', runC world0 M 0 0 (th0 2) = .ret c h' := by
  refine ⟨_, rfl, ?_⟩
  simp [runC, enter, exec, compilePrim, evalC, gcCall, maxAllocsE, th0, Th.setFrame, Loc.setT, cfgNat, makeVar, Defs.names]

/-! ## C26: live variables and frames -/

/-- Slot numbers used in the code of a function are below the declared size of its frame, on every path. -/
theorem C26_slots (hM : compileC C body (.fn B e) = some M) :
    RootsLt M.1.rootSize M.1.body ∧ ∀ F ∈ M.2, RootsLt F.rootSize F.body := by
  simp only [compileC] at hM
  split at hM
  case isFalse => cases hM
  split at hM
  case h_2 => cases hM
  rename_i P s m hPs htr
  simp only [Option.some.injEq] at hM
  subst hM
  refine ⟨?_, rootsLt_trDefs hPs⟩
  simp only [RootsLt]
  refine ⟨trivial, trivial, trivial, trivial, rootsLt_gc ?_, rootsLt_trE e _ _ _ htr⟩
  rw [gcCall_snd]
  split <;> simp

/-- Around a call (or an allocating primitive) every local variable used afterwards is in the frame, the frame is on the
collector's list, and afterwards the variable holds a representation of the value it had, wherever the object is now. -/
theorem C26_live {cenv : Ctor.PMap Ctor.Info} {call : Nat → Var → List CVal → Th → Out} (hc : CtorsOk cenv)
    (hW : GcOk G cenv B W) (loc : Finset Var) (x : Var) (e' : Exp) (c : CStmt) (me : Nat) (l : Loc) (h : Th)
    (hb : ∀ k, OnChain h k → k < me) (hp : (h.frames me).prev = h.fp) (ha : h.alloc = l.alloc) (hl : h.limit = l.limit)
    (hvars : ∀ y ∈ (e'.fv ∩ loc).erase x, ∃ cy v, l.temps y = some cy ∧ h.Rep G cenv B v cy)
    (hs : (aroundCall loc x e' .skip c).2 ≤ (h.frames me).size) (hok : h.Ok G cenv B) (v : Val) (o : Th → Out)
    (hcall : ∀ h1 : Th, h1.Ok G cenv B → (∀ y ∈ (e'.fv ∩ loc).erase x, OnChain h1 me ∧ ∃ i, i < (h1.frames me).next ∧ (h1.frames me).roots i = l.temps y) →
      exec W call me c l h1 = afterCall l x (o h1) ∧
      (o h1 = .abort ∨ ∃ c h', o h1 = .ret c h' ∧ h'.Rep G cenv B v c ∧ Keeps G cenv B (me + 1) h1 h' ∧ h'.alloc ≤ h'.limit ∧
        h'.Ok G cenv B)) :
    exec W call me (aroundCall loc x e' .skip c).1 l h = .abort ∨
    ∃ l' h', exec W call me (aroundCall loc x e' .skip c).1 l h = .norm l' h' ∧
      (x ∈ e'.fv ∩ loc → ∃ c', l'.temps x = some c' ∧ h'.Rep G cenv B v c') ∧
      (∀ y ∈ (e'.fv ∩ loc).erase x, ∀ cy w, l.temps y = some cy → h.Rep G cenv B w cy →
        ∃ c', l'.temps y = some c' ∧ h'.Rep G cenv B w c') ∧ l'.alloc + maxAllocsE e' ≤ l'.limit := by
  have hsy : h.sync l = h := by unfold Th.sync; rw [← ha, ← hl]
  rcases exec_around (cenv := cenv) (B := B) (W := W) (call := call) (me := me) hc hW loc x e' .skip c l l h h exec_skip hb hp
    (by rw [hsy]; exact hvars) hs (by rw [hsy]; exact hok) (.val v) o (fun h1 hpu _ hok1 => hcall h1 hok1 (fun y hy => by
      have hm : y ∈ elements ((e'.fv ∩ loc).erase x) := mem_elements.2 hy
      have hne : elements ((e'.fv ∩ loc).erase x) ≠ [] := fun h => by rw [h] at hm; cases hm
      obtain ⟨i, hi⟩ := List.mem_iff_getElem?.mp hm
      refine ⟨.top (by rw [hpu.fp, if_neg hne]), i, ?_, hpu.roots i y hi⟩
      rw [hpu.next hne]
      exact (List.getElem?_eq_some_iff.mp hi).1)) with h1 | h1 | ⟨h1, _⟩ | h1
  · cases h1
  · exact .inl h1
  · cases h1
  · obtain ⟨w, l', h', hw, he, hk, hp, hz, hroom, hla, hll, hxv, hyv, _⟩ := h1
    cases hw
    rw [hsy] at hyv
    exact .inr ⟨l', h', he, hxv, hyv, by omega⟩

end CGen
