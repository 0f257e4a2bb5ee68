import Verif.E2E.CProps
import Verif.CGen.Cps.Props

/-!
# C46: from the source language to C, in continuation-passing style

Programs converted to continuation-passing style are compiled to C by another backend (Codegen/toplevel.v:41-51, 80-89), `compileV`.
It accepts calls in tail position only.
-/

namespace E2E

open Conv (Types Typed OpsOk AppliesProof toFO SAll Carries)
open Src (Mode Yields Loops Fails)
open ANF (Var Tag PVal FO Sig Comp Feat Returns emp)
open ANF.Pipe (Opts)
open Ctor (PMap cloTag defaultCtorTag)
open CGen (Cfg Th PrimsOk OkE SeenE VRep wrapInFun)
open CGen.Cps (VWorld VFun PlainE PlainBs PlainB GcOkV LimitKept compileV runV LinkedV)

/-- No calls in the middle of a function. -/
def TailFeat : Feat → Prop
  | .letcall => False
  | _ => True

/-- Known primitive operations which do not allocate. -/
def ValuePrim (prims : Tag → Option Bool) : Feat → Prop
  | .prim p _ => prims p = some false
  | _ => True

mutual
theorem plainE_of_all {prims : Tag → Option Bool} : ∀ {e : ANF.Exp}, e.All TailFeat → e.All (ValuePrim prims) → PlainE prims e
  | .constr _ _ _ e, h, h' => plainE_of_all (e := e) h.2 h'.2
  | .case _ bs, h, h' => by simp only [ANF.Exp.All] at h h'; exact plainBs_of_all (bs := bs) h h'
  | .proj _ _ _ _ e, h, h' => by simp only [ANF.Exp.All] at h h'; exact plainE_of_all (e := e) h h'
  | .letapp _ _ _ _ _, h, _ => h.1.2
  | .fn B e, h, h' => ⟨plainB_of_all (B := B) h.2.1 h'.2.1, plainE_of_all (e := e) h.2.2 h'.2.2⟩
  | .app _ _ _, _, _ => trivial
  | .primVal _ _ e, h, h' => plainE_of_all (e := e) h.2 h'.2
  | .prim _ _ _ e, h, h' => ⟨by have : prims _ = some false := h'.1; rw [this]; simp, plainE_of_all (e := e) h.2 h'.2⟩
  | .halt _, _, _ => trivial
theorem plainBs_of_all {prims : Tag → Option Bool} : ∀ {bs : ANF.Brs}, bs.All TailFeat → bs.All (ValuePrim prims) → PlainBs prims bs
  | .nil, _, _ => trivial
  | .cons _ e bs, h, h' => ⟨plainE_of_all (e := e) h.2.1 h'.2.1, plainBs_of_all (bs := bs) h.2.2 h'.2.2⟩
theorem plainB_of_all {prims : Tag → Option Bool} : ∀ {B : ANF.Defs}, B.All TailFeat → B.All (ValuePrim prims) → PlainB prims B
  | .nil, _, _ => trivial
  | .cons _ _ _ e B, h, h' => ⟨plainE_of_all (e := e) h.2.1 h'.2.1, plainB_of_all (B := B) h.2.2 h'.2.2⟩
end

section
variable {T : Types} {arity : Nat → Option Nat} {k : Nat} {o : Opts} {marks : Var → Option Nat} {e : Src.Exp}
  {prims : Tag → List PVal → Option FO} {e' : ANF.Exp} {c' : Comp} {C : Cfg} {W : VWorld} {ar : Tag → Nat} {body : Var}
  {M : VFun × List VFun}

/-- C46: in programs converted to continuation-passing style all calls are in tail position, and the optimisations keep
it so, with any options. -/
theorem C46_cps_tail_calls (h : SourceP T arity k e) (hc : compile false T arity k o marks e = some (e', c')) : e'.All TailFeat := by
  obtain ⟨e₁, s, hi, h2⟩ := compile_inv h hc (fun _ _ => none)
  refine ANF.pipe_all hi.input (lt_of_lt_of_le (by decide : cloTag < defaultCtorTag) (Nat.le_of_lt hi.env.ct)) h2 (P := TailFeat)
    (fun _ _ => trivial) (fun _ _ => trivial) ?_ trivial trivial (fun _ _ _ _ => trivial)
    (hi.feats (V := fun _ => True) ?_ (fun h => by cases h) (Conv.sall_true e))
  · exact ⟨fun _ _ _ => trivial, fun _ _ => trivial, fun _ _ _ => trivial, fun _ _ => trivial, fun _ _ _ => trivial, fun _ => trivial, id⟩
  · exact ⟨fun _ _ _ => trivial, trivial, fun _ _ => trivial, fun _ _ => trivial, fun _ _ _ _ => trivial, fun _ => trivial, fun _ => trivial, trivial⟩

/-- C46: the C backend accepts every program compiled in continuation-passing style whose primitives it knows and in which
calls agree with the tags of functions.  Missing: that they do. -/
theorem C46_cps_c_total_partial (h : SourceP T arity k e) (hs : CSource T e) (hc : compile false T arity k o marks e = some (e', c'))
    (hC : CfgOk C c'.cenv k) (ha : e'.All (CallFeat ar)) (hp : e'.All (PrimFeat C.prims)) (body : Var) :
    ∃ M, compileV C body (wrapInFun e') = some M := by
  obtain ⟨e₁, c₁, h1, h2, _⟩ := C46_compile_total false arity o marks h
  rw [hc] at h1; cases h1
  have hok : OkE C.cenv ar (wrapInFun e') := by
    rw [hC.cenv]
    exact okE_of_all (all_wrap trivial (known_after h hs hc)) (all_wrap trivial ha)
  have hp' : (wrapInFun e').All (PrimFeat C.prims) := all_wrap trivial hp
  rw [wrap_eq] at hok hp' ⊢
  have hf : (topDefs e').NoFn ∧ (topBody e').NoFn := by
    cases e' <;> first | exact h2 | exact ⟨trivial, h2⟩
  exact CGen.Cps.C51_compiles C body hok (flatB_of_all hf.1 hp'.2.1) (flatE_of_all hf.2 hp'.2.2)

/-- Compiled programs with the runtime they are linked to are as C51 requires. -/
theorem linked_cps (h : SourceP T arity k e) (hs : CSource T e) (hc : compile false T arity k o marks e = some (e', c'))
    (hC : CfgOk C c'.cenv k) (ha : e'.All FewFeat) (hv : e'.All (ValuePrim C.prims)) (hg : GcOkV c'.cenv (topDefs e') W) (hl : LimitKept W)
    (hp : PrimsOk .top ⟨c'.cenv, prims⟩ C.prims (topDefs e') W.base) (hm : compileV C body (wrapInFun e') = some M) :
    LinkedV ⟨c'.cenv, prims⟩ C W (topDefs e') (topBody e') body M := by
  obtain ⟨e₁, c₁, h1, _, h3, h4⟩ := C46_compile_total false arity o marks h
  rw [hc] at h1; cases h1
  have hok : SeenE c'.cenv (wrapInFun e') := seenE_of_all (all_wrap trivial (known_after h hs hc)) (all_wrap trivial ha)
  have hpl : PlainE C.prims (wrapInFun e') := plainE_of_all (all_wrap trivial (C46_cps_tail_calls h hc)) (all_wrap trivial hv)
  rw [wrap_eq] at hok hm hpl
  have hbv : (ANF.Exp.fn (topDefs e') (topBody e')).bv = e'.bv := by cases e' <;> rfl
  have hfv : (ANF.Exp.fn (topDefs e') (topBody e')).fv = e'.fv := by
    cases e' <;> first | rfl | simp [topDefs, topBody, ANF.Exp.fv, ANF.Defs.fv, ANF.Defs.fvRaw, ANF.Defs.names]
  exact ⟨hC.cenv, ctors_after h hs hc, hg, hl, hp, hm, hok, hpl, by rw [hbv]; exact h4, by rw [hfv]; exact h3⟩

/-- C58: from source programs with primitive operations to C in continuation-passing style.  Missing: operations that allocate
(`hv`; C51_primitive_refuted), and as in C46_cps_c_partial. -/
theorem C58_cps_c_partial {Q : Mode} (h : SourceP T arity k e) (hs : CSource T e) (hc : compile false T arity k o marks e = some (e', c'))
    (hC : CfgOk C c'.cenv k) (ha : e'.All FewFeat) (hv : e'.All (ValuePrim C.prims)) (hg : GcOkV c'.cenv (topDefs e') W) (hl : LimitKept W)
    (hp : PrimsOk .top ⟨c'.cenv, prims⟩ C.prims (topDefs e') W.base) (hQ : OpsOk (T.params arity) ⟨T.cenv, prims⟩ Q)
    (hm : compileV C body (wrapInFun e') = some M)
    {d : Src.Data} (hev : Yields Q e d) (t : Th) (hle : t.alloc ≤ t.limit) :
    ∃ n, runV W M n t = .abort ∨ ∃ c t', runV W M n t = .ret c t' ∧
      VRep .top c'.cenv (topDefs e') t'.mem t'.alloc t'.limit (toFO T.tag defaultCtorTag d).toVal c := by
  obtain ⟨n, hn⟩ := (C58_compile h hc hQ).1 d hev
  exact CGen.Cps.C51_returns_partial (linked_cps h hs hc hC ha hv hg hl hp hm) ⟨n, by rw [wrap_run]; exact hn⟩ t hle

/-- C58: it has no undefined behaviour unless the program is stuck; if the program runs forever, the code does not return. -/
theorem C58_cps_c_safe_partial {Q : Mode} (h : SourceP T arity k e) (hs : CSource T e) (hc : compile false T arity k o marks e = some (e', c'))
    (hC : CfgOk C c'.cenv k) (ha : e'.All FewFeat) (hv : e'.All (ValuePrim C.prims)) (hg : GcOkV c'.cenv (topDefs e') W) (hl : LimitKept W)
    (hp : PrimsOk .top ⟨c'.cenv, prims⟩ C.prims (topDefs e') W.base) (hQ : OpsOk (T.params arity) ⟨T.cenv, prims⟩ Q)
    (hm : compileV C body (wrapInFun e') = some M) (n : Nat) (t : Th) (hle : t.alloc ≤ t.limit) :
    (¬ Fails Q e → runV W M n t ≠ .ub) ∧ (Loops Q e → runV W M n t = .abort ∨ runV W M n t = .oot) := by
  have hL := linked_cps h hs hc hC ha hv hg hl hp hm
  obtain ⟨_, _, c3, c4⟩ := C58_compile h hc hQ
  constructor
  · intro hb
    refine CGen.Cps.C51_no_overflow_partial hL (fun ⟨m, hm⟩ => ?_) n t hle
    exact c4 hb ⟨m, by rw [← wrap_run]; exact hm⟩
  · intro hdv
    refine CGen.Cps.C51_diverges_partial hL (fun m => ?_) n t hle
    rw [wrap_run]
    exact c3 hdv m

/-- C46: from source programs to C in continuation-passing style.  If a program that applies no erased proof evaluates to
data, then the C code compiled from it, with any options, linked with any collector that does what it should and does not
change the size of the nursery, and started in any state of the heap, either runs out of memory or returns a word that
represents the same data.  Missing: programs that apply an erased proof;
collectors that take a new nursery (C51_limit_refuted), allocating primitives (C51_primitive_refuted); that the C code has the declarations
it needs (C52_main_refuted). -/
theorem C46_cps_c_partial (h : Source T k e) (hs : CSource T e) (hc : compile false T arity k o marks e = some (e', c'))
    (hC : CfgOk C c'.cenv k) (ha : e'.All FewFeat) (hv : e'.All (ValuePrim C.prims)) (hg : GcOkV c'.cenv (topDefs e') W) (hl : LimitKept W)
    (hp : PrimsOk .top ⟨c'.cenv, prims⟩ C.prims (topDefs e') W.base) (hm : compileV C body (wrapInFun e') = some M)
    {d : Src.Data} (hb : ¬ AppliesProof e) (hev : Src.Eval e d.toExp) (t : Th) (hle : t.alloc ≤ t.limit) :
    ∃ n, runV W M n t = .abort ∨ ∃ c t', runV W M n t = .ret c t' ∧
      VRep .top c'.cenv (topDefs e') t'.mem t'.alloc t'.limit (toFO T.tag defaultCtorTag d).toVal c :=
  C58_cps_c_partial h.p hs hc hC ha hv hg hl hp .plain hm (((Conv.C58_conservative h.closed).1 d).2 ⟨hev, hb⟩) t hle

/-- C46: it has no undefined behaviour (no access outside the nursery or the argument array, no uninitialised variable); if
the program diverges, the code does not return. -/
theorem C46_cps_c_safe_partial (h : Source T k e) (hs : CSource T e) (hc : compile false T arity k o marks e = some (e', c'))
    (hC : CfgOk C c'.cenv k) (ha : e'.All FewFeat) (hv : e'.All (ValuePrim C.prims)) (hg : GcOkV c'.cenv (topDefs e') W) (hl : LimitKept W)
    (hp : PrimsOk .top ⟨c'.cenv, prims⟩ C.prims (topDefs e') W.base) (hm : compileV C body (wrapInFun e') = some M)
    (hb : ¬ AppliesProof e) (n : Nat) (t : Th) (hle : t.alloc ≤ t.limit) :
    runV W M n t ≠ .ub ∧ (Src.Diverges true e → runV W M n t = .abort ∨ runV W M n t = .oot) := by
  obtain ⟨h1, h2⟩ := C58_cps_c_safe_partial h.p hs hc hC ha hv hg hl hp .plain hm n t hle
  obtain ⟨_, c2, c3⟩ := Conv.C58_conservative h.closed
  exact ⟨h1 fun hf => hb (c2.1 hf), fun hd => h2 (c3.2 ⟨hd, hb⟩)⟩

/-- C46: the same from programs with global constants. -/
theorem C46_program_cps_c_partial {P : List (Mut.Name × Nat)} {p : Mut.Environ} {t : Mut.Term} (hcr : Mut.CrctEnv p)
    (hP : ∀ c, Mut.Defined p c → Src.findPrim P c = none) (ht : t.crct (Mut.Defined p) 0) (hT : T.Ok)
    (hty : Typed T (Src.translateProgram P p t)) (hk : 1 ≤ k) (hs : CSource T (Src.translateProgram P p t))
    (hc : compile false T arity k o marks (Src.translateProgram P p t) = some (e', c'))
    (hC : CfgOk C c'.cenv k) (ha : e'.All FewFeat) (hv : e'.All (ValuePrim C.prims)) (hg : GcOkV c'.cenv (topDefs e') W) (hl : LimitKept W)
    (hp : PrimsOk .top ⟨c'.cenv, prims⟩ C.prims (topDefs e') W.base) (hm : compileV C body (wrapInFun e') = some M)
    {d : Src.Data} (hb : ¬ AppliesProof (Src.translateProgram P p t))
    (hce : Mut.ConstsEval p) (hev : Mut.Wcbv p t d.toTerm) (th : Th) (hle : th.alloc ≤ th.limit) :
    ∃ n, runV W M n th = .abort ∨ ∃ c th', runV W M n th = .ret c th' ∧
      VRep .top c'.cenv (topDefs e') th'.mem th'.alloc th'.limit (toFO T.tag defaultCtorTag d).toVal c :=
  C46_cps_c_partial ⟨hT, Src.C32_closed hcr hP ht, hty, hk⟩ hs hc hC ha hv hg hl hp hm hb ((Src.C32_data hcr hP ht d).2 ⟨hce, hev⟩) th hle

end

/-! ## The statements are about real programs -/

open Conv (natTypes)

/-- The compiled C code computes `S (S O)`, whatever the room in the nursery, with a collector that moves everything. -/
example (room : Nat) : ∃ e' c' M, compile false natTypes (fun _ => none) 100 (ANF.Pipe.makeOptions false 0 5 8) (fun _ => none)
      succTwice = some (e', c') ∧ compileV ⟨1, 5, fun _ => none, c'.cenv⟩ 1 (wrapInFun e') = some M ∧
    ∃ n, runV CGen.Cps.shiftWorld M n (CGen.th0 room) = .abort ∨ ∃ c t', runV CGen.Cps.shiftWorld M n (CGen.th0 room) = .ret c t' ∧
      VRep .top c'.cenv (topDefs e') t'.mem t'.alloc t'.limit
        (toFO natTypes.tag defaultCtorTag (.con 0 1 [.con 0 1 [.con 0 0 []]])).toVal c := by
  obtain ⟨⟨e', c'⟩, h1, h2⟩ := Option.map_eq_some_iff.1 (succTwice_code false)
  cases h2
  have ha : (succTwiceCode false).All (CallFeat fun _ => 0) := by simp [succTwiceCode, ANF.Exp.All, CallFeat]
  have hf : (succTwiceCode false).All FewFeat := by simp [succTwiceCode, ANF.Exp.All, FewFeat]
  have hC : CfgOk ⟨1, 5, fun _ => none, c'.cenv⟩ c'.cenv 100 := ⟨rfl, (by decide : 5 ≤ 100)⟩
  obtain ⟨M, hM⟩ := C46_cps_c_total_partial succTwice_source.p succTwice_c h1 hC ha (by
    simp [succTwiceCode, ANF.Exp.All, PrimFeat]) 1
  refine ⟨_, c', M, h1, hM, ?_⟩
  exact C46_cps_c_partial succTwice_source succTwice_c h1 hC hf (by simp [succTwiceCode, ANF.Exp.All, ValuePrim])
    (CGen.Cps.shiftWorld_ok (ctors_after succTwice_source.p succTwice_c h1) _) CGen.Cps.shiftWorld_limit (CGen.prims_none _ _ _ _) hM
    succTwice_proofs succTwice_value _ (by simp [CGen.th0])

end E2E
