import Verif.E2E.WasmProps
import Verif.CGen.Props

/-!
# C46: from the source language to C
-/

namespace E2E

open Conv (Types Typed OpsOk AppliesProof toFO SAll Carries)
open Src (Mode Yields Loops Fails)
open ANF (Var Tag PVal FO Sig Comp Feat Returns emp PipeInput C46_constructors)
open ANF.Pipe (Opts anfPipeline initial)
open Ctor (PMap cloTag cloIndTag defaultCtorTag defaultIndTag)
open CGen (HeapI Cfg World Th CFun CtorsOk GcOk PrimsOk OkE OkBs OkB SeenE SeenBs SeenB FlatE FlatBs FlatB OnChain VRep compileC runC wrapInFun)

/-- The functions of a program without nested functions. -/
def topDefs : ANF.Exp → ANF.Defs
  | .fn B _ => B
  | _ => .nil

/-- What is left of it. -/
def topBody : ANF.Exp → ANF.Exp
  | .fn _ e => e
  | e => e

theorem wrap_eq (e : ANF.Exp) : wrapInFun e = .fn (topDefs e) (topBody e) := by cases e <;> rfl

/-- What the C backend asks of constructors and literals. -/
def KnownFeat (cenv : PMap Ctor.Info) : Feat → Prop
  | .con t n => ∃ i, cenv t = some i ∧ i.arity = n
  | .br t => ∃ i, cenv t = some i
  | .val p => ∃ n, p = .int n
  | _ => True

/-- What it asks of calls and functions: the tag determines the number of arguments. -/
def CallFeat (ar : Tag → Nat) : Feat → Prop
  | .call t n => n = ar t
  | _ => True

/-- Calls and functions have at most 1024 arguments. -/
def FewFeat : Feat → Prop
  | .call _ n => n ≤ 1024
  | _ => True

/-- Known primitive operations. -/
def PrimFeat (prims : Tag → Option Bool) : Feat → Prop
  | .prim p _ => ∃ b, prims p = some b
  | _ => True

mutual
theorem okE_of_all {cenv : PMap Ctor.Info} {ar : Tag → Nat} : ∀ {e : ANF.Exp}, e.All (KnownFeat cenv) → e.All (CallFeat ar) → OkE cenv ar e
  | .constr _ _ _ e, h, h' => ⟨h.1, okE_of_all (e := e) h.2 h'.2⟩
  | .case _ bs, h, h' => by simp only [ANF.Exp.All] at h h'; exact okBs_of_all (bs := bs) h h'
  | .proj _ _ _ _ e, h, h' => by simp only [ANF.Exp.All] at h h'; exact okE_of_all (e := e) h h'
  | .letapp _ _ _ _ e, h, h' => ⟨h'.1.1, okE_of_all (e := e) h.2 h'.2⟩
  | .fn B e, h, h' => ⟨okB_of_all (B := B) h.2.1 h'.2.1, okE_of_all (e := e) h.2.2 h'.2.2⟩
  | .app _ _ _, _, h' => by simp only [ANF.Exp.All] at h'; exact h'
  | .primVal _ _ e, h, h' => ⟨h.1, okE_of_all (e := e) h.2 h'.2⟩
  | .prim _ _ _ e, h, h' => okE_of_all (e := e) h.2 h'.2
  | .halt _, _, _ => trivial
theorem okBs_of_all {cenv : PMap Ctor.Info} {ar : Tag → Nat} : ∀ {bs : ANF.Brs}, bs.All (KnownFeat cenv) → bs.All (CallFeat ar) → OkBs cenv ar bs
  | .nil, _, _ => trivial
  | .cons _ e bs, h, h' => ⟨h.1, okE_of_all (e := e) h.2.1 h'.2.1, okBs_of_all (bs := bs) h.2.2 h'.2.2⟩
theorem okB_of_all {cenv : PMap Ctor.Info} {ar : Tag → Nat} : ∀ {B : ANF.Defs}, B.All (KnownFeat cenv) → B.All (CallFeat ar) → OkB cenv ar B
  | .nil, _, _ => trivial
  | .cons _ _ _ e B, h, h' => ⟨h'.1, okE_of_all (e := e) h.2.1 h'.2.1, okB_of_all (B := B) h.2.2 h'.2.2⟩
end

mutual
theorem seenE_of_all {cenv : PMap Ctor.Info} : ∀ {e : ANF.Exp}, e.All (KnownFeat cenv) → e.All FewFeat → SeenE cenv e
  | .constr _ _ _ e, h, h' => ⟨h.1, seenE_of_all (e := e) h.2 h'.2⟩
  | .case _ bs, h, h' => by simp only [ANF.Exp.All] at h h'; exact seenBs_of_all (bs := bs) h h'
  | .proj _ _ _ _ e, h, h' => by simp only [ANF.Exp.All] at h h'; exact seenE_of_all (e := e) h h'
  | .letapp _ _ _ _ e, h, h' => ⟨h'.1.1, seenE_of_all (e := e) h.2 h'.2⟩
  | .fn B e, h, h' => ⟨seenB_of_all (B := B) h.2.1 h'.2.1, seenE_of_all (e := e) h.2.2 h'.2.2⟩
  | .app _ _ _, _, h' => by simp only [ANF.Exp.All] at h'; exact h'
  | .primVal _ _ e, h, h' => ⟨h.1, seenE_of_all (e := e) h.2 h'.2⟩
  | .prim _ _ _ e, h, h' => seenE_of_all (e := e) h.2 h'.2
  | .halt _, _, _ => trivial
theorem seenBs_of_all {cenv : PMap Ctor.Info} : ∀ {bs : ANF.Brs}, bs.All (KnownFeat cenv) → bs.All FewFeat → SeenBs cenv bs
  | .nil, _, _ => trivial
  | .cons _ e bs, h, h' => ⟨h.1, seenE_of_all (e := e) h.2.1 h'.2.1, seenBs_of_all (bs := bs) h.2.2 h'.2.2⟩
theorem seenB_of_all {cenv : PMap Ctor.Info} : ∀ {B : ANF.Defs}, B.All (KnownFeat cenv) → B.All FewFeat → SeenB cenv B
  | .nil, _, _ => trivial
  | .cons _ _ _ e B, h, h' => ⟨h'.1, seenE_of_all (e := e) h.2.1 h'.2.1, seenB_of_all (B := B) h.2.2 h'.2.2⟩
end

mutual
theorem flatE_of_all {prims : Tag → Option Bool} : ∀ {e : ANF.Exp}, e.NoFn → e.All (PrimFeat prims) → FlatE prims e
  | .constr _ _ _ e, h, h' => flatE_of_all (e := e) h h'.2
  | .case _ bs, h, h' => by simp only [ANF.Exp.All] at h'; exact flatBs_of_all (bs := bs) h h'
  | .proj _ _ _ _ e, h, h' => by simp only [ANF.Exp.All] at h'; exact flatE_of_all (e := e) h h'
  | .letapp _ _ _ _ e, h, h' => flatE_of_all (e := e) h h'.2
  | .fn _ _, h, _ => h
  | .app _ _ _, _, _ => trivial
  | .primVal _ _ e, h, h' => flatE_of_all (e := e) h h'.2
  | .prim _ _ _ e, h, h' => ⟨h'.1, flatE_of_all (e := e) h h'.2⟩
  | .halt _, _, _ => trivial
theorem flatBs_of_all {prims : Tag → Option Bool} : ∀ {bs : ANF.Brs}, bs.NoFn → bs.All (PrimFeat prims) → FlatBs prims bs
  | .nil, _, _ => trivial
  | .cons _ e bs, h, h' => ⟨flatE_of_all (e := e) h.1 h'.2.1, flatBs_of_all (bs := bs) h.2 h'.2.2⟩
end

theorem flatB_of_all {prims : Tag → Option Bool} : ∀ {B : ANF.Defs}, B.NoFn → B.All (PrimFeat prims) → FlatB prims B
  | .nil, _, _ => trivial
  | .cons _ _ _ e B, h, h' => ⟨flatE_of_all (e := e) h.1 h'.2.1, flatB_of_all (B := B) h.2 h'.2.2⟩

theorem all_wrap {P : Feat → Prop} (hb : P .bundle) : ∀ {e : ANF.Exp}, e.All P → (wrapInFun e).All P
  | .fn _ _, h => h
  | .constr .., h | .case .., h | .proj .., h | .letapp .., h | .app .., h | .primVal .., h | .prim .., h | .halt .., h => ⟨hb, trivial, h⟩

/-- What is asked of the source: at most 251 constructors with arguments in each type, and integers are the only literals. -/
structure CSource (T : Types) (e : Src.Exp) : Prop where
  boxed : ∀ p ∈ T.decls, ∀ t ∈ p.2, Ctor.boxedCount t.ctors ≤ 251
  lits : SAll (fun _ _ => True) (fun _ => True) (fun p => ∃ n, p = .int n) (fun _ => True) e

/-- The configuration of the backend: the constructors are those of the compiled program, and the identifier of the result
is reserved. -/
structure CfgOk (C : Cfg) (cenv : PMap Ctor.Info) (k : Nat) : Prop where
  cenv : C.cenv = cenv
  result : C.result ≤ k

section
variable {G : HeapI} {direct : Bool} {T : Types} {arity : Nat → Option Nat} {k : Nat} {o : Opts} {marks : Var → Option Nat} {e : Src.Exp}
  {prims : Tag → List PVal → Option FO} {e' : ANF.Exp} {c' : Comp} {C : Cfg} {W : World} {ar : Tag → Nat} {body : Var} {M : CFun × List CFun}

/-- C49: no identifier of the optimised program is reserved: all are above the first program variable. -/
theorem C49_compiled (h : SourceP T arity k e) (hc : compile direct T arity k o marks e = some (e', c')) : ∀ x ∈ e'.bv, k < x := by
  obtain ⟨e₁, s, hi, h2⟩ := compile_inv h hc (fun _ _ => none)
  exact ANF.C46_above hi.input h2

/-- The constructors of compiled programs have the representations the C backend needs. -/
theorem ctors_after (h : SourceP T arity k e) (hs : CSource T e) (hc : compile direct T arity k o marks e = some (e', c')) : CtorsOk c'.cenv := by
  obtain ⟨e₁, s, hi, h2⟩ := compile_inv h hc (fun _ _ => none)
  obtain ⟨h3, h4⟩ := CGen.C24_ctors T.decls hs.boxed
  obtain ⟨ce, h1, h5, h6⟩ := ANF.pipe_env hi.input h2 (I := fun ce ct it => EnvOk ce ct it ∧ CtorsOk ce)
    (fun ce ct it n hI => ⟨hI.1.record n, h4 _ _ _ hI.2 (fun u j hj => ne_of_lt (hI.1.tag u j hj).2.2.2) rfl⟩)
    ⟨hi.env, by show CtorsOk s.cenv; rw [hi.cenv]; exact h3⟩
  rw [h1]
  refine h4 _ _ _ h6 (fun u j hj => ?_) rfl
  exact ne_of_gt (lt_of_lt_of_le (by decide : cloIndTag < defaultIndTag) (h5.tag u j hj).2.2.1)

/-- The instructions of compiled programs are as the C backend needs them. -/
theorem known_after (h : SourceP T arity k e) (hs : CSource T e) (hc : compile direct T arity k o marks e = some (e', c')) :
    e'.All (KnownFeat c'.cenv) := by
  obtain ⟨e₁, s, hi, h2⟩ := compile_inv h hc (fun _ _ => none)
  obtain ⟨_, hext⟩ := env_after hi.input h2 hi.env
  obtain ⟨k1, k2, k3⟩ := C46_constructors hi.input h2
  have hcar : Carries (T.params arity) T.Declared (fun d => ∃ n, T.Declared d n) (fun p => ∃ n, p = .int n) (fun _ => True) (KnownFeat s.cenv) := by
    have key : ∀ d n, T.Declared d n → ∃ i, s.cenv (T.tag d) = some i ∧ i.arity = n := fun d n hd => by
      obtain ⟨_, _, _, i, a4, a5⟩ := Types.tag_spec h.types hd
      exact ⟨i, by rw [hi.cenv]; exact a4, a5⟩
    refine ⟨key, hi.env.dflt, fun d ⟨n, hd⟩ => ?_, fun p hp => hp, fun _ _ _ _ => trivial, fun _ => trivial, fun _ => trivial, trivial⟩
    obtain ⟨i, h1, _⟩ := key d n hd
    exact ⟨i, h1⟩
  refine ANF.pipe_all hi.input (lt_of_lt_of_le (by decide : cloTag < defaultCtorTag) (Nat.le_of_lt hi.env.ct)) h2 (P := KnownFeat s.cenv)
    (fun _ _ => trivial) (fun _ _ => trivial) ?_ trivial ⟨_, k2, rfl⟩ (fun t i _ hi => ⟨i, hi, rfl⟩) (hi.feats hcar (fun _ => trivial) hs.lits)
  refine ⟨fun t n ⟨i, h1, h2⟩ => ⟨i, hext t i h1, h2⟩, fun t ⟨i, h1⟩ => ⟨i, hext t i h1⟩, fun _ _ _ => trivial, fun _ h => h, fun _ _ _ => trivial,
    fun _ => trivial, fun _ => trivial⟩

/-- C46: the C backend accepts every compiled program whose primitives it knows and in which calls agree with the tags of
functions.  Missing: that they do. -/
theorem C46_c_total_partial (h : SourceP T arity k e) (hs : CSource T e) (hc : compile direct T arity k o marks e = some (e', c'))
    (hC : CfgOk C c'.cenv k) (ha : e'.All (CallFeat ar)) (hp : e'.All (PrimFeat C.prims)) (body : Var) :
    ∃ M, compileC C body (wrapInFun e') = some M := by
  obtain ⟨e₁, c₁, h1, h2, _⟩ := C46_compile_total direct arity o marks h
  rw [hc] at h1; cases h1
  have hok : OkE C.cenv ar (wrapInFun e') := by
    rw [hC.cenv]
    exact okE_of_all (all_wrap trivial (known_after h hs hc)) (all_wrap trivial ha)
  have hp' : (wrapInFun e').All (PrimFeat C.prims) := all_wrap trivial hp
  rw [wrap_eq] at hok hp' ⊢
  have hf : (topDefs e').NoFn ∧ (topBody e').NoFn := by
    cases e' <;> first | exact h2 | exact ⟨trivial, h2⟩
  exact CGen.C24_compiles C body hok (flatB_of_all hf.1 hp'.2.1) (flatE_of_all hf.2 hp'.2.2)

/-- Compiled programs with the runtime they are linked to are as C24 and C25 require. -/
theorem linked (h : SourceP T arity k e) (hs : CSource T e) (hc : compile direct T arity k o marks e = some (e', c'))
    (hC : CfgOk C c'.cenv k) (ha : e'.All FewFeat) (hg : GcOk G c'.cenv (topDefs e') W) (hp : PrimsOk G ⟨c'.cenv, prims⟩ C.prims (topDefs e') W)
    (hG : G.Laws c'.cenv (topDefs e'))
    (hm : compileC C body (wrapInFun e') = some M) : CGen.Linked G ⟨c'.cenv, prims⟩ C W (topDefs e') (topBody e') body M := by
  obtain ⟨e₁, c₁, h1, _, h3, h4⟩ := C46_compile_total direct arity o marks h
  rw [hc] at h1; cases h1
  have hab := C49_compiled h hc
  have hok : SeenE c'.cenv (wrapInFun e') := seenE_of_all (all_wrap trivial (known_after h hs hc)) (all_wrap trivial ha)
  rw [wrap_eq] at hok hm
  have hbv : (ANF.Exp.fn (topDefs e') (topBody e')).bv = e'.bv := by cases e' <;> rfl
  have hfv : (ANF.Exp.fn (topDefs e') (topBody e')).fv = e'.fv := by
    cases e' <;> first | rfl | simp [topDefs, topBody, ANF.Exp.fv, ANF.Defs.fv, ANF.Defs.fvRaw, ANF.Defs.names]
  refine ⟨hC.cenv, ctors_after h hs hc, hg, hp, hG, fun hr => ?_, hm, hok, by rw [hbv]; exact h4, by rw [hfv]; exact h3⟩
  have := hab C.result (by rw [← hbv]; exact List.mem_append_left _ ((ANF.names_bv _).subset hr))
  exact absurd this (Nat.not_lt.mpr hC.result)

theorem wrap_run (S : Sig) (n : Nat) (e : ANF.Exp) : ANF.run S n emp (.fn (topDefs e) (topBody e)) = ANF.run S n emp e := by
  cases e <;> first | rfl | (cases n <;> rfl)

/-- C58: from source programs with primitive operations to C.  If a program yields data, then the C code compiled from it with
any options by the backend for direct style, linked with any collector and primitives that do what they should, and started in
any state of the heap, either runs out of memory or returns a word that represents the same data.  Missing: calls with more than
1024 arguments (`ha`; see C24_parameters_refuted). -/
theorem C58_c_partial {Q : Mode} (h : SourceP T arity k e) (hs : CSource T e) (hc : compile direct T arity k o marks e = some (e', c'))
    (hC : CfgOk C c'.cenv k) (ha : e'.All FewFeat) (hg : GcOk G c'.cenv (topDefs e') W) (hp : PrimsOk G ⟨c'.cenv, prims⟩ C.prims (topDefs e') W)
    (hG : G.Laws c'.cenv (topDefs e')) (hQ : OpsOk (T.params arity) ⟨T.cenv, prims⟩ Q)
    (hm : compileC C body (wrapInFun e') = some M) {d : Src.Data} (hv : Yields Q e d) (depth : Nat) (t : Th)
    (hd : ∀ k, OnChain t k → k < depth) (hle : t.alloc ≤ t.limit) (hok : t.Ok G c'.cenv (topDefs e')) :
    ∃ n, runC W M n depth t = .abort ∨ ∃ c t', runC W M n depth t = .ret c t' ∧
      VRep G c'.cenv (topDefs e') t'.mem t'.alloc t'.limit (toFO T.tag defaultCtorTag d).toVal c := by
  obtain ⟨n, hn⟩ := (C58_compile h hc hQ).1 d hv
  exact CGen.C24_returns_partial (linked h hs hc hC ha hg hp hG hm) ⟨n, by rw [wrap_run]; exact hn⟩ depth t hd hle hok

/-- C58: the C code of a program that is not stuck has no undefined behaviour (no access outside the nursery, the frame or the
argument array); if the program runs forever, the code does not return. -/
theorem C58_c_safe_partial {Q : Mode} (h : SourceP T arity k e) (hs : CSource T e) (hc : compile direct T arity k o marks e = some (e', c'))
    (hC : CfgOk C c'.cenv k) (ha : e'.All FewFeat) (hg : GcOk G c'.cenv (topDefs e') W) (hp : PrimsOk G ⟨c'.cenv, prims⟩ C.prims (topDefs e') W)
    (hG : G.Laws c'.cenv (topDefs e')) (hQ : OpsOk (T.params arity) ⟨T.cenv, prims⟩ Q)
    (hm : compileC C body (wrapInFun e') = some M) (n depth : Nat) (t : Th)
    (hd : ∀ k, OnChain t k → k < depth) (hle : t.alloc ≤ t.limit) (hok : t.Ok G c'.cenv (topDefs e')) :
    (¬ Fails Q e → runC W M n depth t ≠ .ub) ∧ (Loops Q e → runC W M n depth t = .abort ∨ runC W M n depth t = .oot) := by
  have hL := linked h hs hc hC ha hg hp hG hm
  obtain ⟨_, _, c3, c4⟩ := C58_compile h hc hQ
  constructor
  · intro hb
    refine CGen.C25_no_overflow_partial hL (fun ⟨m, hm⟩ => ?_) n depth t hd hle hok
    exact c4 hb ⟨m, by rw [← wrap_run]; exact hm⟩
  · intro hdv
    refine CGen.C24_diverges_partial hL (fun m => ?_) n depth t hd hle hok
    rw [wrap_run]
    exact c3 hdv m

/-- C46: from source programs to C.  If a program that applies no erased proof evaluates to data, then the C code compiled from it
with any options by the backend for direct style (which the compiler uses for programs converted in that style; the statement
holds of both), linked with any collector and primitives that do what they should, and started in any
state of the heap, either runs out of memory or returns a word that represents the same data.  `ha`: no call has more than
1024 arguments.  Missing: programs that apply an erased proof. -/
theorem C46_c_partial (h : Source T k e) (hs : CSource T e) (hc : compile direct T arity k o marks e = some (e', c'))
    (hC : CfgOk C c'.cenv k) (ha : e'.All FewFeat) (hg : GcOk G c'.cenv (topDefs e') W) (hp : PrimsOk G ⟨c'.cenv, prims⟩ C.prims (topDefs e') W)
    (hG : G.Laws c'.cenv (topDefs e'))
    (hm : compileC C body (wrapInFun e') = some M) {d : Src.Data} (hb : ¬ AppliesProof e) (hv : Src.Eval e d.toExp) (depth : Nat) (t : Th)
    (hd : ∀ k, OnChain t k → k < depth) (hle : t.alloc ≤ t.limit) (hok : t.Ok G c'.cenv (topDefs e')) :
    ∃ n, runC W M n depth t = .abort ∨ ∃ c t', runC W M n depth t = .ret c t' ∧
      VRep G c'.cenv (topDefs e') t'.mem t'.alloc t'.limit (toFO T.tag defaultCtorTag d).toVal c :=
  C58_c_partial h.p hs hc hC ha hg hp hG .plain hm (((Conv.C58_conservative h.closed).1 d).2 ⟨hv, hb⟩) depth t hd hle hok

/-- C46: the C code of a program that applies no erased proof has no undefined behaviour (no access outside the nursery, the
frame or the argument array); if the program diverges, the code does not return. -/
theorem C46_c_safe_partial (h : Source T k e) (hs : CSource T e) (hc : compile direct T arity k o marks e = some (e', c'))
    (hC : CfgOk C c'.cenv k) (ha : e'.All FewFeat) (hg : GcOk G c'.cenv (topDefs e') W) (hp : PrimsOk G ⟨c'.cenv, prims⟩ C.prims (topDefs e') W)
    (hG : G.Laws c'.cenv (topDefs e'))
    (hm : compileC C body (wrapInFun e') = some M) (hb : ¬ AppliesProof e) (n depth : Nat) (t : Th)
    (hd : ∀ k, OnChain t k → k < depth) (hle : t.alloc ≤ t.limit) (hok : t.Ok G c'.cenv (topDefs e')) :
    runC W M n depth t ≠ .ub ∧ (Src.Diverges true e → runC W M n depth t = .abort ∨ runC W M n depth t = .oot) := by
  obtain ⟨h1, h2⟩ := C58_c_safe_partial h.p hs hc hC ha hg hp hG .plain hm n depth t hd hle hok
  obtain ⟨_, c2, c3⟩ := Conv.C58_conservative h.closed
  exact ⟨h1 fun hf => hb (c2.1 hf), fun hd => h2 (c3.2 ⟨hd, hb⟩)⟩

/-- C46: the same from programs with global constants. -/
theorem C46_program_c_partial {P : List (Mut.Name × Nat)} {p : Mut.Environ} {t : Mut.Term} (hcr : Mut.CrctEnv p)
    (hP : ∀ c, Mut.Defined p c → Src.findPrim P c = none) (ht : t.crct (Mut.Defined p) 0) (hT : T.Ok)
    (hty : Typed T (Src.translateProgram P p t)) (hk : 1 ≤ k) (hs : CSource T (Src.translateProgram P p t))
    (hc : compile direct T arity k o marks (Src.translateProgram P p t) = some (e', c'))
    (hC : CfgOk C c'.cenv k) (ha : e'.All FewFeat) (hg : GcOk G c'.cenv (topDefs e') W) (hp : PrimsOk G ⟨c'.cenv, prims⟩ C.prims (topDefs e') W)
    (hG : G.Laws c'.cenv (topDefs e'))
    (hm : compileC C body (wrapInFun e') = some M) {d : Src.Data} (hb : ¬ AppliesProof (Src.translateProgram P p t))
    (hce : Mut.ConstsEval p) (hv : Mut.Wcbv p t d.toTerm) (depth : Nat) (th : Th) (hd : ∀ k, OnChain th k → k < depth) (hle : th.alloc ≤ th.limit)
    (hok : th.Ok G c'.cenv (topDefs e')) :
    ∃ n, runC W M n depth th = .abort ∨ ∃ c th', runC W M n depth th = .ret c th' ∧
      VRep G c'.cenv (topDefs e') th'.mem th'.alloc th'.limit (toFO T.tag defaultCtorTag d).toVal c :=
  C46_c_partial ⟨hT, Src.C32_closed hcr hP ht, hty, hk⟩ hs hc hC ha hg hp hG hm hb ((Src.C32_data hcr hP ht d).2 ⟨hce, hv⟩) depth th hd hle hok

end

/-! ## The statements are about real programs -/

open Conv (natTypes)

/-- What succTwice is compiled to. -/
def succTwiceCode : Bool → ANF.Exp
  | true => .constr 104 100 [] (.constr 106 101 [104] (.constr 108 101 [106] (.halt 108)))
  | false => .constr 110 100 [] (.constr 111 101 [110] (.constr 109 101 [111] (.halt 109)))

theorem succTwice_code (direct : Bool) : (compile direct natTypes (fun _ => none) 100 (ANF.Pipe.makeOptions direct 0 5 8)
    (fun _ => none) succTwice).map (fun r => r.1) = some (succTwiceCode direct) := by
  revert direct; decide +kernel

theorem succTwice_c : CSource natTypes succTwice :=
  ⟨by decide +kernel, ⟨⟨trivial, trivial, trivial⟩, trivial, trivial, trivial, trivial⟩⟩

/-- The compiled C code computes `S (S O)`, whatever the room in the nursery. -/
example (direct : Bool) (room : Nat) : ∃ e' c' M, compile direct natTypes (fun _ => none) 100 (ANF.Pipe.makeOptions direct 0 5 8) (fun _ => none)
      succTwice = some (e', c') ∧ compileC ⟨1, 5, fun _ => none, c'.cenv⟩ 1 (wrapInFun e') = some M ∧
    ∃ n, runC CGen.world0 M n 0 (CGen.th0 room) = .abort ∨ ∃ c t', runC CGen.world0 M n 0 (CGen.th0 room) = .ret c t' ∧
      VRep .top c'.cenv (topDefs e') t'.mem t'.alloc t'.limit
        (toFO natTypes.tag defaultCtorTag (.con 0 1 [.con 0 1 [.con 0 0 []]])).toVal c := by
  obtain ⟨⟨e', c'⟩, h1, h2⟩ := Option.map_eq_some_iff.1 (succTwice_code direct)
  cases h2
  have ha : (succTwiceCode direct).All (CallFeat fun _ => 0) := by cases direct <;> simp [succTwiceCode, ANF.Exp.All, CallFeat]
  have hf : (succTwiceCode direct).All FewFeat := by cases direct <;> simp [succTwiceCode, ANF.Exp.All, FewFeat]
  have hC : CfgOk ⟨1, 5, fun _ => none, c'.cenv⟩ c'.cenv 100 := ⟨rfl, (by decide : 5 ≤ 100)⟩
  obtain ⟨M, hM⟩ := C46_c_total_partial succTwice_source.p succTwice_c h1 hC ha (by
    cases direct <;> simp [succTwiceCode, ANF.Exp.All, PrimFeat]) 1
  refine ⟨_, c', M, h1, hM, ?_⟩
  refine C46_c_partial succTwice_source succTwice_c h1 hC hf (CGen.world0_ok (ctors_after succTwice_source.p succTwice_c h1) _)
    (CGen.prims_none _ _ _ _) (CGen.HeapI.top_laws _ _) hM succTwice_proofs succTwice_value 0 _
    (fun k hk => absurd hk CGen.th0_chain) (by simp [CGen.th0]) (CGen.th0_ok _ _ _)

end E2E
