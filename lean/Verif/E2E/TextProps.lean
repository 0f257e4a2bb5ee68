import Verif.E2E.CProps
import Verif.CGen.TextProps
import Verif.CGen.TextFits

/-!
# C64 from source programs: the C file compiled from a program computes what the program does
-/

namespace E2E

open Conv (Types OpsOk toFO)
open Src (Mode Yields Loops Fails)
open ANF (Var Tag PVal FO Sig Comp emp)
open ANF.Pipe (Opts)
open Ctor (PMap defaultCtorTag)
open CGen (HeapI Cfg World Th CFun GcOk PrimsOk OnChain VRep compileC runC wrapInFun)
open CGen.Text (genProgram functionTexts fileNames runT Fits TagsFit SizeE primsE vOk tOk fOk)
open CPrint (CFn Name ReadsFn NamesOk NEnv)

/-- What is assumed of the names in the file and of the sizes of a compiled program: the C functions and the compiler's own
identifiers come before the first identifier of the program, all C functions used have a name, and numbers fit in words. -/
structure FileOk (C : Cfg) (b : Name) (ps : List (Name × Nat)) (m : NEnv) (k : Nat) (e : ANF.Exp) : Prop where
  names : NamesOk b ps m
  own : 91 ≤ k
  result : vOk C.prims C.result
  before : ∀ p, C.prims p ≠ none → p ≤ k
  named : ∀ p ∈ primsE e, p ∈ ps.map (·.2)
  tags : TagsFit C.cenv
  size : SizeE e

variable {G : HeapI} {direct : Bool} {T : Types} {arity : Nat → Option Nat} {k : Nat} {o : Opts} {marks : Var → Option Nat} {e : Src.Exp}
  {prims : Tag → List PVal → Option FO} {e' : ANF.Exp} {c' : Comp} {C : Cfg} {W : World} {body : Var} {M : CFun × List CFun}
  {b : Name} {ps : List (Name × Nat)} {m : NEnv} {K : CFn × List CFn} {fs : List CFn}

/-- Compiled programs are as C64 requires. -/
theorem file_fits (h : SourceP T arity k e) (hc : compile direct T arity k o marks e = some (e', c'))
    (hf : FileOk C b ps m k (wrapInFun e')) : Fits C b ps m (wrapInFun e') where
  names := hf.names
  tags := hf.tags
  result := hf.result
  fits := by
    have hk := hf.own
    have hab := C49_compiled h hc
    obtain ⟨e₁, c₁, h1, _, h3, h4⟩ := C46_compile_total direct arity o marks h
    rw [hc] at h1
    cases h1
    have hw : (wrapInFun e').bv = e'.bv ∧ (wrapInFun e').fv = e'.fv := by
      cases e' <;> first
        | exact ⟨rfl, rfl⟩
        | simp [wrapInFun, ANF.Exp.fv, ANF.Exp.bv, ANF.Defs.bv, ANF.Defs.fvRaw, ANF.Defs.names]
    refine CGen.Text.fits_of (P := fun x => k < x) (fun x hx => ?_) _ ?_ ?_ (fun p hp => ?_) hf.size
    · have hne : ∀ n : Nat, n ≤ 91 → x ≠ n := fun n hn => Nat.ne_of_gt (Nat.lt_of_le_of_lt (Nat.le_trans hn hk) hx)
      refine ⟨?_, ?_, ?_⟩
      · exact ⟨hne 26 (by decide), hne 28 (by decide), hne 29 (by decide), hne 91 (by decide)⟩
      · exact ⟨hne 79 (by decide), hne 80 (by decide), hne 84 (by decide)⟩
      · by_contra hn
        exact absurd (hf.before x hn) (Nat.not_le.2 hx)
    · rw [hw.2, h3]; simp
    · rw [hw.1]; exact hab
    · obtain ⟨q, hq, rfl⟩ := List.mem_map.1 (hf.named p hp)
      have := (hf.names.prim q hq).2.2.1
      refine ⟨?_, ?_, ?_⟩ <;> (rintro h; rw [h] at this; exact this (by decide))

/-- **C64, from source programs.** If a program yields data, then however the text of its C file is read, what is read, linked
with any collector and primitives that do what they should and started in any state of the heap, either runs out of memory or returns
a word that represents the same data.  Missing: see C64_text_partial and C58_c_partial. -/
theorem C64_source_partial {Q : Mode} (h : SourceP T arity k e) (hs : CSource T e) (hc : compile direct T arity k o marks e = some (e', c'))
    (hC : CfgOk C c'.cenv k) (ha : e'.All FewFeat) (hg : GcOk G c'.cenv (topDefs e') W) (hp : PrimsOk G ⟨c'.cenv, prims⟩ C.prims (topDefs e') W)
    (hG : G.Laws c'.cenv (topDefs e')) (hQ : OpsOk (T.params arity) ⟨T.cenv, prims⟩ Q)
    (hm : compileC C body (wrapInFun e') = some M) (hf : FileOk C b ps m k (wrapInFun e'))
    (hK : genProgram (fileNames b ps m) C body (wrapInFun e') = some K) (hr : List.Forall₂ ReadsFn (functionTexts K) fs)
    {d : Src.Data} (hv : Yields Q e d) (depth : Nat) (t : Th)
    (hd : ∀ k, OnChain t k → k < depth) (hle : t.alloc ≤ t.limit) (hok : t.Ok G c'.cenv (topDefs e')) :
    ∃ n, runT (fileNames b ps m) C.prims W fs n depth t = .abort ∨ ∃ c t', runT (fileNames b ps m) C.prims W fs n depth t = .ret c t' ∧
      VRep G c'.cenv (topDefs e') t'.mem t'.alloc t'.limit (toFO T.tag defaultCtorTag d).toVal c := by
  have hL := linked h hs hc hC ha hg hp hG hm
  simp only [CGen.Text.C64_text_partial (file_fits h hc hf) (by rw [wrap_eq]; exact hL.cenv ▸ hL.seen) hm hK hr]
  exact C58_c_partial h hs hc hC ha hg hp hG hQ hm hv depth t hd hle hok

/-- **C64, from source programs: safety.** The C file of a program that is not stuck has no undefined behaviour; if the program
runs forever, the file does not return. -/
theorem C64_source_safe_partial {Q : Mode} (h : SourceP T arity k e) (hs : CSource T e) (hc : compile direct T arity k o marks e = some (e', c'))
    (hC : CfgOk C c'.cenv k) (ha : e'.All FewFeat) (hg : GcOk G c'.cenv (topDefs e') W) (hp : PrimsOk G ⟨c'.cenv, prims⟩ C.prims (topDefs e') W)
    (hG : G.Laws c'.cenv (topDefs e')) (hQ : OpsOk (T.params arity) ⟨T.cenv, prims⟩ Q)
    (hm : compileC C body (wrapInFun e') = some M) (hf : FileOk C b ps m k (wrapInFun e'))
    (hK : genProgram (fileNames b ps m) C body (wrapInFun e') = some K) (hr : List.Forall₂ ReadsFn (functionTexts K) fs)
    (n depth : Nat) (t : Th)
    (hd : ∀ k, OnChain t k → k < depth) (hle : t.alloc ≤ t.limit) (hok : t.Ok G c'.cenv (topDefs e')) :
    (¬ Fails Q e → runT (fileNames b ps m) C.prims W fs n depth t ≠ .ub) ∧
    (Loops Q e → runT (fileNames b ps m) C.prims W fs n depth t = .abort ∨ runT (fileNames b ps m) C.prims W fs n depth t = .oot) := by
  have hL := linked h hs hc hC ha hg hp hG hm
  simp only [CGen.Text.C64_text_partial (file_fits h hc hf) (by rw [wrap_eq]; exact hL.cenv ▸ hL.seen) hm hK hr]
  exact C58_c_safe_partial h hs hc hC ha hg hp hG hQ hm n depth t hd hle hok

/-- **C64, from source programs: totality.** The C file exists and can be read. -/
theorem C64_source_readable_partial (h : SourceP T arity k e) (hs : CSource T e) (hc : compile direct T arity k o marks e = some (e', c'))
    (hC : CfgOk C c'.cenv k) (ha : e'.All FewFeat) (hm : compileC C body (wrapInFun e') = some M) (hf : FileOk C b ps m k (wrapInFun e')) :
    ∃ K, genProgram (fileNames b ps m) C body (wrapInFun e') = some K ∧ ∃ fs, List.Forall₂ ReadsFn (functionTexts K) fs := by
  refine CGen.Text.C64_readable_partial (file_fits h hc hf) ?_ hm
  rw [hC.cenv]
  exact seenE_of_all (all_wrap trivial (known_after h hs hc)) (all_wrap trivial ha)

/-! ## The statements are about real programs -/

open Conv (natTypes)

/-- The constructors of compiled programs: those with tags below the next free one. -/
theorem tags_below (h : SourceP T arity k e) (hc : compile direct T arity k o marks e = some (e', c')) {t : Tag} {i : Ctor.Info}
    (ht : c'.cenv t = some i) : t = Ctor.cloTag ∨ t < c'.ctag := by
  obtain ⟨e₁, s, hi, h2⟩ := compile_inv h hc (fun _ _ => none)
  obtain ⟨ce, h1, h3⟩ := ANF.pipe_env hi.input h2 (I := fun ce ct it => EnvOk ce ct it) (fun _ _ _ n hI => hI.record n) hi.env
  by_cases he : t = Ctor.cloTag
  · exact .inl he
  · rw [h1] at ht
    simp only [ANF.addClosureTag, PMap.set, if_neg he] at ht
    exact .inr (h3.tag t i ht).2.1

theorem succTwice_tags (direct : Bool) : (compile direct natTypes (fun _ => none) 100 (ANF.Pipe.makeOptions direct 0 5 8)
    (fun _ => none) succTwice).map (fun r => (Ctor.cloTag :: List.range r.2.ctag).all fun t =>
      match CGen.ctorRep r.2.cenv t with | some r => decide (r.tag < 2 ^ 63) | none => true) = some true := by
  revert direct; decide +kernel

/-- The C file of `S (S O)` computes it, whatever the room in the nursery. -/
example (direct : Bool) (room : Nat) : ∃ e' c' K, compile direct natTypes (fun _ => none) 100 (ANF.Pipe.makeOptions direct 0 5 8) (fun _ => none)
      succTwice = some (e', c') ∧
    genProgram (fileNames "body".toList [] CGen.Text.natNames) ⟨1, 93, fun _ => none, c'.cenv⟩ 90 (wrapInFun e') = some K ∧
    (∃ fs, List.Forall₂ ReadsFn (functionTexts K) fs) ∧ ∀ fs, List.Forall₂ ReadsFn (functionTexts K) fs →
    ∃ n, runT (fileNames "body".toList [] CGen.Text.natNames) (fun _ => none) CGen.world0 fs n 0 (CGen.th0 room) = .abort ∨
      ∃ c t', runT (fileNames "body".toList [] CGen.Text.natNames) (fun _ => none) CGen.world0 fs n 0 (CGen.th0 room) = .ret c t' ∧
      VRep .top c'.cenv (topDefs e') t'.mem t'.alloc t'.limit
        (toFO natTypes.tag defaultCtorTag (.con 0 1 [.con 0 1 [.con 0 0 []]])).toVal c := by
  obtain ⟨⟨e', c'⟩, h1, h2⟩ := Option.map_eq_some_iff.1 (succTwice_code direct)
  have h3 := succTwice_tags direct
  rw [h1] at h3
  cases h2
  have ha : (succTwiceCode direct).All (CallFeat fun _ => 0) := by cases direct <;> simp [succTwiceCode, ANF.Exp.All, CallFeat]
  have hf : (succTwiceCode direct).All FewFeat := by cases direct <;> simp [succTwiceCode, ANF.Exp.All, FewFeat]
  have hC : CfgOk ⟨1, 93, fun _ => none, c'.cenv⟩ c'.cenv 100 := ⟨rfl, (by decide : 93 ≤ 100)⟩
  obtain ⟨M, hM⟩ := C46_c_total_partial succTwice_source.p succTwice_c h1 hC ha (by
    cases direct <;> simp [succTwiceCode, ANF.Exp.All, PrimFeat]) 90
  have hF : FileOk ⟨1, 93, fun _ => none, c'.cenv⟩ "body".toList [] CGen.Text.natNames 100 (wrapInFun (succTwiceCode direct)) := by
    refine ⟨CGen.Text.natNames_ok, by decide, by simp [vOk, tOk, fOk], fun p hp => absurd rfl hp, ?_, ?_, ?_⟩
    · cases direct <;> simp [succTwiceCode, wrapInFun, primsE, CGen.Text.primsB]
    · intro t r hr
      have : t = Ctor.cloTag ∨ t < c'.ctag := by
        cases hi : c'.cenv t with
        | none => simp [CGen.ctorRep, hi] at hr
        | some i => exact tags_below succTwice_source.p h1 hi
      simp only [Option.map_some, Option.some.injEq, List.all_eq_true] at h3
      have h4 := h3 t (by rcases this with h | h <;> simp [h])
      rw [show CGen.ctorRep c'.cenv t = some r from hr] at h4
      simpa using h4
    · cases direct <;> simp [succTwiceCode, wrapInFun, SizeE, CGen.Text.SizeB, CGen.maxAllocsE]
  obtain ⟨K, hK, hr⟩ := C64_source_readable_partial succTwice_source.p succTwice_c h1 hC hf hM hF
  refine ⟨_, c', K, h1, hK, hr, fun fs hfs => ?_⟩
  exact C64_source_partial succTwice_source.p succTwice_c h1 hC hf (CGen.world0_ok (ctors_after succTwice_source.p succTwice_c h1) _)
    (CGen.prims_none _ _ _ _) (CGen.HeapI.top_laws _ _) .plain hM hF hK hfs
    (((Conv.C58_conservative succTwice_source.closed).1 _).2 ⟨succTwice_value, succTwice_proofs⟩) 0 _
    (fun k hk => absurd hk CGen.th0_chain) (by simp [CGen.th0]) (CGen.th0_ok _ _ _)

end E2E
