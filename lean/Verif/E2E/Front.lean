import Verif.ANF.PipeProps
import Verif.Conv.Feat
import Verif.Conv.PrimProps
import Verif.Wasm.GenCtor

/-!
# C46: from the source language to optimised LambdaANF

The conversion to LambdaANF, in direct or in continuation-passing style, followed by the optimising pipeline.
-/

namespace E2E

open Conv (Types InputP Typed OpsOk convertTopAnf AppliesProof toFO SAll Carries)
open Src (Mode Yields Finishes Loops Fails)
open ANF (Var Tag PVal FO Sig Comp Feat Returns emp PipeInput C46_total C46_data C46_preserves C46_constructors Hoisted)
open ANF.Pipe (Opts anfPipeline initial)
open Ctor (PMap cloTag cloIndTag defaultCtorTag defaultIndTag)

/-- The conversion the option `direct` selects (pipeline.v:74): `compile_LambdaANF_ANF` (toplevel.v:69-80) or
`compile_LambdaANF_CPS` (toplevel.v:56-67). -/
def convertTop (direct : Bool) (T : Types) (arity : Nat → Option Nat) (k : Nat) (e : Src.Exp) : Option (ANF.Exp × Comp) :=
  if direct then convertTopAnf T arity k e else Conv.convertTopCps T arity k e

/-- The conversion followed by `run_anf_pipeline` (toplevel.v:195-211). -/
def compile (direct : Bool) (T : Types) (arity : Nat → Option Nat) (k : Nat) (o : Opts) (marks : Var → Option Nat) (e : Src.Exp) :
    Option (ANF.Exp × Comp) :=
  (convertTop direct T arity k e).bind fun r => anfPipeline o k marks r.1 (initial r.1 r.2.ctag r.2.itag r.2.ftag r.2.cenv)

/-- Integer literals have 63 bits. -/
def Literals (e : Src.Exp) : Prop := SAll (fun _ _ => True) (fun _ => True) (fun p => ∀ n, p = .int n → n < 2 ^ 63) (fun _ => True) e

/-- What programs are asked to satisfy: declared types, no free variables, constructors used as declared, and `k` is a
positive identifier. -/
structure Source (T : Types) (k : Nat) (e : Src.Exp) : Prop where
  types : T.Ok
  closed : e.wf 0
  typed : Typed T e
  first : 1 ≤ k

/-- The same for programs that may use primitive operations with an arity. -/
structure SourceP (T : Types) (arity : Nat → Option Nat) (k : Nat) (e : Src.Exp) : Prop where
  types : T.Ok
  closed : e.wfp arity 0
  typed : Typed T e
  first : 1 ≤ k

theorem Source.p {T : Types} {arity : Nat → Option Nat} {k : Nat} {e : Src.Exp} (h : Source T k e) : SourceP T arity k e :=
  ⟨h.types, h.closed.p, h.typed, h.first⟩

/-! ## The constructor environment -/

/-- Tags and ordinals of the constructor environment of a program. -/
structure EnvOk (ce : PMap Ctor.Info) (ct it : Nat) : Prop where
  ord : Wasm.OrdOk ce
  tag : ∀ t i, ce t = some i → defaultCtorTag ≤ t ∧ t < ct ∧ defaultIndTag ≤ i.indTag ∧ i.indTag < it
  ct : defaultCtorTag < ct
  it : defaultIndTag < it
  dflt : ∃ i, ce defaultCtorTag = some i ∧ i.arity = 0

theorem EnvOk.step {ice : Ctor.Env} (h : EnvOk ice.ce ice.ncT ice.niT) (x : Ctor.Flat) :
    EnvOk (Ctor.stepTy ice x).ce (Ctor.stepTy ice x).ncT (Ctor.stepTy ice x).niT := by
  have ho : Wasm.OrdInv ice := ⟨h.ord, fun t i hi => ⟨(h.tag t i hi).2.1, (h.tag t i hi).2.2.2⟩⟩
  have ho' := ho.step x
  obtain ⟨s1, s2, s3, s4, _⟩ := Ctor.stepTy_eq ice x
  refine ⟨ho'.ord, fun t i hi => ⟨?_, (ho'.tag t i hi).1, ?_, (ho'.tag t i hi).2⟩, ?_, ?_, ?_⟩
  · by_contra hlt
    rw [s3 t (.inl (by have := h.ct; omega))] at hi
    exact hlt (h.tag t i hi).1
  · by_cases hlt : t < ice.ncT
    · rw [s3 t (.inl hlt)] at hi; exact (h.tag t i hi).2.2.1
    by_cases hge : ice.ncT + x.2.2.ctors.length ≤ t
    · rw [s3 t (.inr hge)] at hi; exact (h.tag t i hi).2.2.1
    · have hj : x.2.2.ctors[t - ice.ncT]? = some (x.2.2.ctors[t - ice.ncT]'(by omega)) := List.getElem?_eq_getElem (by omega)
      have := s4 _ _ hj
      rw [show ice.ncT + (t - ice.ncT) = t by omega, hi] at this
      cases this
      exact Nat.le_of_lt h.it
  · rw [s1]; have := h.ct; omega
  · rw [s2]; have := h.it; omega
  · rw [s3 _ (.inl h.ct)]; exact h.dflt

theorem EnvOk.fold : ∀ (fl : List Ctor.Flat) (ice : Ctor.Env), EnvOk ice.ce ice.ncT ice.niT →
    EnvOk (fl.foldl Ctor.stepTy ice).ce (fl.foldl Ctor.stepTy ice).ncT (fl.foldl Ctor.stepTy ice).niT
  | [], _, h => h
  | x :: fl, ice, h => by
    simp only [List.foldl_cons]
    exact EnvOk.fold fl _ (h.step x)

theorem env_ok (g : List (Ctor.Kername × List Ctor.Ityp)) : EnvOk (Ctor.convertEnv defaultCtorTag defaultIndTag g).ce
    (Ctor.convertEnv defaultCtorTag defaultIndTag g).ncT (Ctor.convertEnv defaultCtorTag defaultIndTag g).niT := by
  unfold Ctor.convertEnv
  simp only [Ctor.convertEnv'_fold]
  apply EnvOk.fold
  have key : ∀ t i, (PMap.set defaultCtorTag { name := none, indName := none, indTag := defaultIndTag, arity := 0, ordinal := 0 }
      (PMap.empty : PMap Ctor.Info)) t = some i →
      t = defaultCtorTag ∧ i = ({ name := none, indName := none, indTag := defaultIndTag, arity := 0, ordinal := 0 } : Ctor.Info) := by
    intro t i h
    unfold PMap.set at h
    split at h
    · rename_i e; cases h; exact ⟨e, rfl⟩
    · cases h
  refine ⟨?_, ?_, Nat.lt_succ_self _, Nat.lt_succ_self _, ⟨⟨none, none, defaultIndTag, 0, 0⟩, by simp [PMap.set], rfl⟩⟩
  · intro t t' i i' ht ht' _ _ _
    rw [(key t i ht).1, (key t' i' ht').1]
  · intro t i ht; obtain ⟨rfl, rfl⟩ := key t i ht; exact ⟨le_refl _, Nat.lt_succ_self _, le_refl _, Nat.lt_succ_self _⟩

/-! ## The conversion and the pipeline -/

section
variable {direct : Bool} {T : Types} {arity : Nat → Option Nat} {k : Nat} {o : Opts} {marks : Var → Option Nat} {e : Src.Exp}
  {prims : Tag → List PVal → Option FO} {e' : ANF.Exp} {c' : Comp}

theorem maxVar_bv {e : ANF.Exp} {x : Var} (h : x ∈ e.bv) : x ≤ ANF.Unc.maxVar e :=
  le_max_of_le_left (Finset.le_sup (f := id) (Finset.mem_union_right _ (List.mem_toFinset.2 h)))

theorem pipeInput {S : Sig} {e₁ : ANF.Exp} {s : Comp} (h : InputP T arity k e S e₁ s) :
    PipeInput e₁ (initial e₁ s.ctag s.itag s.ftag s.cenv) := by
  obtain ⟨h1, h2, h3⟩ := Conv.C43_anf_conversion h
  refine ⟨h1, .inl h2, fun x hx => Nat.lt_succ_of_le (maxVar_bv hx), ?_, fun t ht => Conv.C43_anf_tags h t ht⟩
  exact Nat.lt_succ_of_le (le_max_right _ _)

/-- Constructors of the program before closure conversion. -/
def SrcFeat (s : Comp) : Feat → Prop
  | .con t n => t < s.ctag ∧ t ≠ cloTag ∧ ∀ i, s.cenv t = some i → i.arity = n
  | .val p => ∀ n, p = .int n → n < 2 ^ 63
  | _ => True

theorem src_carries {s : Comp} (hT : T.Ok) (h2 : s.cenv = T.cenv)
    (h3 : s.ctag = (Ctor.convertEnv defaultCtorTag defaultIndTag T.decls).ncT) :
    Carries (T.params arity) T.Declared (fun d => ∃ n, T.Declared d n) (fun p => ∀ n, p = .int n → n < 2 ^ 63) (fun _ => True) (SrcFeat s) := by
  have hen := env_ok T.decls
  refine ⟨fun d n hd => ?_, ?_, fun _ _ => trivial, fun p hp => hp, fun _ _ _ _ => trivial, fun _ => trivial, fun _ => trivial, trivial⟩
  · obtain ⟨a1, a2, a3, i, a4, a5⟩ := Types.tag_spec hT hd
    refine ⟨by rw [h3]; exact a3, a2, fun j hj => ?_⟩
    rw [h2] at hj
    have : T.cenv (T.tag d) = some j := hj
    rw [a4] at this; cases this; exact a5
  · refine ⟨by rw [h3]; exact hen.ct, (by decide : defaultCtorTag ≠ cloTag), fun i hi => ?_⟩
    rw [h2] at hi
    obtain ⟨j, hj, h0⟩ := hen.dflt
    have : some i = some j := hi.symm.trans hj
    cases this; exact h0

theorem tag_carries {s : Comp} (hT : T.Ok) (h3 : s.ctag = (Ctor.convertEnv defaultCtorTag defaultIndTag T.decls).ncT) :
    Carries (T.params arity) T.Declared (fun d => ∃ n, T.Declared d n) (fun _ => True) (fun _ => True) (ANF.TagsIn fun t => t < s.ctag ∧ t ≠ cloTag) :=
  ⟨fun _ _ _ => trivial, trivial, fun d ⟨n, hd⟩ => by
    obtain ⟨_, h5, h6, _⟩ := Types.tag_spec hT hd
    exact ⟨by rw [h3]; exact h6, h5⟩, fun _ _ => trivial, fun _ _ _ _ => trivial, fun _ => trivial, fun _ => trivial, trivial⟩

/-- What both conversions guarantee. -/
structure Converted (direct : Bool) (T : Types) (arity : Nat → Option Nat) (prims : Tag → List PVal → Option FO) (e : Src.Exp) (e₁ : ANF.Exp) (s : Comp) :
    Prop where
  cenv : s.cenv = T.cenv
  env : EnvOk s.cenv s.ctag s.itag
  input : PipeInput e₁ (initial e₁ s.ctag s.itag s.ftag s.cenv)
  feats : ∀ {V W Q}, Carries (T.params arity) T.Declared (fun d => ∃ n, T.Declared d n) V W Q → (direct = true → Q .letcall) →
    SAll (fun _ _ => True) (fun _ => True) V W e → e₁.All Q
  ctag : s.ctag = (Ctor.convertEnv defaultCtorTag defaultIndTag T.decls).ncT
  sem : ∀ Q : Mode, OpsOk (T.params arity) ⟨T.cenv, prims⟩ Q →
    (∀ d, Yields Q e d → Returns ⟨T.cenv, prims⟩ emp e₁ (toFO T.tag defaultCtorTag d).toVal) ∧
    (Finishes Q e → ∃ w, Returns ⟨T.cenv, prims⟩ emp e₁ w) ∧ (Loops Q e → ANF.Diverges ⟨T.cenv, prims⟩ emp e₁)

theorem converted_anf (h : SourceP T arity k e) {e₁ : ANF.Exp} {s : Comp} (h1 : convertTopAnf T arity k e = some (e₁, s)) :
    Converted true T arity prims e e₁ s := by
  have hi : InputP T arity k e ⟨s.cenv, prims⟩ e₁ s := ⟨h.types, h.closed, h.typed, h1, rfl⟩
  obtain ⟨h2, hs, h3⟩ := hi.eqs
  have hi : InputP T arity k e ⟨T.cenv, prims⟩ e₁ s := ⟨h.types, h.closed, h.typed, h1, hs.symm⟩
  refine ⟨hs, ?_, pipeInput hi, fun hQ hd hl => ?_, h3, fun Q hQ => Conv.C58_anf hi hQ⟩
  · simp only [convertTopAnf] at h1
    split at h1
    · cases h1; exact env_ok _
    · cases h1
  · simp only [Conv.convExp] at h2
    split at h2
    · rename_i x C k' hc
      simp only [Option.some.injEq, Prod.mk.injEq] at h2
      obtain ⟨rfl, -⟩ := h2
      exact Conv.conv_all ⟨hQ, hd rfl⟩ e hc (h.typed.all hl) _ trivial
    · cases h2

theorem converted_cps (h : SourceP T arity k e) {e₁ : ANF.Exp} {s : Comp} (h1 : Conv.convertTopCps T arity k e = some (e₁, s)) :
    Converted false T arity prims e e₁ s := by
  have hi : Conv.Cps.InputP T arity k e ⟨s.cenv, prims⟩ e₁ s := ⟨h.types, h.closed, h.typed, h1, rfl⟩
  obtain ⟨h2, hs⟩ := hi.eqs
  have hi : Conv.Cps.InputP T arity k e ⟨T.cenv, prims⟩ e₁ s := ⟨h.types, h.closed, h.typed, h1, hs.symm⟩
  have h3 : s.ctag = (Ctor.convertEnv defaultCtorTag defaultIndTag T.decls).ncT ∧ EnvOk s.cenv s.ctag s.itag := by
    simp only [Conv.convertTopCps] at h1
    split at h1
    · cases h1; exact ⟨rfl, env_ok _⟩
    · cases h1
  simp only [Conv.cpsWhole] at h2
  split at h2
  · rename_i m k₁ hc
    simp only [Option.some.injEq, Prod.mk.injEq] at h2
    obtain ⟨rfl, -⟩ := h2
    have hall : ∀ {V W Q}, Carries (T.params arity) T.Declared (fun d => ∃ n, T.Declared d n) V W Q →
        SAll (fun _ _ => True) (fun _ => True) V W e → (ANF.Exp.fn (.cons (k + 1) (T.params arity).konTag [k] m
          (Conv.one k (T.params arity).konTag [k + 2] (.halt (k + 2)))) (.app (k + 1) (T.params arity).konTag [k])).All Q :=
      fun hQ hl => ⟨hQ.bundle, ⟨hQ.kon _, Conv.cps_all hQ e hc (h.typed.all hl), ⟨hQ.kon _, trivial, trivial⟩⟩, hQ.kon _⟩
    obtain ⟨f, v⟩ := Conv.Cps.cps_wf e hc h.closed
    have hb := Conv.Cps.cps_bound (vn := []) (P := T.params arity) e h.closed hc
    have hf : Conv.Fresh ((k + 1) :: k :: (k + 2) :: m.bv) k k₁ :=
      (Conv.Fresh.cons (.cons (.cons f (by vomega)) (by vomega)) (by vomega) : Conv.Fresh (k :: (k + 1) :: (k + 2) :: m.bv) k k₁).perm (.swap _ _ _)
    refine ⟨hs, h3.2, ⟨(Conv.Cps.C43_cps_conversion_partial hi).1, .inr ⟨_, _, _, _, _, rfl, fun y hy => ?_, hf.nodup⟩,
      fun x hx => Nat.lt_succ_of_le (maxVar_bv hx), Nat.lt_succ_of_le (le_max_right _ _), fun t ht => ?_⟩, fun hQ _ => hall hQ, h3.1,
      fun Q hQ => Conv.C58_cps hi hQ⟩
    · have := v y hy; simpa using this
    · exact ANF.Exp.all_tags (hall (tag_carries h.types h3.1) (Conv.sall_true e)) t ht
  · cases h2

theorem converted (h : SourceP T arity k e) {e₁ : ANF.Exp} {s : Comp} (h1 : convertTop direct T arity k e = some (e₁, s)) :
    Converted direct T arity prims e e₁ s := by
  cases direct with
  | true => exact converted_anf h h1
  | false => exact converted_cps h h1

/-- The parts of a compilation. -/
theorem compile_inv (h : SourceP T arity k e) (hc : compile direct T arity k o marks e = some (e', c'))
    (prims : Tag → List PVal → Option FO) : ∃ e₁ s, Converted direct T arity prims e e₁ s ∧
      anfPipeline o k marks e₁ (initial e₁ s.ctag s.itag s.ftag s.cenv) = some (e', c') := by
  obtain ⟨⟨e₁, s⟩, h1, h2⟩ := Option.bind_eq_some_iff.1 hc
  exact ⟨e₁, s, converted h h1, h2⟩

/-- C46: compilation to optimised LambdaANF succeeds on every source program, in either style and with any options; the result
is closed, its binders are distinct and all its functions are defined at the top. -/
theorem C46_compile_total (direct : Bool) (arity : Nat → Option Nat) (o : Opts) (marks : Var → Option Nat) (h : SourceP T arity k e) :
    ∃ e' c', compile direct T arity k o marks e = some (e', c') ∧ Hoisted e' ∧ e'.fv = ∅ ∧ e'.bv.Nodup := by
  obtain ⟨⟨e₁, s⟩, h1⟩ : ∃ r, convertTop direct T arity k e = some r := by
    cases direct with
    | true => exact Conv.C34_total T arity k h.closed
    | false => exact Conv.Cps.C35_total T arity k h.closed
  obtain ⟨e', c', h2, h3, h4, h5, _⟩ := C46_total o k marks (converted (prims := fun _ _ => none) h h1).input
  exact ⟨e', c', by rw [compile, h1]; exact h2, h3, h4, h5⟩

/-- C58: compilation of programs with primitive operations to optimised LambdaANF, in either style and with any options.  If
the program yields data, the optimised program returns the corresponding tree; if it has any value, the optimised program
returns one; if it runs forever, so does the optimised program; and unless it is stuck, the optimised program does not go
wrong. -/
theorem C58_compile {Q : Mode} (h : SourceP T arity k e) (hc : compile direct T arity k o marks e = some (e', c'))
    (hQ : OpsOk (T.params arity) ⟨T.cenv, prims⟩ Q) :
    (∀ d, Yields Q e d → Returns ⟨c'.cenv, prims⟩ emp e' (toFO T.tag defaultCtorTag d).toVal) ∧
    (Finishes Q e → ∃ w, Returns ⟨c'.cenv, prims⟩ emp e' w) ∧ (Loops Q e → ANF.Diverges ⟨c'.cenv, prims⟩ emp e') ∧
    (¬ Fails Q e → ¬ ANF.GoesWrong ⟨c'.cenv, prims⟩ emp e') := by
  obtain ⟨e₁, s, hi, h2⟩ := compile_inv h hc prims
  obtain ⟨s1, s2, s3⟩ := hi.sem Q hQ
  have p := C46_preserves ⟨T.cenv, prims⟩ hi.input hi.cenv.symm h2
  have h2' : Finishes Q e → ∃ w, Returns ⟨c'.cenv, prims⟩ emp e' w := fun hf => by
    obtain ⟨w, hw⟩ := s2 hf
    obtain ⟨w', hw', _⟩ := p.1 w hw
    exact ⟨w', hw'⟩
  have h3' : Loops Q e → ANF.Diverges ⟨c'.cenv, prims⟩ emp e' := fun hl => p.2 (s3 hl)
  refine ⟨fun d hd => C46_data ⟨T.cenv, prims⟩ hi.input hi.cenv.symm h2 (s1 d hd), h2', h3', ?_⟩
  rintro hns ⟨n, hn⟩
  rcases (Conv.C58_outcomes Q e).1 with hf | hs | hd
  · obtain ⟨w, m, hw⟩ := h2' hf
    rcases Nat.le_total n m with hle | hle
    · have := ANF.run_mono (S := ⟨c'.cenv, prims⟩) (ρ := emp) (e := e') hle (by rw [hn]; trivial)
      rw [hn, hw] at this; cases this
    · have := ANF.run_mono (S := ⟨c'.cenv, prims⟩) (ρ := emp) (e := e') hle (by rw [hw]; trivial)
      rw [hn, hw] at this; cases this
  · exact hns hs
  · have := h3' hd n
    rw [hn] at this; cases this

/-- C46: if a program that applies no erased proof evaluates to data, the optimised program returns the corresponding tree.
Missing: programs that apply an erased proof (`C34_erased_application_refuted`); for primitive operations see `C58_compile`. -/
theorem C46_compile_data_partial (h : Source T k e) (hc : compile direct T arity k o marks e = some (e', c'))
    {d : Src.Data} (hb : ¬ AppliesProof e) (hv : Src.Eval e d.toExp) :
    Returns ⟨c'.cenv, prims⟩ emp e' (toFO T.tag defaultCtorTag d).toVal :=
  (C58_compile h.p hc .plain).1 d (((Conv.C58_conservative h.closed).1 d).2 ⟨hv, hb⟩)

/-- C46: if it evaluates to any value, the optimised program returns one. -/
theorem C46_compile_returns_partial (h : Source T k e) (hc : compile direct T arity k o marks e = some (e', c'))
    {v : Src.Exp} (hb : ¬ AppliesProof e) (hv : Src.Eval e v) : ∃ w, Returns ⟨c'.cenv, prims⟩ emp e' w := by
  obtain ⟨n, u, hu, _⟩ := Conv.Cps.srun_of_eval h.closed hb hv
  exact (C58_compile h.p hc .plain).2.1 ⟨u, Src.big_iff.2 ⟨n, hu⟩⟩

/-- C46: if it diverges, so does the optimised program. -/
theorem C46_compile_diverges_partial (h : Source T k e) (hc : compile direct T arity k o marks e = some (e', c'))
    (hb : ¬ AppliesProof e) (hd : Src.Diverges true e) : ANF.Diverges ⟨c'.cenv, prims⟩ emp e' :=
  (C58_compile h.p hc .plain).2.2.1 ((Conv.C58_conservative h.closed).2.2.2 ⟨hd, hb⟩)

/-- C46: the optimised program is never stuck if the source program is not. -/
theorem C46_compile_not_wrong_partial (h : Source T k e) (hc : compile direct T arity k o marks e = some (e', c'))
    (hb : ¬ AppliesProof e) : ¬ ANF.GoesWrong ⟨c'.cenv, prims⟩ emp e' :=
  (C58_compile h.p hc .plain).2.2.2 fun hf => hb ((Conv.C58_conservative h.closed).2.1.1 hf)

/-- Closure conversion adds a record. -/
theorem EnvOk.record {ce : PMap Ctor.Info} {ct it : Nat} (hI : EnvOk ce ct it) (n : Nat) :
    EnvOk (ce.set ct ⟨none, none, it, n, 0⟩) (ct + 1) (it + 1) := by
  refine ⟨Wasm.C29_ordinals_record hI.ord fun u j hj => ?_, fun t i hi => ?_, ?_, ?_, ?_⟩
  · have := hI.tag u j hj; exact ne_of_lt this.2.2.2
  · unfold PMap.set at hi
    split at hi
    · rename_i hte; cases hi; cases hte
      exact ⟨Nat.le_of_lt hI.ct, Nat.lt_succ_self _, Nat.le_of_lt hI.it, Nat.lt_succ_self _⟩
    · have := hI.tag t i hi
      exact ⟨this.1, Nat.lt_succ_of_lt this.2.1, this.2.2.1, Nat.lt_succ_of_lt this.2.2.2⟩
  · exact Nat.lt_succ_of_lt hI.ct
  · exact Nat.lt_succ_of_lt hI.it
  · rw [ANF.Cc.pset_other (ne_of_lt hI.ct)]
    exact hI.dflt

/-- The constructor environment after the pipeline. -/
theorem env_after {e₁ : ANF.Exp} {s : Comp} (hp : PipeInput e₁ (initial e₁ s.ctag s.itag s.ftag s.cenv))
    (h2 : anfPipeline o k marks e₁ (initial e₁ s.ctag s.itag s.ftag s.cenv) = some (e', c')) (he : EnvOk s.cenv s.ctag s.itag) :
    Wasm.OrdOk c'.cenv ∧ ∀ t i, s.cenv t = some i → c'.cenv t = some i := by
  constructor
  · obtain ⟨ce, h1, h3⟩ := ANF.pipe_env hp h2 (I := fun ce ct it => EnvOk ce ct it) (fun _ _ _ n hI => hI.record n) he
    rw [h1]
    refine Wasm.C29_ordinals_record h3.ord fun u j hj => ?_
    have := (h3.tag u j hj).2.2.1
    exact ne_of_gt (lt_of_lt_of_le (by decide : cloIndTag < defaultIndTag) this)
  · intro t i hi
    have := he.tag t i hi
    rw [(C46_constructors hp h2).1 t this.2.1 (ne_of_gt (lt_of_lt_of_le (by decide : cloTag < defaultCtorTag) this.1))]
    exact hi

end

end E2E
