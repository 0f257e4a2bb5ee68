import Verif.CGen.TypeGen
import Verif.CGen.ScopeProps

/-!
# C66: the C file is well typed
-/

namespace CGen.Text

open ANF
open CPrint (CE CS LS CTy CTys CFn Name Same ReadsFn NamesOk NEnv)

/-! ## Names -/

section
variable {b : Name} {ps : List (Name × Nat)} {m : NEnv}

theorem lookup_mem : ∀ {l : List (Nat × Name)} {x : Nat} {s : Name}, (l.map (·.1)).Nodup → (x, s) ∈ l → l.lookup x = some s
  | (y, t) :: l, x, s, hn, h => by
    rw [List.map_cons, List.nodup_cons] at hn
    rcases List.mem_cons.1 h with h | h
    · cases h
      simp
    · have : x ≠ y := fun e => hn.1 (e ▸ List.mem_map.2 ⟨_, h, rfl⟩)
      rw [List.lookup_cons, beq_false_of_ne this]
      exact lookup_mem hn.2 h

theorem own_ext (hn : NamesOk b ps m) {x : Nat} {s : Name} (hx : x ∈ CPrint.ownNames.map (·.1))
    (h : CPrint.compileNames b m x = some (some s)) (hs : CPrint.removePrimes s = s) : (fileNames b ps m).ext x = s := by
  have h1 : CPrint.addPrimNames ps (CPrint.compileNames b m) x = some (some s) := by
    rw [CPrint.addPrimNames, CPrint.setAll_lookup]
    split
    · next n hl =>
      have := List.lookup_eq_some_iff.1 hl
      obtain ⟨l1, l2, hl, -⟩ := this
      have hm : (x, n) ∈ ps.map fun p => (p.2, p.1) := by
        rw [← List.mem_reverse, hl]
        simp
      obtain ⟨p, hp, hq⟩ := List.mem_map.1 hm
      cases hq
      exact absurd hx (hn.prim p hp).2.2.1
    · exact h
  simp only [fileNames, Names.of, CPrint.externAtom, CPrint.finalTable, CPrint.atomTable, h1, hs, Option.getD_some]

theorem prim_ext (hn : NamesOk b ps m) {p : Name × Nat} (hp : p ∈ ps) : (fileNames b ps m).ext p.2 = p.1 := by
  have h1 : CPrint.addPrimNames ps (CPrint.compileNames b m) p.2 = some (some p.1) := by
    rw [CPrint.addPrimNames, CPrint.setAll_lookup]
    have key : (ps.map fun p => (p.2, p.1)).reverse.lookup p.2 = some p.1 := by
      have hnd := hn.ids
      have hmem : (p.2, p.1) ∈ (ps.map fun p => (p.2, p.1)).reverse := List.mem_reverse.2 (List.mem_map.2 ⟨p, hp, rfl⟩)
      have hnd' : ((ps.map fun p => (p.2, p.1)).reverse.map (·.1)).Nodup := by
        rw [List.map_reverse, List.nodup_reverse, List.map_map]
        exact hnd
      exact lookup_mem hnd' hmem
    rw [key]
  simp only [fileNames, Names.of, CPrint.externAtom, CPrint.finalTable, CPrint.atomTable, h1, Option.getD_some,
    CPrint.cIdent_removePrimes (CPrint.userOk_ident (hn.prim p hp).1).1]
end

variable {N : Names} {C : Cfg} {ext : Bool}

/-- The declarations in scope in a function. -/
abbrev envOf (fields : Name → Name → CTy → Prop) (g : Name → CTy → Prop) (f : CFn) : TEnv :=
  ⟨fun x t => (x, t) ∈ f.params ++ f.temps, fun x t => (x, t) ∈ f.vars ∨ g x t, fields⟩

/-- What the generator relies on in headers. -/
structure Hdr (N : Names) (fields : Name → Name → CTy → Prop) (g : Name → CTy → Prop) : Prop where
  gc : g (N.ext 80) (.fn (.cons (threadInf N) .nil) false (.base .void))
  fnext : fields (N.ext 78) (N.ext 87) valPtr
  froot : fields (N.ext 78) (N.ext 84) valPtr
  fprev : fields (N.ext 78) (N.ext 89) (.ptr (stackframeT N))
  talloc : fields (N.ext 31) (N.ext 28) valPtr
  tlimit : fields (N.ext 31) (N.ext 29) valPtr
  targs : ∃ n, fields (N.ext 31) (N.ext 26) (.arr val n)
  tfp : fields (N.ext 31) (N.ext 86) (.ptr (stackframeT N))
  tnalloc : fields (N.ext 31) (N.ext 92) (.base .ullong)

variable {fields : Name → Name → CTy → Prop} {g : Name → CTy → Prop}

theorem own_of (hh : Hdr N fields g) {f : CFn} {T : Var → Prop} (h1 : (N.tmp 26, valPtr) ∈ f.params ++ f.temps) (h2 : (N.tmp 28, valPtr) ∈ f.params ++ f.temps)
    (h3 : (N.tmp 29, valPtr) ∈ f.params ++ f.temps) (h4 : (N.tmp 91, threadInf N) ∈ f.params ++ f.temps) {n : Nat} (h5 : f.vars = stackDecl N n)
    (h6 : ∀ x, T x → (N.tmp x, val) ∈ f.params ++ f.temps) : OwnT N (envOf fields g f) T where
  args := h1
  alloc := h2
  limit := h3
  tinfo := h4
  frame := .inl (by rw [h5]; simp [stackDecl])
  gc := .inr hh.gc
  roots := ⟨n, .inl (by rw [h5]; simp [stackDecl])⟩
  fnext := hh.fnext
  froot := hh.froot
  fprev := hh.fprev
  talloc := hh.talloc
  tlimit := hh.tlimit
  targs := hh.targs
  tfp := hh.tfp
  tnalloc := hh.tnalloc
  temps := h6

theorem genDef_typed (hh : Hdr N fields g) (hC : C.result = 93) {fenv : FEnv} {fs : List Var} {P : Tag → Prop}
    (hpr : ∀ p, P p → ∃ ts va t, g (N.ext p) (.fn ts va t)) (hfn : ∀ f ∈ fs, ∃ ts va, g (N.ext f) (.fn ts va val)) (h93 : 93 ∉ fs)
    {f : Var} {t : Tag} {vs : List Var} {e : Exp} {G : CFn} (hv : ∀ x ∈ e.fv \ vs.toFinset, x ∈ fs) (hp : PlainE fs true e)
    (hf : ext = true ∨ FirstE fs e) (hd : OnceE C.cenv e) (hq : ∀ p ∈ primsE e, P p)
    (h : genDef N C fenv fs f t vs e = some G) : TypedS ext (envOf fields g G) G.ret G.body := by
  unfold genDef at h
  split at h
  · cases h
  · next l ind hi =>
    simp only at h
    split at h
    · next asgn body n h1 h2 =>
      cases h
      have ho : ∀ s, OwnT N (envOf fields g (mkFun N C.nParam f (max (elements (e.fv ∩ vs.toFinset)).length n) vs (localsE e) s))
          (fun x => x ∈ vs ∨ x ∈ localsE e ∨ x = 93) := by
        intro s
        refine own_of hh (n := max (elements (e.fv ∩ vs.toFinset)).length n) (by simp [mkFun]) (by simp [mkFun]) (by simp [mkFun]) (by simp [mkFun]) rfl ?_
        rintro x (hx | hx | rfl)
        · rw [← List.take_append_drop C.nParam vs] at hx
          rcases List.mem_append.1 hx with hx | hx
          · exact List.mem_append_left _ (List.mem_cons_of_mem _ (List.mem_map_of_mem (f := fun x => (N.tmp x, val)) hx))
          · exact List.mem_append_right _ (List.mem_append_left _ (List.mem_map_of_mem (f := fun x => (N.tmp x, val)) (List.mem_append_left _ hx)))
        · exact List.mem_append_right _ (List.mem_append_left _ (List.mem_map_of_mem (f := fun x => (N.tmp x, val)) (List.mem_append_right _ hx)))
        · simp [mkFun]
      have ho := ho (.seq (loadAlloc N) (.seq (loadLimit N) (.seq (loadArgs N) (.seq asgn (.seq (initStack N)
        (.seq (gcCall N (maxAllocsE e) (elements (e.fv ∩ vs.toFinset)) 0).1 body))))))
      refine ⟨loadAlloc_ty ho, loadLimit_ty ho, loadArgs_ty ho, asgnFunVars_ty ho (fun x hx => .inl (List.mem_of_mem_drop hx)) h1, initStack_ty ho,
        gcCall_ty ho _ _ _ (fun x hx => .inl (by simpa using (Finset.mem_inter.1 (mem_elements.1 hx)).2)), ?_⟩
      refine genE_ty ho (fun f hf => ?_) (P := P) (fun p hp => ?_) (fun x hx => ?_) (tail := true) (fun _ => by rw [hC]; exact ⟨.inr (.inr rfl), h93⟩) e
        (fun x hx => .inr (.inl hx)) (fun x hx => ?_) hp hf hd hq h2
      · obtain ⟨ts, va, h⟩ := hfn f hf
        exact ⟨ts, va, .inr h⟩
      · obtain ⟨ts, va, t, h⟩ := hpr p hp
        exact ⟨ts, va, t, .inr h⟩
      · rcases Finset.mem_union.1 hx with hx | hx
        · exact .inl (by simpa using hx)
        · exact .inr (.inl (by simpa using hx))
      · by_cases hxv : x ∈ vs
        · exact .inl (.inl hxv)
        · exact .inr (hv x (Finset.mem_sdiff.2 ⟨hx, by simpa using hxv⟩))
    · cases h

theorem genDefs_typed (hh : Hdr N fields g) (hC : C.result = 93) {fenv : FEnv} {fs : List Var} {P : Tag → Prop}
    (hpr : ∀ p, P p → ∃ ts va t, g (N.ext p) (.fn ts va t)) (hfn : ∀ f ∈ fs, ∃ ts va, g (N.ext f) (.fn ts va val)) (h93 : 93 ∉ fs) :
    ∀ {B : Defs} {Q : List CFn}, (∀ x ∈ B.fvRaw, x ∈ fs) → PlainB fs B → (ext = true ∨ FirstB fs B) → OnceB C.cenv B → (∀ p ∈ primsB B, P p) →
    genDefs N C fenv fs B = some Q → ∀ G ∈ Q, TypedS ext (envOf fields g G) G.ret G.body
  | .nil, Q, _, _, _, _, _, h => by
    cases h
    simp
  | .cons f t vs e B, Q, hv, hp, hf, hd, hq, h => by
    rw [genDefs] at h
    split at h
    · next P' F hP hF =>
      cases h
      rw [Defs.fvRaw] at hv
      rw [primsB] at hq
      intro G hG
      rcases List.mem_cons.1 hG with rfl | hG
      · exact genDef_typed hh hC hpr hfn h93 (fun x hx => hv x (Finset.mem_union_left _ hx)) hp.1 (hf.imp id And.left) hd.1
          (fun p h => hq p (List.mem_append_left _ h)) hF
      · exact genDefs_typed hh hC hpr hfn h93 (fun x hx => hv x (Finset.mem_union_right _ hx)) hp.2 (hf.imp id And.right) hd.2
          (fun p h => hq p (List.mem_append_right _ h)) hP G hG
    · cases h

theorem genDefs_sig {fenv : FEnv} {fs : List Var} : ∀ {B : Defs} {Q : List CFn}, genDefs N C fenv fs B = some Q →
    ∀ f ∈ B.names, ∃ G ∈ Q, G.name = N.ext f ∧ G.ret = val
  | .nil, _, _ => by simp [Defs.names]
  | .cons f t vs e B, Q, h => by
    rw [genDefs] at h
    split at h
    · next P' F hP hF =>
      cases h
      intro f' hf'
      rw [Defs.names] at hf'
      rcases List.mem_cons.1 hf' with rfl | hf'
      · refine ⟨F, List.mem_cons_self, ?_⟩
        unfold genDef at hF
        split at hF
        · cases hF
        · simp only at hF
          split at hF
          · cases hF; exact ⟨rfl, rfl⟩
          · cases hF
      · obtain ⟨G, hG, h⟩ := genDefs_sig hP f' hf'
        exact ⟨G, List.mem_cons_of_mem _ hG, h⟩
    · cases h

theorem program_typed (hC : C.result = 93) {B : Defs} {e : Exp} (ht : Tidy C.prims B e) (hpB : PlainB B.names B)
    (hpe : PlainE B.names false e) (hfB : ext = true ∨ FirstB B.names B ∧ FirstE B.names e) (hdB : OnceB C.cenv B) (hde : OnceE C.cenv e)
    {P : Tag → Prop} (hq : ∀ p ∈ primsE (.fn B e), P p) {hdr : Name → CTy → Prop} (hh : Hdr N fields hdr)
    (hpr : ∀ p, P p → ∃ ts va t, hdr (N.ext p) (.fn ts va t)) {K : CFn × List CFn} (h : genProgram N C 90 (.fn B e) = some K) :
    FileTyped ext fields hdr (K.1 :: K.2) := by
  simp only [genProgram] at h
  split at h
  · split at h
    · next Q s n hP hs =>
      cases h
      have hclosed : ∀ x, x ∈ B.fvRaw ∪ e.fv → x ∈ B.names := by
        intro x hx
        by_contra hn
        have : x ∈ (Exp.fn B e).fv := by rw [Exp.fv]; exact Finset.mem_sdiff.2 ⟨hx, by simpa using hn⟩
        rw [ht.closed] at this
        simp at this
      have h93 : 93 ∉ B.names := fun hx => by
        have := (ht.own 93 (by rw [Exp.bv]; exact List.mem_append_left _ ((names_bv B).subset hx))).1
        exact absurd this (by decide)
      rw [primsE] at hq
      intro F hF
      generalize hl : (_ :: Q : List CFn) = fl at hF ⊢
      let g : Name → CTy → Prop := fun x t => (∃ h ∈ fl, x = h.name ∧ t = fnTy h) ∨ hdr x t
      have hg : Hdr N fields g := ⟨.inr hh.gc, hh.fnext, hh.froot, hh.fprev, hh.talloc, hh.tlimit, hh.targs, hh.tfp, hh.tnalloc⟩
      have hpr' : ∀ p, P p → ∃ ts va t, g (N.ext p) (.fn ts va t) := fun p hp => by
        obtain ⟨ts, va, t, h⟩ := hpr p hp
        exact ⟨ts, va, t, .inr h⟩
      have hfn : ∀ f ∈ B.names, ∃ ts va, g (N.ext f) (.fn ts va val) := fun f hf => by
        obtain ⟨G, hG, h1, h2⟩ := genDefs_sig hP f hf
        exact ⟨_, _, .inl ⟨G, hl ▸ List.mem_cons_of_mem _ hG, h1.symm, by rw [fnTy, h2]⟩⟩
      change TypedS ext (envOf fields g F) F.ret F.body
      have hF' := hF
      rw [← hl] at hF'
      rcases List.mem_cons.1 hF' with rfl | hF'
      · have ho := own_of hg
          (f := {
            name := N.ext 90, ret := val, params := [(N.tmp 91, threadInf N)], va := false, vars := stackDecl N n,
            temps := ((localsE e).map fun x => (N.tmp x, val)) ++ [(N.tmp 28, valPtr), (N.tmp 29, valPtr), (N.tmp 26, valPtr)],
            body := .seq (loadAlloc N) (.seq (loadLimit N) (.seq (loadArgs N) (.seq (initStack N)
              (.seq (gcCall N (maxAllocsE e) [] 0).1 s)))) }) (T := fun x => x ∈ localsE e) (n := n) (by simp) (by simp) (by simp) (by simp) rfl
            (fun x hx => List.mem_append_right _ (List.mem_append_left _ (List.mem_map_of_mem (f := fun x => (N.tmp x, val)) hx)))
        refine ⟨loadAlloc_ty ho, loadLimit_ty ho, loadArgs_ty ho, initStack_ty ho, gcCall_ty ho _ _ _ (by simp), ?_⟩
        refine genE_ty ho (fun f hf => ?_) (P := P) (fun p hp => ?_) (fun x hx => by simpa using hx) (tail := false) (fun h => by cases h) e
          (fun x hx => hx) (fun x hx => .inr (hclosed x (Finset.mem_union_right _ hx))) hpe (hfB.imp id And.right) hde
          (fun p h => hq p (List.mem_append_right _ h)) hs
        · obtain ⟨ts, va, h⟩ := hfn f hf
          exact ⟨ts, va, .inr h⟩
        · obtain ⟨ts, va, t, h⟩ := hpr' p hp
          exact ⟨ts, va, t, .inr h⟩
      · exact genDefs_typed hg hC hpr' hfn h93 (fun x hx => hclosed x (Finset.mem_union_left _ hx)) hpB (hfB.imp id And.left) hdB
          (fun p h => hq p (List.mem_append_left _ h)) hP F hF'
    · cases h
  · cases h

theorem header_ok {b : Name} {ps : List (Name × Nat)} {m : NEnv} (hn : NamesOk b ps m) (sig : Nat → CTys × Bool × CTy) :
    Hdr (fileNames b ps m) headerFields (headerFns ps sig) := by
  have e80 : (fileNames b ps m).ext 80 = "garbage_collect".toList := own_ext hn (by decide) rfl (by decide)
  have e78 : (fileNames b ps m).ext 78 = "stack_frame".toList := own_ext hn (by decide) rfl (by decide)
  have e31 : (fileNames b ps m).ext 31 = "thread_info".toList := own_ext hn (by decide) rfl (by decide)
  have e87 : (fileNames b ps m).ext 87 = "next".toList := own_ext hn (by decide) rfl (by decide)
  have e84 : (fileNames b ps m).ext 84 = "root".toList := own_ext hn (by decide) rfl (by decide)
  have e89 : (fileNames b ps m).ext 89 = "prev".toList := own_ext hn (by decide) rfl (by decide)
  have e28 : (fileNames b ps m).ext 28 = "alloc".toList := own_ext hn (by decide) rfl (by decide)
  have e29 : (fileNames b ps m).ext 29 = "limit".toList := own_ext hn (by decide) rfl (by decide)
  have e26 : (fileNames b ps m).ext 26 = "args".toList := own_ext hn (by decide) rfl (by decide)
  have e86 : (fileNames b ps m).ext 86 = "fp".toList := own_ext hn (by decide) rfl (by decide)
  have e92 : (fileNames b ps m).ext 92 = "nalloc".toList := own_ext hn (by decide) rfl (by decide)
  constructor
  · exact .inl ⟨e80, by rw [threadInf, e31]⟩
  · exact ⟨("stack_frame", "next", _), .head _, e78, e87, rfl⟩
  · exact ⟨("stack_frame", "root", _), .tail _ (.head _), e78, e84, rfl⟩
  · exact ⟨("stack_frame", "prev", .ptr (.base (.struct "stack_frame".toList))), .tail _ (.tail _ (.head _)), e78, e89, by rw [stackframeT, e78]⟩
  · exact ⟨("thread_info", "alloc", _), .tail _ (.tail _ (.tail _ (.head _))), e31, e28, rfl⟩
  · exact ⟨("thread_info", "limit", _), .tail _ (.tail _ (.tail _ (.tail _ (.head _)))), e31, e29, rfl⟩
  · exact ⟨1024, ("thread_info", "args", _), .tail _ (.tail _ (.tail _ (.tail _ (.tail _ (.tail _ (.head _)))))), e31, e26, rfl⟩
  · exact ⟨("thread_info", "fp", .ptr (.base (.struct "stack_frame".toList))), .tail _ (.tail _ (.tail _ (.tail _ (.tail _ (.tail _ (.tail _ (.head _))))))), e31, e86, by rw [stackframeT, e78]⟩
  · exact ⟨("thread_info", "nalloc", _), .tail _ (.tail _ (.tail _ (.tail _ (.tail _ (.tail _ (.tail _ (.tail _ (.head _)))))))), e31, e92, rfl⟩

theorem typed_same {hdr : Name → CTy → Prop} {l fs : List CFn} (h : List.Forall₂ (fun F f => ∃ s, Same F.body s ∧ f = {F with body := s}) l fs)
    (hl : FileTyped ext fields hdr l) : FileTyped ext fields hdr fs := by
  have key : ∀ x t, (∃ h ∈ l, x = h.name ∧ t = fnTy h) ↔ ∃ h ∈ fs, x = h.name ∧ t = fnTy h := by
    clear hl
    induction h with
    | nil => simp
    | cons h1 h2 ih =>
      intro x t
      obtain ⟨s, -, rfl⟩ := h1
      simp only [List.mem_cons, exists_eq_or_imp, ih x t]
      exact Iff.rfl
  have key : (fun x t => ∃ h ∈ l, x = h.name ∧ t = fnTy h) = fun x t => ∃ h ∈ fs, x = h.name ∧ t = fnTy h :=
    funext fun x => funext fun t => propext (key x t)
  intro f hf
  obtain ⟨F, hF, s, hs, rfl⟩ := (same_names h).2 f hf
  have := (typedS_same hs).1 (hl F hF)
  have key' : ∀ x t, (∃ h ∈ l, x = h.name ∧ t = fnTy h) = ∃ h ∈ fs, x = h.name ∧ t = fnTy h := fun x t => congrFun (congrFun key x) t
  simp only [key'] at this
  exact this

/-! ## The theorem -/

/-- **C66, partial.** Each function of the C file, as the C grammar reads it, is well typed: every expression has a type, with the
structures and functions that `runtime/gc_stack.h` declares under their names there, whatever the types `sig` of the C functions the
program calls, assignments, arguments and returned values have types that can be assigned (ISO C 6.5.16.1), and no `switch` has two
equal labels. Function pointers are taken to be assignable to integers (`ext = true`); without this the theorem holds if
the program only calls its functions. -/
theorem C66_types_partial {b : Name} {ps : List (Name × Nat)} {m : NEnv} {B : Defs} {e : Exp} {M : CFun × List CFun}
    (hf : Fits C b ps m (.fn B e)) (hs : SeenE C.cenv (.fn B e)) (hM : compileC C 90 (.fn B e) = some M) (hC : C.result = 93)
    (ht : Tidy C.prims B e) (hpB : PlainB B.names B) (hpe : PlainE B.names false e) (hdB : OnceB C.cenv B) (hde : OnceE C.cenv e)
    (hq : ∀ p ∈ primsE (.fn B e), p ∈ ps.map (·.2)) {K : CFn × List CFn}
    (hK : genProgram (fileNames b ps m) C 90 (.fn B e) = some K) {fs : List CFn} (hr : List.Forall₂ ReadsFn (functionTexts K) fs)
    (sig : Nat → CTys × Bool × CTy) :
    FileTyped true headerFields (headerFns ps sig) fs ∧
    (FirstB B.names B → FirstE B.names e → FileTyped false headerFields (headerFns ps sig) fs) := by
  have hpr : ∀ p, p ∈ ps.map (·.2) → ∃ ts va t, headerFns ps sig ((fileNames b ps m).ext p) (.fn ts va t) := fun p hp => by
    obtain ⟨q, hq, rfl⟩ := List.mem_map.1 hp
    exact ⟨_, _, _, .inr ⟨q, hq, prim_ext hf.names hq, rfl⟩⟩
  obtain ⟨hN, -⟩ := names_of hf.names
  obtain ⟨F, Q, h1, h2, h3⟩ := genProgram_el hf.tags (G := K.1) (P := K.2) hK
  rw [hM] at h1
  cases h1
  have hx := forall₂_texts (all_ok hN (.cons h2 h3) (compileC_good hf.tags hf.result hs hf.fits hM)) hr
  exact ⟨typed_same hx (program_typed hC ht hpB hpe (.inl rfl) hdB hde hq (header_ok hf.names sig) hpr hK),
    fun h4 h5 => typed_same hx (program_typed hC ht hpB hpe (.inr ⟨h4, h5⟩) hdB hde hq (header_ok hf.names sig) hpr hK)⟩

/-- The C file of the example is well typed. -/
example : ∃ K fs, genProgram (fileNames "body".toList [] natNames) cfgTail 90 (.fn defsNat mainNat) = some K ∧
    List.Forall₂ ReadsFn (functionTexts K) fs ∧ ∀ sig, FileTyped false headerFields (headerFns [] sig) fs := by
  obtain ⟨M, hM⟩ : ∃ M, compileC cfgTail 90 (.fn defsNat mainNat) = some M :=
    compileC_total (ar := fun _ => 2) ok_nat (by simp [FlatB, FlatE, FlatBs, defsNat]) (by simp [FlatE, mainNat])
  obtain ⟨K, hK, fs, hr⟩ := C64_readable_partial fits_nat93 seen_nat hM
  refine ⟨K, fs, hK, hr, fun sig => (C66_types_partial fits_nat93 seen_nat hM rfl ?_ (by simp [PlainB, PlainE, PlainBs, defsNat, Defs.names])
    (by simp [PlainE, mainNat]) ?_ (by simp [OnceE, mainNat]) (by simp [primsE, primsB, primsBs, defsNat, mainNat]) hK hr sig).2
      (by simp [FirstB, FirstE, FirstBs, defsNat, Defs.names]) (by simp [FirstE, mainNat, defsNat, Defs.names])⟩
  · refine ⟨by decide, by decide, ?_, by simp [cfgTail, cfgNat]⟩
    simp [cfgTail, cfgNat, defsNat, mainNat, Exp.bv, Defs.bv, Brs.bv]
  · simp [OnceB, OnceE, OnceBs, defsNat, ords, cfgTail, cfgNat, cenvNat, ctorRep]

/-! ## A function stored in a constructor -/

/-- A constructor that holds the function `f`. -/
def mainClos : Exp := .constr 310 101 [300] (.halt 310)

theorem fits_clos : Fits cfgTail "body".toList [] natNames (.fn defsNat mainClos) where
  names := natNames_ok
  tags := tags_nat
  result := fits_tail.result
  fits := by
    have h := fits_nat.fits
    simp [FitsE, FitsBs, FitsB, defsNat, mainNat, mainClos, vOk, tOk, fOk, cfgTail, cfgNat, maxAllocsE, maxAllocsBs] at h ⊢
    exact h.1

theorem seen_clos : SeenE cfgTail.cenv (.fn defsNat mainClos) := by
  simp [SeenE, SeenBs, SeenB, defsNat, mainClos, cfgTail, cfgNat, cenvNat]

theorem compiles_clos : ∃ M, compileC cfgTail 90 (.fn defsNat mainClos) = some M :=
  compileC_total (ar := fun _ => 2) (by simp [OkE, OkB, OkBs, defsNat, mainClos, cenvNat, cfgTail, cfgNat])
    (by simp [FlatB, FlatE, FlatBs, defsNat]) (by simp [FlatE, mainClos])

theorem field_ty {Γ : TEnv} {x : Var} {n : Int} {t : CTy} (h : HasTy Γ (fieldE N x n) t) : t = val := by
  cases h with
  | deref h hd =>
    cases h with
    | ptrAdd h1 h2 =>
      cases h1
      cases h2
      cases hd
      rfl
    | arith _ h1 => cases h1
    | cmp h => cases h

theorem not_assignable {Γ : TEnv} {x : Var} {n : Int} {y : Name} {r : CTy} (hy : ∀ t, Γ.vars y t → ∃ ts va u, t = .fn ts va u) :
    ¬ TypedS false Γ r (.assign (fieldE N x n) (.var y)) := by
  rintro ⟨-, t, ht, u, hu, ha⟩
  cases field_ty ht
  cases hu with
  | var h =>
    obtain ⟨ts, va, r, rfl⟩ := hy _ h
    rcases ha with ⟨_, _, -, -, h, -⟩ | ⟨_, h, -⟩ | ⟨h, -⟩ <;> cases h

/-- **C66, a disagreement.** A function stored in a constructor is assigned to a field of the integer type `value` without a cast: the C
file violates the constraints of ISO C on assignments (6.5.16.1). -/
theorem C66_closure_refuted : ∃ (b : Name) (ps : List (Name × Nat)) (m : NEnv) (C : Cfg) (B : Defs) (e : Exp) (K : CFn × List CFn),
    Fits C b ps m (.fn B e) ∧ SeenE C.cenv (.fn B e) ∧ C.result = 93 ∧ Tidy C.prims B e ∧ PlainB B.names B ∧ PlainE B.names false e ∧
    OnceB C.cenv B ∧ OnceE C.cenv e ∧ (∀ p ∈ primsE (.fn B e), p ∈ ps.map (·.2)) ∧
    genProgram (fileNames b ps m) C 90 (.fn B e) = some K ∧ (∃ fs, List.Forall₂ ReadsFn (functionTexts K) fs) ∧
    ∀ fs sig, List.Forall₂ ReadsFn (functionTexts K) fs → ¬ FileTyped false headerFields (headerFns ps sig) fs := by
  obtain ⟨M, hM⟩ := compiles_clos
  obtain ⟨K, hK, hr⟩ := C64_readable_partial fits_clos seen_clos hM
  refine ⟨_, _, _, cfgTail, defsNat, mainClos, K, fits_clos, seen_clos, rfl, ?_, by simp [PlainB, PlainE, PlainBs, defsNat, Defs.names],
    by simp [PlainE, mainClos], ?_, by simp [OnceE, mainClos], by simp [primsE, primsB, primsBs, defsNat, mainClos], hK, hr, fun fs sig hfs hty => ?_⟩
  · refine ⟨by decide, by decide, ?_, by simp [cfgTail, cfgNat]⟩
    simp [cfgTail, cfgNat, defsNat, mainClos, Exp.bv, Defs.bv, Brs.bv]
  · simp [OnceB, OnceE, OnceBs, defsNat, ords, cfgTail, cfgNat, cenvNat, ctorRep]
  · obtain ⟨hN, hI⟩ := names_of fits_clos.names
    obtain ⟨F, Q, h1, h2, h3⟩ := genProgram_el fits_clos.tags (G := K.1) (P := K.2) hK
    rw [hM] at h1
    cases h1
    have h4 := forall₂_texts (all_ok hN (.cons h2 h3) (compileC_good fits_clos.tags fits_clos.result seen_clos fits_clos.fits hM)) hfs
    cases h4 with
    | cons h5 h6 =>
      obtain ⟨s, hs, rfl⟩ := h5
      have hb := (typedS_same hs).2 (hty _ List.mem_cons_self)
      simp only [genProgram] at hK
      split at hK
      · split at hK
        · next P s' n hP hs' =>
          cases hK
          obtain ⟨-, -, -, -, -, hw⟩ := hb
          simp only [mainClos] at hs'
          rw [genE] at hs'
          split at hs'
          · next c h7 h8 =>
            cases hs'
            simp [assignConstructor, ctorRep, cfgTail, cfgNat, cenvNat] at h7
            subst h7
            obtain ⟨⟨-, -, -, hw⟩, -⟩ := hw
            simp only [assignFields, makeVar, defsNat, Defs.names] at hw
            refine not_assignable ?_ hw
            rintro t (h | ⟨f, hf, -, rfl⟩ | ⟨h, rfl⟩ | ⟨p, hp, -, rfl⟩)
            · simp [stackDecl] at h
              rcases h with h | h <;> exact absurd (hI.ext h.1) (by decide)
            · exact ⟨_, _, _, rfl⟩
            · exact ⟨_, _, _, rfl⟩
            · exact ⟨_, _, _, rfl⟩
          · cases hs'
        · cases hK
      · cases hK

end CGen.Text
