import Verif.Reg.Lemmas
import Verif.Reg.Calls
import Verif.CPrint.NameProps
import Verif.CGen.TextProps
import Verif.CGen.TextFits
import Verif.E2E.CProps

/-!
# C70: constants realised by C functions are calls of these functions
-/

namespace Reg

open Mut (Name Term)
open Src (findPrim translateProgram translateEnv)
open Conv (Types Typed Carries)
open ANF (Var Tag Feat)
open ANF.Pipe (Opts)
open CGen (Cfg wrapInFun)
open CGen.Text (genProgram fileNames tinf Names)
open CPrint (CE CTy CFn NEnv)
open E2E (compile SourceP PrimFeat CSource CallFeat CfgOk)
open Ctor (cloTag defaultCtorTag)

variable {session : List (List Prim)} {clause : List Prim}

/-- A constant is linked to a primitive if and only if the commands realise it, and then arity, allocation and C name of the
primitive are those of the command that decides. -/
theorem C70_choice (c : Name) :
    (∀ q, findPrim (linkTable (registered session clause).1) c = some q → ∃ r, Realised session clause c r ∧
      arityOf (registered session clause).1 q = some r.arity ∧ allocOf (registered session clause).1 q = some r.alloc ∧
      (r.target, q) ∈ nameTable (registered session clause).1) ∧
    ∀ r, Realised session clause c r → ∃ q, findPrim (linkTable (registered session clause).1) c = some q := by
  constructor
  · intro q h
    obtain ⟨r, h1, _, _, h2, h3⟩ := chosen h
    exact ⟨r, h1, by simp [arityOf, h2], by simp [allocOf, h2], List.mem_map.2 ⟨_, h3, rfl⟩⟩
  · intro r h
    cases hq : findPrim (linkTable (registered session clause).1) c with
    | some q => exact ⟨q, rfl⟩
    | none => rw [registered, findPrim_none, realised_iff.1 h] at hq; cases hq

/-- At most one realisation of a constant decides. -/
theorem C70_unique {c : Name} {r r' : Prim} (h : Realised session clause c r) (h' : Realised session clause c r') : r = r' :=
  Option.some.inj ((realised_iff.1 h).symm.trans (realised_iff.1 h'))

/-- Primitives have different numbers, all below the first number of a program variable and above those of the compiler's names. -/
theorem C70_numbers : ((registered session clause).1.map (·.2)).Nodup ∧ (registered session clause).1.map (·.1) = allPrims session clause ∧
    ∀ x ∈ (registered session clause).1, 100 ≤ x.2 ∧ x.2 < (registered session clause).2 := by
  refine ⟨by rw [registered, pick_ids]; exact List.nodup_range', pick_fst _ _, fun x hx => ?_⟩
  rw [registered, pick_snd]
  exact pick_mem hx

/-- A clause of the command that compiles realises the constant as it says if the session does not realise it.  Missing: constants
that the session realises (see C70_override_refuted). -/
theorem C70_clause_partial {c : Name} {r : Prim} (h : Expected session clause c r) (hs : ∀ l ∈ session, Absent l c) :
    Realised session clause c r := by
  rcases h with h | ⟨_, b, l, a, rfl, ⟨x, y, rfl, h1, _⟩, _⟩
  · exact .inr ⟨hs, h⟩
  · exact absurd h1 (hs (x ++ r :: y) (by simp) r (by simp))

/-- A constant that is realised both by the session and by the command that compiles is not realised as the latter says. -/
theorem C70_override_refuted : ∃ (session : List (List Prim)) (clause : List Prim) (c : Name) (r : Prim),
    Expected session clause c r ∧ ¬ Realised session clause c r := by
  refine ⟨[[⟨0, "prim_int63_add".toList, 2, false⟩]], [⟨0, "my_add".toList, 2, true⟩], 0, ⟨0, "my_add".toList, 2, true⟩,
    .inl ⟨[], [], rfl, rfl, by simp⟩, fun h => ?_⟩
  have := realised_iff.1 h
  revert this
  decide

/-! ## Arities -/

/-- Without a given arity a constant takes as many arguments as its type, if no product hides behind a definition.  Missing: types that
are defined (see C70_arity_refuted). -/
theorem C70_arity_partial {ty : Ty} (h : ty.Plain) (c : Name) (target : CPrint.Name) (alloc : Bool) :
    (interp c ty target none alloc).arity = ty.args := by
  show ty.nhyps = ty.args
  induction ty with
  | prod t ih => simp [Ty.nhyps, Ty.args, ih h]
  | letin t ih => simp [Ty.nhyps, Ty.args, ih h]
  | defined t => simp only [Ty.Plain] at h; simp [Ty.nhyps, Ty.args, h]
  | other => rfl

/-- A given arity is used, whatever the type; and the constant, the C function and the mark for the collector are kept. -/
theorem C70_given (c : Name) (ty : Ty) (target : CPrint.Name) (arity : Option Nat) (alloc : Bool) :
    (∀ n, arity = some n → (interp c ty target arity alloc).arity = n) ∧ (interp c ty target arity alloc).name = c ∧
      (interp c ty target arity alloc).target = target ∧ (interp c ty target arity alloc).alloc = alloc :=
  ⟨fun n h => by rw [h]; rfl, rfl, rfl, rfl⟩

/-- A constant with a defined type: `Definition binop := int -> int -> int. Axiom add : binop.`  The C function has two parameters and
is called with none. -/
theorem C70_arity_refuted : ∃ (ty : Ty) (c : Name) (target : CPrint.Name), ty.args = 2 ∧ (interp c ty target none false).arity = 0 :=
  ⟨.defined (.prod (.prod .other)), 0, "add".toList, rfl, rfl⟩

/-! ## Axioms -/

/-- Compilation is refused exactly when the program has an axiom that is not realised. -/
theorem C70_axioms {p : List (Name × Decl)} : checkAxioms (registered session clause).1 p = true ↔
    ∀ c, (c, Decl.typ 0 []) ∈ p → ∃ r, Realised session clause c r := by
  have key : ∀ c, (∀ x ∈ (registered session clause).1, x.1.name ≠ c) ↔ (allPrims session clause).find? (fun x => x.name = c) = none := by
    intro c
    rw [Absent.of_find, Absent, ← (C70_numbers (session := session) (clause := clause)).2.1]
    simp only [List.mem_map, forall_exists_index, and_imp, forall_apply_eq_imp_iff₂]
  rw [checkAxioms, List.isEmpty_iff, List.eq_nil_iff_forall_not_mem]
  constructor
  · intro h c hc
    have := h c
    rw [findAxioms_iff] at this
    simp only [List.not_mem_nil, false_or, hc, true_and] at this
    rw [key] at this
    obtain ⟨r, hr⟩ := Option.ne_none_iff_exists'.1 this
    exact ⟨r, realised_iff.2 hr⟩
  · intro h c hc
    rw [findAxioms_iff] at hc
    simp only [List.not_mem_nil, false_or] at hc
    obtain ⟨r, hr⟩ := h c hc.1
    have := (key c).1 hc.2
    rw [realised_iff.1 hr] at this; cases this

variable {p : List (Name × Decl)} {t : Term}

/-- A program that passes the check is closed after linking, and all its primitives have an arity. -/
theorem C70_closed (hp : Wf p) (ht : t.crct (Declared p) 0) (hc : checkAxioms (registered session clause).1 p = true) :
    (translateProgram (linkTable (registered session clause).1) (environ p) t).wfp (arityOf (registered session clause).1) 0 := by
  have har : ∀ c q, findPrim (linkTable (registered session clause).1) c = some q → ∃ n, arityOf (registered session clause).1 q = some n := by
    intro c q h
    obtain ⟨r, _, h2, _⟩ := (C70_choice c).1 q h
    exact ⟨_, h2⟩
  have hax : ∀ c, (c, Decl.typ 0 []) ∈ p → findPrim (linkTable (registered session clause).1) c ≠ none := by
    intro c h
    obtain ⟨r, hr⟩ := C70_axioms.1 hc c h
    obtain ⟨q, hq⟩ := (C70_choice c).2 r hr
    rw [hq]; simp
  exact mkLets_wfp (translateEnv_wfp har hp hax) (trans_wfp (fun c hc => declared_code har hax hc) t 0 ht)

/-! ## Compiled programs -/

/-- A primitive of a compiled program. -/
def Uses (session : List (List Prim)) (clause : List Prim) (p : List (Name × Decl)) : Feat → Prop
  | .prim q n => ∃ c r, Declared p c ∧ Realised session clause c r ∧ findPrim (linkTable (registered session clause).1) c = some q ∧
      n = r.arity ∧ allocOf (registered session clause).1 q = some r.alloc ∧ (r.target, q) ∈ nameTable (registered session clause).1
  | _ => True

section
variable {direct : Bool} {T : Types} {k : Nat} {o : Opts} {marks : Var → Option Nat} {e' : ANF.Exp} {c' : ANF.Comp}

/-- Every primitive operation of a compiled program is that of a constant of the program, is the one that the commands chose, and has
as many arguments as they say, with any options. -/
theorem C70_compiled (hp : Wf p) (ht : t.crct (Declared p) 0)
    (h : SourceP T (arityOf (registered session clause).1) k (translateProgram (linkTable (registered session clause).1) (environ p) t))
    (hc : compile direct T (arityOf (registered session clause).1) k o marks
      (translateProgram (linkTable (registered session clause).1) (environ p) t) = some (e', c')) :
    e'.All (Uses session clause p) := by
  obtain ⟨e₁, s, hi, h2⟩ := E2E.compile_inv h hc (fun _ _ => none)
  have hu : Used (linkTable (registered session clause).1) (Declared p)
      (translateProgram (linkTable (registered session clause).1) (environ p) t) :=
    mkLets_used (translateEnv_used hp fun _ h => h) (trans_used t _ _ ht)
  have hcar : Carries (T.params (arityOf (registered session clause).1)) T.Declared (fun d => ∃ n, T.Declared d n) (fun _ => True)
      (fun q => ∃ c, Declared p c ∧ findPrim (linkTable (registered session clause).1) c = some q) (Uses session clause p) := by
    refine ⟨fun _ _ _ => trivial, trivial, fun _ _ => trivial, fun _ _ => trivial, fun q n ⟨c, h1, h2⟩ hn => ?_, fun _ => trivial,
      fun _ => trivial, trivial⟩
    obtain ⟨r, h3, h4, h5, h6⟩ := (C70_choice c).1 q h2
    have hn : arityOf (registered session clause).1 q = some n := hn
    rw [h4] at hn
    exact ⟨c, r, h1, h3, h2, (Option.some.inj hn).symm, h5, h6⟩
  refine ANF.pipe_all hi.input (lt_of_lt_of_le (by decide : cloTag < defaultCtorTag) (Nat.le_of_lt hi.env.ct)) h2 (P := Uses session clause p)
    (fun _ _ => trivial) (fun _ _ => trivial) ?_ trivial trivial (fun _ _ _ _ => trivial) (hi.feats hcar (fun _ => trivial) hu)
  exact ⟨fun _ _ _ => trivial, fun _ _ => trivial, fun _ _ _ => trivial, fun _ _ => trivial, fun _ _ h => h, fun _ => trivial, fun _ => trivial⟩

/-- The C backend knows all primitives of a compiled program. -/
theorem C70_known (hp : Wf p) (ht : t.crct (Declared p) 0)
    (h : SourceP T (arityOf (registered session clause).1) k (translateProgram (linkTable (registered session clause).1) (environ p) t))
    (hc : compile direct T (arityOf (registered session clause).1) k o marks
      (translateProgram (linkTable (registered session clause).1) (environ p) t) = some (e', c')) :
    e'.All (PrimFeat (allocOf (registered session clause).1)) := by
  refine (C70_compiled hp ht h hc).mono fun f hf => ?_
  cases f with
  | prim q n => obtain ⟨c, r, _, _, _, _, h5, _⟩ := hf; exact ⟨_, h5⟩
  | _ => trivial

end

/-- Compilation of a program that passes the check succeeds in either style and with any options up to optimised LambdaANF. -/
theorem C70_total (direct : Bool) (T : Types) (o : Opts) (marks : Var → Option Nat) (hp : Wf p) (ht : t.crct (Declared p) 0)
    (hc : checkAxioms (registered session clause).1 p = true) (hT : T.Ok)
    (hty : Typed T (translateProgram (linkTable (registered session clause).1) (environ p) t)) :
    ∃ e' c', compile direct T (arityOf (registered session clause).1) (registered session clause).2 o marks
      (translateProgram (linkTable (registered session clause).1) (environ p) t) = some (e', c') ∧
      (∀ x ∈ e'.bv, ∀ y ∈ (registered session clause).1, x ≠ y.2) ∧ e'.All (Uses session clause p) := by
  have hk : 1 ≤ (registered session clause).2 := by rw [registered, pick_snd, firstId]; omega
  have h : SourceP T (arityOf (registered session clause).1) (registered session clause).2
    (translateProgram (linkTable (registered session clause).1) (environ p) t) := ⟨hT, C70_closed hp ht hc, hty, hk⟩
  obtain ⟨e', c', h1, _⟩ := E2E.C46_compile_total direct (arityOf (registered session clause).1) o marks h
  refine ⟨e', c', h1, fun x hx y hy e => ?_, C70_compiled hp ht h h1⟩
  have h2 := E2E.C49_compiled h h1 x hx
  rw [e] at h2
  exact absurd (C70_numbers.2.2 y hy).2 (Nat.not_lt.2 (Nat.le_of_lt h2))

/-! ## The C file -/

/-- What a call in the C file is: of the collector, of a function of the program, of a function in a variable, or of the C function of a
constant of the program, with the number of arguments that the commands give, after `tinfo` if the function allocates. -/
inductive CallOk (session : List (List Prim)) (clause : List Prim) (p : List (Name × Decl)) (N : Names) (fns : List Var) : CE → List CE → Prop
  | gc : CallOk session clause p N fns (.var (N.ext 80)) [tinf N]
  | fn (f : Var) (ty : CTy) (as : List CE) : f ∈ fns → CallOk session clause p N fns (.cast (.var (N.ext f)) ty) as
  | tmp (x : CPrint.Name) (ty : CTy) (as : List CE) : CallOk session clause p N fns (.cast (.temp x) ty) as
  | prim (c : Name) (r : Prim) (ts : CPrint.CTys) (as : List CE) : Declared p c → Realised session clause c r → r.alloc = false →
      as.length = r.arity → params ts = r.arity → CallOk session clause p N fns (.cast (.var r.target) (.fn ts false (.base .value))) as
  | tinfo (c : Name) (r : Prim) (ts : CPrint.CTys) (as : List CE) : Declared p c → Realised session clause c r → r.alloc = true →
      as.length = r.arity → params ts = r.arity + 1 →
      CallOk session clause p N fns (.cast (.var r.target) (.fn ts false (.base .value))) (tinf N :: as)

theorem nameTable_ext {b : CPrint.Name} {m : NEnv} {r : CPrint.Name} {q : Nat} (hq : (r, q) ∈ nameTable (registered session clause).1)
    (hr : CPrint.cIdent r = true) : (fileNames b (nameTable (registered session clause).1) m).ext q = r := by
  have h1 : CPrint.addPrimNames (nameTable (registered session clause).1) (CPrint.compileNames b m) q = some (some r) := by
    rw [CPrint.addPrimNames, CPrint.setAll_lookup]
    cases hl : ((nameTable (registered session clause).1).map fun x => (x.2, x.1)).reverse.lookup q with
    | none => exact absurd (by simpa using hq) (CPrint.lookup_none hl r)
    | some n =>
      have := CPrint.mem_of_lookup hl
      simp only [List.mem_reverse, List.mem_map, Prod.mk.injEq, Prod.exists] at this
      obtain ⟨n', q', hm, rfl, rfl⟩ := this
      have hnd := (C70_numbers (session := session) (clause := clause)).1
      simp only [nameTable, List.mem_map, Prod.mk.injEq, Prod.exists] at hm hq
      obtain ⟨a, i, h1, rfl, rfl⟩ := hm
      obtain ⟨a', i', h2, rfl, rfl⟩ := hq
      have := List.inj_on_of_nodup_map hnd h1 h2 rfl
      cases this; rfl
  show CPrint.externAtom (CPrint.finalTable b _ m) q = r
  rw [CPrint.externAtom, CPrint.finalTable, CPrint.atomTable, h1]
  exact CPrint.cIdent_removePrimes hr

section
variable {direct : Bool} {T : Types} {k : Nat} {o : Opts} {marks : Var → Option Nat} {e' : ANF.Exp} {c' : ANF.Comp}

/-- Every call in the C file of a program is as it should be.  Missing: C names that are not identifiers are changed
(`remove_primes`), and the C functions are not known to the model. -/
theorem C70_text_partial (hp : Wf p) (ht : t.crct (Declared p) 0)
    (h : SourceP T (arityOf (registered session clause).1) k (translateProgram (linkTable (registered session clause).1) (environ p) t))
    (hc : compile direct T (arityOf (registered session clause).1) k o marks
      (translateProgram (linkTable (registered session clause).1) (environ p) t) = some (e', c'))
    {C : Cfg} (hC : C.prims = allocOf (registered session clause).1) {b : CPrint.Name} {m : NEnv} {body : Var} {K : CFn × List CFn}
    (hi : ∀ r ∈ allPrims session clause, CPrint.cIdent r.target = true)
    (hK : genProgram (fileNames b (nameTable (registered session clause).1) m) C body (wrapInFun e') = some K) :
    ∀ F ∈ K.1 :: K.2, EveryCall (CallOk session clause p (fileNames b (nameTable (registered session clause).1) m) (E2E.topDefs e').names) F.body := by
  have ha := E2E.all_wrap (P := Uses session clause p) trivial (C70_compiled hp ht h hc)
  rw [E2E.wrap_eq] at ha hK
  have hid : ∀ {r q}, (r, q) ∈ nameTable (registered session clause).1 → CPrint.cIdent r = true := by
    intro r q hr
    simp only [nameTable, List.mem_map, Prod.mk.injEq, Prod.exists] at hr
    obtain ⟨a, i, h1, rfl, rfl⟩ := hr
    refine hi a ?_
    rw [← (C70_numbers (session := session) (clause := clause)).2.1]
    exact List.mem_map.2 ⟨_, h1, rfl⟩
  refine genProgram_calls (P := Uses session clause p) ⟨.gc, fun f ty as => .fn f ty as, fun x ty as => .tmp x ty as, ?_, ?_⟩ ha.2.1 ha.2.2 hK
  · rintro q n as ⟨c, r, h1, h2, _, rfl, h5, h6⟩ hl hq
    rw [hC, h5] at hq
    rw [nameTable_ext h6 (hid h6)]
    exact .prim c r _ as h1 h2 (Option.some.inj hq) hl (params_list _)
  · rintro q n as ⟨c, r, h1, h2, _, rfl, h5, h6⟩ hl hq
    rw [hC, h5] at hq
    rw [nameTable_ext h6 (hid h6)]
    exact .tinfo c r _ as h1 h2 (Option.some.inj hq) hl (by rw [params, params_list])

end

/-! ## A program with an axiom -/

open Conv (natTypes)

/-- A library registers operations of 63-bit integers, and the file being compiled registers the axiom `0` again. -/
def demoSession : List (List Prim) :=
  [[⟨0, "prim_int63_add".toList, 2, false⟩, ⟨7, "prim_int63_sub".toList, 2, false⟩], [⟨0, "my_add".toList, 2, true⟩]]

/-- `Axiom add : int -> int -> int. Definition three := 3. add three (add 4 three)` -/
def demoProgram : List (Name × Decl) := [(1, .trm (.prim (.int 3))), (0, .typ 0 [])]

def demoMain : Term := .app (.app (.const 0) (.const 1)) (.app (.app (.const 0) (.prim (.int 4))) (.const 1))

theorem demo_wf : Wf demoProgram := by simp [demoProgram, Wf, Term.crct]

theorem demo_main : demoMain.crct (Declared demoProgram) 0 := by
  simp [demoMain, Term.crct, Declared, demoProgram]

example : Realised demoSession [] 0 ⟨0, "my_add".toList, 2, true⟩ := realised_iff.2 (by decide)

example : ¬ ∃ r, Realised demoSession [] 5 r := by
  rintro ⟨r, h⟩
  have := realised_iff.1 h
  revert this
  simp [allPrims, globals, demoSession]

example : checkAxioms (registered demoSession []).1 demoProgram = true := by decide

example : checkAxioms (registered [] []).1 demoProgram = false := by decide

theorem demo_typed : Typed natTypes (translateProgram (linkTable (registered demoSession []).1) (environ demoProgram) demoMain) := by
  simp [demoMain, demoProgram, environ, Decl.entry, translateProgram, translateEnv, Src.translateEntry, Src.mkLets, Src.trans, linkTable, registered,
    pick, allPrims, globals, demoSession, findPrim, Typed]

/-- It is compiled to calls of `my_add`, which is operation 100. -/
example (direct : Bool) : ∃ e' c', compile direct natTypes (arityOf (registered demoSession []).1) (registered demoSession []).2
    (ANF.Pipe.makeOptions direct 0 5 8) (fun _ => none)
    (translateProgram (linkTable (registered demoSession []).1) (environ demoProgram) demoMain) = some (e', c') ∧
    e'.All (Uses demoSession [] demoProgram) := by
  obtain ⟨e', c', h, _, h'⟩ := C70_total direct natTypes (ANF.Pipe.makeOptions direct 0 5 8) (fun _ => none) demo_wf demo_main (by decide)
    Conv.natTypes_ok demo_typed
  exact ⟨e', c', h, h'⟩

theorem demo_prims (direct : Bool) : (compile direct natTypes (arityOf (registered demoSession []).1) (registered demoSession []).2
    (ANF.Pipe.makeOptions direct 0 5 8) (fun _ => none)
    (translateProgram (linkTable (registered demoSession []).1) (environ demoProgram) demoMain)).map (fun r => CGen.Text.primsE r.1) =
    some [100, 100] := by
  revert direct; decide +kernel

/-- There is a C file for it. -/
example : ((compile true natTypes (arityOf (registered demoSession []).1) (registered demoSession []).2
    (ANF.Pipe.makeOptions true 0 5 8) (fun _ => none)
    (translateProgram (linkTable (registered demoSession []).1) (environ demoProgram) demoMain)).bind fun r =>
      genProgram (fileNames "body".toList (nameTable (registered demoSession []).1) fun _ => none)
        ⟨1, 93, allocOf (registered demoSession []).1, r.2.cenv⟩ 90 (wrapInFun r.1)).isSome = true := by
  decide +kernel

example : ∀ r ∈ allPrims demoSession [], CPrint.cIdent r.target = true := by decide

example : Ty.Plain (.prod (.letin (.prod .other))) ∧ (interp 0 (.prod (.letin (.prod .other))) "f".toList none true).arity = 2 := ⟨trivial, rfl⟩

end Reg
