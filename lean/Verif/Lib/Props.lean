import Verif.Lib.Model
import Verif.Reg.Props

/-!
# C78: operations of the libraries are called as their C functions are defined

For all programs, all sequences of loaded libraries and all options.
-/

namespace Lib

open Mut (Term)
open Reg (Ty Prim Decl Wf Declared Realised registered linkTable arityOf allocOf nameTable environ allPrims globals params EveryCall EveryCallL CallOk)
open Src (translateProgram)
open ANF (Var)
open ANF.Pipe (Opts)
open Conv (Types)
open CGen (Cfg wrapInFun)
open CGen.Text (genProgram fileNames tinf Names)
open CPrint (CE CTy CFn NEnv CS LS)
open E2E (compile SourceP)

/-! ## Specification -/

/-- A call in a C file: of the collector, of a function of the program, of a function in a variable, or of the function of the runtime that
a loaded library gives for a constant of the program, with as many arguments as it has parameters, through a type with as many parameters. -/
inductive CallFits (num : List Char → Nat) (ls : List (List Entry)) (p : List (Mut.Name × Decl)) (N : Names) (fns : List Var) : CE → List CE → Prop
  | gc : CallFits num ls p N fns (.var (N.ext 80)) [tinf N]
  | fn (f : Var) (ty : CTy) (as : List CE) : f ∈ fns → CallFits num ls p N fns (.cast (.var (N.ext f)) ty) as
  | tmp (x : CPrint.Name) (ty : CTy) (as : List CE) : CallFits num ls p N fns (.cast (.temp x) ty) as
  | lib (l : List Entry) (e : Entry) (d : Sig) (ts : CPrint.CTys) (as : List CE) : l ∈ ls → e ∈ l → Declared p (num e.const) → d ∈ definitions →
      d.name = e.target → as.length = d.params → params ts = d.params + (if d.tinfo then 1 else 0) →
      CallFits num ls p N fns (.cast (.var d.name) (.fn ts false (.base .value))) (if d.tinfo then tinf N :: as else as)

/-- The constants that are types; they are erased before programs are compiled. -/
def isType (e : Entry) : Bool := e.target = "erased".toList

/-- A library of the plugin. -/
def Shipped (ls : List (List Entry)) : Prop := ∀ l ∈ ls, l ∈ libraries

/-! ## Tables -/

/-- All lines of all libraries agree with the definitions. -/
theorem entries_ok : ∀ l ∈ libraries, ∀ e ∈ l, isType e = true ∨ ∃ d ∈ definitions, d.name = e.target ∧ d.tinfo = e.tinfo ∧ d.params = e.arity.getD e.ty.nhyps := by
  decide +kernel

theorem entries_ident : ∀ l ∈ libraries, ∀ e ∈ l, CPrint.cIdent e.target = true := by decide +kernel

/-! ## Lemmas -/

mutual
theorem every_mono {K L : CE → List CE → Prop} (h : ∀ f as, K f as → L f as) : ∀ s : CS, EveryCall K s → EveryCall L s
  | .skip, _ | .assign _ _, _ | .set _ _, _ | .brk, _ | .ret _, _ => trivial
  | .call _ _ _, hs => h _ _ hs
  | .seq a b, hs => ⟨every_mono h a hs.1, every_mono h b hs.2⟩
  | .ite _ a b, hs => ⟨every_mono h a hs.1, every_mono h b hs.2⟩
  | .switch _ ls, hs => everyL_mono h ls hs
theorem everyL_mono {K L : CE → List CE → Prop} (h : ∀ f as, K f as → L f as) : ∀ ls : LS, EveryCallL K ls → EveryCallL L ls
  | .nil, _ => trivial
  | .cons _ s ls, hs => ⟨every_mono h s hs.1, everyL_mono h ls hs.2⟩
end

theorem realised_entry {num : List Char → Nat} {ls : List (List Entry)} (hl : Shipped ls) {c : Mut.Name} {r : Prim}
    (h : Realised (session num ls) [] c r) : ∃ l ∈ ls, l ∈ libraries ∧ ∃ e ∈ l, num e.const = c ∧ r = e.prim num := by
  rcases h with ⟨_, l, _, h1, ⟨a, b, rfl, hr, _⟩, _⟩ | ⟨_, a, b, h, _⟩
  · have hm : a ++ r :: b ∈ session num ls := by rw [h1]; simp
    obtain ⟨l, hl', h2⟩ := List.mem_map.1 hm
    have hr' : r ∈ l.map (Entry.prim num) := by rw [h2]; simp
    obtain ⟨e, he, rfl⟩ := List.mem_map.1 hr'
    exact ⟨l, hl', hl l hl', e, he, hr, rfl⟩
  · simp at h

theorem allPrims_ident {num : List Char → Nat} {ls : List (List Entry)} (hl : Shipped ls) : ∀ r ∈ allPrims (session num ls) [], CPrint.cIdent r.target = true := by
  have key : ∀ (ls : List (List Entry)) (g : List Prim), Shipped ls → (∀ r ∈ g, CPrint.cIdent r.target = true) →
      ∀ r ∈ (session num ls).foldl (fun g ps => ps ++ g) g, CPrint.cIdent r.target = true := by
    intro ls
    induction ls with
    | nil => exact fun g _ h => h
    | cons l ls ih =>
      intro g hs hg
      refine ih _ (fun l' h' => hs l' (List.mem_cons_of_mem _ h')) fun r hr => ?_
      rcases List.mem_append.1 hr with h | h
      · obtain ⟨e, he, rfl⟩ := List.mem_map.1 h
        exact entries_ident l (hs l List.mem_cons_self) e he
      · exact hg r h
  intro r hr
  rw [allPrims, List.append_nil] at hr
  exact key ls [] hl (by simp) r hr

/-! ## Calls -/

section
variable {num : List Char → Nat} {ls : List (List Entry)} {p : List (Mut.Name × Decl)} {t : Term}
variable {direct : Bool} {T : Types} {k : Nat} {o : Opts} {marks : Var → Option Nat} {e' : ANF.Exp} {c' : ANF.Comp}

/-- **C78.** In the C file of every program that is compiled with libraries of the plugin, every function of the runtime that is called is called with the arguments it is defined
with. -/
theorem C78_calls (hl : Shipped ls) (hty : ∀ l ∈ libraries, ∀ e ∈ l, isType e = true → ¬ Declared p (num e.const))
    (hp : Wf p) (ht : t.crct (Declared p) 0)
    (h : SourceP T (arityOf (registered (session num ls) []).1) k (translateProgram (linkTable (registered (session num ls) []).1) (environ p) t))
    (hc : compile direct T (arityOf (registered (session num ls) []).1) k o marks
      (translateProgram (linkTable (registered (session num ls) []).1) (environ p) t) = some (e', c'))
    {C : Cfg} (hC : C.prims = allocOf (registered (session num ls) []).1) {b : CPrint.Name} {m : NEnv} {body : Var} {K : CFn × List CFn}
    (hK : genProgram (fileNames b (nameTable (registered (session num ls) []).1) m) C body (wrapInFun e') = some K) :
    ∀ F ∈ K.1 :: K.2, EveryCall (CallFits num ls p (fileNames b (nameTable (registered (session num ls) []).1) m) (E2E.topDefs e').names) F.body := by
  intro F hF
  refine every_mono ?_ _ (Reg.C70_text_partial hp ht h hc hC (allPrims_ident hl) hK F hF)
  intro f as hk
  cases hk with
  | gc => exact .gc
  | fn f ty as hf => exact .fn f ty as hf
  | tmp x ty as => exact .tmp x ty as
  | prim c r ts as hd hr ha hn hts =>
    obtain ⟨l, hm, hl', e, he, rfl, rfl⟩ := realised_entry hl hr
    rcases entries_ok l hl' e he with h | ⟨d, hd', h1, h2, h3⟩
    · exact absurd hd (hty l hl' e he h)
    · have ha' : d.tinfo = false := by rw [h2]; exact ha
      have hn' : (e.prim num).arity = d.params := h3.symm
      have := CallFits.lib (num := num) (ls := ls) (p := p) (N := fileNames b (nameTable (registered (session num ls) []).1) m) (fns := (E2E.topDefs e').names) l e d ts as hm he hd hd' h1
        (by rw [hn, hn']) (by rw [hts, hn', ha']; rfl)
      rw [ha', h1] at this
      exact this
  | tinfo c r ts as hd hr ha hn hts =>
    obtain ⟨l, hm, hl', e, he, rfl, rfl⟩ := realised_entry hl hr
    rcases entries_ok l hl' e he with h | ⟨d, hd', h1, h2, h3⟩
    · exact absurd hd (hty l hl' e he h)
    · have ha' : d.tinfo = true := by rw [h2]; exact ha
      have hn' : (e.prim num).arity = d.params := h3.symm
      have := CallFits.lib (num := num) (ls := ls) (p := p) (N := fileNames b (nameTable (registered (session num ls) []).1) m) (fns := (E2E.topDefs e').names) l e d ts as hm he hd hd' h1
        (by rw [hn, hn']) (by rw [hts, hn', ha']; rfl)
      rw [ha', h1] at this
      exact this

end

/-! ## Names -/

/-- A name is defined once in the runtime. -/
theorem C78_defined : (definitions.map Sig.name).Nodup := by decide +kernel

/-- Operations have functions of their own.  Missing: `compare` and `compares` of 63-bit integers (see C78_distinct_refuted). -/
theorem C78_distinct_partial : ∀ e ∈ libraries.flatten, ∀ e' ∈ libraries.flatten, isType e = false → e.target = e'.target →
    e.const = e'.const ∨ e.const ∈ ["PrimInt63.compare".toList, "PrimInt63.compares".toList] := by decide +kernel

/-- **C78, refuted for comparisons.** The comparison of signed integers is the comparison of unsigned integers (see C57 for the values). -/
theorem C78_distinct_refuted : ∃ e ∈ int63, ∃ e' ∈ int63, e.const = "PrimInt63.compare".toList ∧ e'.const = "PrimInt63.compares".toList ∧ e.target = e'.target := by
  decide +kernel

/-! ## Headers -/

/-- The functions of strings that the header declares otherwise. -/
def wrongStrings : List (List Char) := ["prim_string_compare".toList, "prim_string_make".toList, "prim_string_sub".toList, "prim_string_cat".toList]

/-- The headers that files include declare functions as they are defined.  Missing: four functions of strings (see C78_header_refuted). -/
theorem C78_header_partial : ∀ d ∈ definitions, d.name ∉ wrongStrings → d ∈ declarations := by decide +kernel

/-- **C78, refuted for headers.** The declarations of four functions of strings differ from the definitions: one argument is missing, or the thread. -/
theorem C78_header_refuted : ∀ n ∈ wrongStrings, ∃ d ∈ definitions, d.name = n ∧ ∃ d' ∈ declarations, d'.name = n ∧ d' ≠ d := by decide +kernel

/-! ## Arities -/

/-- The numbers of arguments are those of the types.  Missing: `GMP.nat_case` (see C78_arity_refuted). -/
theorem C78_arity_partial : ∀ e ∈ libraries.flatten, e.const ≠ "GMP.nat_case".toList → ∀ n, e.arity = some n → n = e.ty.args := by decide +kernel

/-- **C78, refuted for numbers of arguments.** The case on large integers has an argument less than its type: the type of results must have been removed from calls. -/
theorem C78_arity_refuted : ∃ e ∈ gmp, e.const = "GMP.nat_case".toList ∧ e.arity = some 3 ∧ e.ty.args = 4 := by decide +kernel

/-! ## A program -/

/-- Constants numbered by their positions in the libraries. -/
def numOf (c : List Char) : Nat := (libraries.flatten.map Entry.const).idxOf c

/-- A session that has loaded integers and strings, and integers again. -/
def demoLibs : List (List Entry) := [int63, strings, int63]

example : Shipped demoLibs := by
  intro l hl
  simp only [demoLibs, List.mem_cons, List.not_mem_nil, or_false] at hl
  simp only [libraries, List.mem_cons, List.not_mem_nil, or_false]
  tauto

/-- `PrimInt63.add : int -> int -> int` and `PrimString.make : int -> char63 -> string` -/
def demoProgram : List (Mut.Name × Decl) := [(numOf "PrimInt63.add".toList, .typ 0 []), (numOf "PrimString.make".toList, .typ 0 [])]

/-- `make (add 3 4) 65` -/
def demoMain : Term :=
  .app (.app (.const (numOf "PrimString.make".toList)) (.app (.app (.const (numOf "PrimInt63.add".toList)) (.prim (.int 3))) (.prim (.int 4)))) (.prim (.int 65))

theorem numOf_inj : ∀ e ∈ libraries.flatten, ∀ e' ∈ libraries.flatten, numOf e.const = numOf e'.const → e.const = e'.const := by
  intro e he e' he' h
  have h1 : e.const ∈ libraries.flatten.map Entry.const := List.mem_map.2 ⟨e, he, rfl⟩
  have h2 : e'.const ∈ libraries.flatten.map Entry.const := List.mem_map.2 ⟨e', he', rfl⟩
  rw [← List.getElem_idxOf (List.idxOf_lt_length_of_mem h1), ← List.getElem_idxOf (List.idxOf_lt_length_of_mem h2)]
  exact getElem_congr_idx h

example : ∀ l ∈ libraries, ∀ e ∈ l, isType e = true → ¬ Declared demoProgram (numOf e.const) := by
  have : ∀ l ∈ libraries, ∀ e ∈ l, isType e = true → numOf e.const ∉ demoProgram.map Prod.fst := by decide +kernel
  intro l hl e he ht hd
  refine this l hl e he ht ?_
  obtain ⟨d, hd, _⟩ := hd
  exact List.mem_map.2 ⟨_, hd, rfl⟩

/-- There is a C file for it. -/
example : ((compile true Conv.natTypes (arityOf (registered (session numOf demoLibs) []).1) (registered (session numOf demoLibs) []).2
    (ANF.Pipe.makeOptions true 0 5 8) (fun _ => none)
    (translateProgram (linkTable (registered (session numOf demoLibs) []).1) (environ demoProgram) demoMain)).bind fun r =>
      genProgram (fileNames "body".toList (nameTable (registered (session numOf demoLibs) []).1) fun _ => none)
        ⟨1, 93, allocOf (registered (session numOf demoLibs) []).1, r.2.cenv⟩ 90 (wrapInFun r.1)).isSome = true := by
  decide +kernel

end Lib
