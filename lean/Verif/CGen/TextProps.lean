import Verif.CGen.TextTotal
import Verif.CGen.TextGood
import Verif.CGen.Props

/-!
# C64: the text of the C file does what the compiled program does

CGen/Model.lean (C24, C25) is the code generator without types, casts, constants and names.  CGen/TextModel.lean is the code
generator with the C syntax it builds; CPrint/Model.lean is the printer; CPrint/NameModel.lean chooses the names.  The theorems below are
about the composition of the three: the characters in the file.  They are read by the C grammar of CPrint/Spec.lean, and run by
CGen/TextSpec.lean: a semantics of C text that looks up functions, parameters, variables and fields by their names.
-/

namespace CGen.Text

open ANF
open CPrint (CFn Name ReadsFn NamesOk NEnv finalTable)

variable {C : Cfg} {b : Name} {ps : List (Name × Nat)} {m : NEnv} {e : Exp} {body : Var} {M : CFun × List CFun}

/-- The names in the file. -/
abbrev fileNames (b : Name) (ps : List (Name × Nat)) (m : NEnv) : Names := Names.of (finalTable b ps m)

/-- What is assumed of a program: its variables are not those of the compiler or of C functions, and numbers in it fit in words. -/
structure Fits (C : Cfg) (b : Name) (ps : List (Name × Nat)) (m : NEnv) (e : Exp) : Prop where
  names : NamesOk b ps m
  tags : TagsFit C.cenv
  result : vOk C.prims C.result
  fits : FitsE C.prims e

/-- **C64, totality.** Every program the backend compiles has C code, and all functions of it can be read. -/
theorem C64_readable_partial (hf : Fits C b ps m e) (hs : SeenE C.cenv e) (h : compileC C body e = some M) :
    ∃ K, genProgram (fileNames b ps m) C body e = some K ∧ ∃ fs, List.Forall₂ ReadsFn (functionTexts K) fs := by
  obtain ⟨K, hK⟩ := genProgram_some (N := fileNames b ps m) hf.tags hf.fits h
  obtain ⟨F, Q, h1, h2, h3⟩ := genProgram_el hf.tags (G := K.1) (P := K.2) hK
  rw [h] at h1
  cases h1
  obtain ⟨hN, hI⟩ := names_of hf.names
  exact ⟨K, hK, (run_text hN hI h2 h3 (compileC_good hf.tags hf.result hs hf.fits h)).1⟩

/-- **C64, meaning.** However the text of the functions is read, what is read runs, with any collector, primitives, time, depth of
the stack and state of memory, exactly as the code of which C24 and C25 are proved.  Missing: constants of strings and floating-point
numbers, and what else is in the file (declarations of types and functions, tables for the collector); integers are not truncated. -/
theorem C64_text_partial (hf : Fits C b ps m e) (hs : SeenE C.cenv e) (h : compileC C body e = some M) {K : CFn × List CFn}
    (hK : genProgram (fileNames b ps m) C body e = some K) {fs : List CFn} (hr : List.Forall₂ ReadsFn (functionTexts K) fs)
    (W : World) (n d : Nat) (t : Th) : runT (fileNames b ps m) C.prims W fs n d t = runC W M n d t := by
  obtain ⟨F, Q, h1, h2, h3⟩ := genProgram_el hf.tags (G := K.1) (P := K.2) hK
  rw [h] at h1
  cases h1
  obtain ⟨hN, hI⟩ := names_of hf.names
  exact (run_text hN hI h2 h3 (compileC_good hf.tags hf.result hs hf.fits h)).2 fs hr W n d t

/-- **C64, results.** If the program returns a value, the C file, linked with any collector and primitives that do what they should
and started in any state of the heap, runs out of memory or returns a word that represents that value. -/
theorem C64_returns_partial {G : HeapI} {S : Sig} {W : World} {B : Defs} (hL : Linked G S C W B e body M)
    (hf : Fits C b ps m (.fn B e)) {K : CFn × List CFn} (hK : genProgram (fileNames b ps m) C body (.fn B e) = some K) {fs : List CFn}
    (hr : List.Forall₂ ReadsFn (functionTexts K) fs) {v : Val} (hv : Returns S emp (.fn B e) v) (d : Nat) (t : Th)
    (hd : ∀ k, OnChain t k → k < d) (hle : t.alloc ≤ t.limit) (hok : t.Ok G S.cenv B) :
    ∃ n, runT (fileNames b ps m) C.prims W fs n d t = .abort ∨ ∃ c t', runT (fileNames b ps m) C.prims W fs n d t = .ret c t' ∧
      VRep G S.cenv B t'.mem t'.alloc t'.limit v c := by
  simp only [C64_text_partial hf (hL.cenv ▸ hL.seen) hL.compiled hK hr]
  exact C24_returns_partial hL hv d t hd hle hok

/-- **C64, safety.** The C file of a program that does not go wrong has no undefined behaviour, and that of a program that runs forever
does not return. -/
theorem C64_safe_partial {G : HeapI} {S : Sig} {W : World} {B : Defs} (hL : Linked G S C W B e body M)
    (hf : Fits C b ps m (.fn B e)) {K : CFn × List CFn} (hK : genProgram (fileNames b ps m) C body (.fn B e) = some K) {fs : List CFn}
    (hr : List.Forall₂ ReadsFn (functionTexts K) fs) (n d : Nat) (t : Th)
    (hd : ∀ k, OnChain t k → k < d) (hle : t.alloc ≤ t.limit) (hok : t.Ok G S.cenv B) :
    (¬ GoesWrong S emp (.fn B e) → runT (fileNames b ps m) C.prims W fs n d t ≠ .ub) ∧
    (Diverges S emp (.fn B e) → runT (fileNames b ps m) C.prims W fs n d t = .abort ∨ runT (fileNames b ps m) C.prims W fs n d t = .oot) := by
  simp only [C64_text_partial hf (hL.cenv ▸ hL.seen) hL.compiled hK hr]
  exact ⟨fun hw => C25_no_overflow_partial hL hw n d t hd hle hok, fun h => C24_diverges_partial hL h n d t hd hle hok⟩

/-! ## The statements are about real programs -/

/-- A function of the example has a name in the source, the other variables none. -/
def natNames : NEnv := fun x => if x = 300 then some (some "add'".toList) else none

theorem natNames_ok : NamesOk "body".toList [] natNames where
  src x s h := by
    unfold natNames at h
    split at h
    · simp only [Option.some.injEq] at h
      subst h
      decide
    · cases h
  main := by decide +kernel
  prim := by simp
  names := by simp
  ids := by simp

theorem tags_nat : TagsFit cenvNat := by
  intro t r h
  by_cases h1 : t = 100
  · subst h1; cases h; decide
  by_cases h2 : t = 101
  · subst h2; cases h; decide
  simp [ctorRep, cenvNat, h1, h2] at h

theorem fits_nat : Fits cfgNat "body".toList [] natNames (.fn defsNat mainNat) where
  names := natNames_ok
  tags := tags_nat
  result := by simp [vOk, tOk, fOk, cfgNat]
  fits := by
    have h1 : (Exp.constr 306 101 [305] (.halt 306)).fv.card < 2 ^ 62 := by decide +kernel
    have h2 : (Exp.halt 312).fv.card < 2 ^ 62 := by decide +kernel
    have h3 : (Exp.case 301 (.cons 100 (.constr 303 101 [302] (.halt 303))
      (.cons 101 (.proj 304 101 0 301 (.letapp 305 300 3 [304, 302] (.constr 306 101 [305] (.halt 306)))) .nil))).fv.card < 2 ^ 62 := by
      decide +kernel
    simp [FitsE, FitsBs, FitsB, defsNat, mainNat, vOk, tOk, fOk, cfgNat, maxAllocsE, maxAllocsBs] at h1 h2 h3 ⊢
    exact ⟨⟨h3, h1⟩, h2⟩

/-- The C file of the example computes `2`, whatever the room in the nursery. -/
example (room : Nat) : ∃ M K, compileC cfgNat 90 (.fn defsNat mainNat) = some M ∧
    genProgram (fileNames "body".toList [] natNames) cfgNat 90 (.fn defsNat mainNat) = some K ∧
    (∃ fs, List.Forall₂ ReadsFn (functionTexts K) fs) ∧
    ∀ fs, List.Forall₂ ReadsFn (functionTexts K) fs →
      ∃ n, runT (fileNames "body".toList [] natNames) cfgNat.prims world0 fs n 0 (th0 room) = .abort ∨
        ∃ c t', runT (fileNames "body".toList [] natNames) cfgNat.prims world0 fs n 0 (th0 room) = .ret c t' ∧
          VRep .top cenvNat defsNat t'.mem t'.alloc t'.limit (natVal 2) c := by
  obtain ⟨M, hM⟩ := compileC_total (C := cfgNat) (body := 90) (ar := fun _ => 2) ok_nat (by simp [FlatB, FlatE, FlatBs, defsNat]) (by simp [FlatE, mainNat])
  obtain ⟨K, hK, hr⟩ := C64_readable_partial fits_nat seen_nat hM
  exact ⟨M, K, hM, hK, hr, fun fs hfs => C64_returns_partial ⟨rfl, cenvNat_ok, world0_ok cenvNat_ok _, prims_none _ _ _ _, HeapI.top_laws _ _,
    by decide, hM, seen_nat, by decide, by decide⟩ fits_nat hK hfs returns_nat 0 _ (fun k hk => absurd hk th0_chain) (by simp [th0]) (th0_ok _ _ _)⟩

end CGen.Text
