import Verif.Link.Props
import Verif.CGen.TextProps

/-!
# C76 for the functions that the code generator makes

The symbols of a program are those of its generated functions (C64), with the tables of the collector.
-/

namespace Link

open CPrint CGen CGen.Text ANF

/-- The names of the functions that the code generator makes. -/
theorem genDefs_names {N : Names} {C : Cfg} {fenv : FEnv} {fns : List Var} : ∀ {B : Defs} {P : List CFn}, genDefs N C fenv fns B = some P →
    P.map (·.name) = B.names.map N.ext
  | .nil, P, h => by
    simp only [genDefs, Option.some.injEq] at h
    subst h
    rfl
  | .cons f t vs e B, P, h => by
    rw [genDefs] at h
    split at h
    · rename_i Q F hQ hF
      simp only [Option.some.injEq] at h
      subst h
      rw [List.map_cons, genDefs_names hQ, Defs.names, List.map_cons, List.cons.injEq]
      refine ⟨?_, rfl⟩
      rw [genDef] at hF
      split at hF
      · cases hF
      · split at hF
        · simp only [Option.some.injEq] at hF
          subst hF
          rfl
        · cases hF
    · cases h

/-- **C76** what the file of a program defines is its generated functions, the main function first, and the tables. -/
theorem C76_generated {P : Prog} {C : Cfg} {B : Defs} {e : Exp} {K : CFn × List CFn} (hf : P.fns = B.names)
    (hK : genProgram (fileNames P.main P.prims P.env) C 90 (.fn B e) = some K) :
    P.symbols.Perm ((K.1 :: K.2).map (·.name) ++
      ((P.first + P.fns.length) :: (infoIds P.first P.fns).map (·.2)).map (externAtom (finalTable P.main P.prims P.env))) := by
  rw [genProgram] at hK
  split at hK
  · split at hK
    · rename_i Q s n hQ hs
      simp only [Option.some.injEq] at hK
      subst hK
      rw [List.map_cons, genDefs_names hQ, ← hf]
      simp only [Prog.symbols, Prog.ids, List.map_cons, List.map_append, List.cons_append]
      refine List.Perm.cons _ ?_
      exact List.perm_append_comm (l₁ := _ :: _) (l₂ := _)
    · cases hK
  · cases hK

/-- **C76 refuted** for generated files: two programs whose generated main functions have the same name define it both. -/
theorem C76_generated_refuted {P Q : Prog} {C D : Cfg} {B B' : Defs} {e e' : Exp} {K L : CFn × List CFn} (hf : P.fns = B.names) (hf' : Q.fns = B'.names)
    (hK : genProgram (fileNames P.main P.prims P.env) C 90 (.fn B e) = some K)
    (hL : genProgram (fileNames Q.main Q.prims Q.env) D 90 (.fn B' e') = some L) {F G : CFn} (hF : F ∈ K.1 :: K.2) (hG : G ∈ L.1 :: L.2)
    (h : F.name = G.name) : ¬ Links P.symbols Q.symbols := by
  intro hl
  refine hl F.name ((C76_generated hf hK).symm.subset (List.mem_append_left _ (List.mem_map_of_mem hF))) ?_
  rw [h]
  exact (C76_generated hf' hL).symm.subset (List.mem_append_left _ (List.mem_map_of_mem hG))

/-- The program of C64's example, with its function `add'`, numbered 300. -/
def progNat : Prog := ⟨"body".toList, [], natNames, defsNat.names, 400⟩

example : ∃ K, genProgram (fileNames progNat.main progNat.prims progNat.env) cfgNat 90 (.fn defsNat mainNat) = some K ∧
    progNat.symbols.Perm ((K.1 :: K.2).map (·.name) ++ ["body_info_401".toList, "addp_info_400".toList]) := by
  obtain ⟨M, hM⟩ := compileC_total (C := cfgNat) (body := 90) (ar := fun _ => 2) ok_nat (by simp [FlatB, FlatE, FlatBs, defsNat]) (by simp [FlatE, mainNat])
  obtain ⟨K, hK⟩ := genProgram_some (N := fileNames progNat.main progNat.prims progNat.env) fits_nat.tags fits_nat.fits hM
  refine ⟨K, hK, (C76_generated rfl hK).trans (List.Perm.of_eq ?_)⟩
  congr 1

end Link
