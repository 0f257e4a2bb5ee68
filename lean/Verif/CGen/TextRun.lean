import Verif.CGen.TextOk

/-!
# The functions read from the text do what the compiled functions do
-/

namespace CGen.Text

open ANF
open CPrint (CE CS LS CTy CTys CFn Name Meaning ReadsFn)

variable {N : Names} {prims : Tag → Option Bool}

/-- A function read from the text of `G`. -/
structure Read (G G' : CFn) : Prop where
  name : G'.name = G.name
  params : G'.params = G.params
  vars : G'.vars = G.vars
  body : ∀ M σ, G'.body.exec M σ = G.body.exec M σ

theorem decodeAll_map (hN : N.Inj) (t : CTy) : ∀ xs : List Var, decodeAll N (xs.map fun x => (N.tmp x, t)) = some xs
  | [] => rfl
  | x :: xs => by rw [List.map_cons, decodeAll, decodeAll_map hN t xs, dtmp_tmp hN]

theorem enter_text (hN : N.Inj) {F : CFun} {G G' : CFn} (hE : ElF N F G) (g : good prims F.body) (hR : Read G G') (W : World)
    (call : Nat → Var → List CVal → Th → CGen.Out) (d : Nat) (cs : List CVal) (h : Th) :
    enterT N prims W call G' d cs h = enter W call F d cs h := by
  have h1 : decodeAll N G'.params = some (91 :: F.params) := by
    rw [hR.params, hE.params, decodeAll, decodeAll_map hN, dtmp_tmp hN]
  have h2 : rootsOf N G'.vars = some F.rootSize := by
    rw [hR.vars, hE.vars]
    simp [stackDecl, rootsOf, stackframeT]
  rw [enterT, h1, h2, enter]
  simp only
  split
  · rw [hR.body, sim (E := ⟨N, prims, W, call, d⟩) hN hE.body g]
    cases exec W call d F.body ⟨bindParams F.params cs, 0, 0, false⟩ (h.setFrame d ⟨F.rootSize, 0, none, fun _ => none⟩) <;> rfl
  · rfl

theorem find_text (hN : N.Inj) (f : Var) : ∀ {Q : List CFun} {P P' : List CFn}, List.Forall₂ (ElF N) Q P → List.Forall₂ Read P P' →
    (findFun f Q = none ∧ findT (N.ext f) P' = none) ∨
      ∃ F G G', F ∈ Q ∧ findFun f Q = some F ∧ findT (N.ext f) P' = some G' ∧ ElF N F G ∧ Read G G'
  | [], [], [], .nil, .nil => .inl ⟨rfl, rfl⟩
  | F :: Q, G :: P, G' :: P', .cons h1 h2, .cons r1 r2 => by
    have e : G'.name = N.ext F.name := r1.name.trans h1.name
    by_cases hf : F.name = f
    · refine .inr ⟨F, G, G', by simp, ?_, ?_, h1, r1⟩
      · rw [findFun, if_pos hf]
      · rw [findT, e, hf, if_pos rfl]
    · have hf' : ¬ G'.name = N.ext f := fun h => hf (hN.ext (e.symm.trans h))
      rw [findFun, if_neg hf, findT, if_neg hf']
      rcases find_text hN f h2 r2 with h | ⟨F', K, K', h3, h4⟩
      · exact .inl h
      · exact .inr ⟨F', K, K', List.mem_cons_of_mem _ h3, h4⟩

theorem call_text (hN : N.Inj) {Q : List CFun} {P P' : List CFn} (hE : List.Forall₂ (ElF N) Q P) (hR : List.Forall₂ Read P P')
    (g : ∀ F ∈ Q, good prims F.body) (W : World) : ∀ n, callT N prims W P' n = callC W Q n
  | 0 => by
    funext d f cs h
    rfl
  | n + 1 => by
    funext d f cs h
    rw [callT, callC]
    rcases find_text hN f hE hR with ⟨h1, h2⟩ | ⟨F, G, G', h1, h2, h3, h4, h5⟩
    · rw [h1, h2]
    · rw [h2, h3]
      simp only
      rw [call_text hN hE hR g W n]
      exact enter_text hN h4 (g F h1) h5 _ _ _ _ _

theorem read_of {G G' : CFn} (hok : G.ok = true) (h : ReadsFn (CPrint.text (CPrint.function G)) G') : Read G G' := by
  obtain ⟨h1, -, h2, -, h3, -, h4⟩ := (CPrint.C62_function_meaning_partial G hok).2 G' h
  exact ⟨h1, h2, h3, h4⟩

/-- The texts are read, and only as functions that do the same. -/
theorem reads_all (hN : N.Ok) : ∀ {Q : List CFun} {P : List CFn}, List.Forall₂ (ElF N) Q P →
    (∀ F ∈ Q, good prims F.body) →
    (∃ P', List.Forall₂ ReadsFn (P.map fun F => CPrint.text (CPrint.function F)) P') ∧
      ∀ P', List.Forall₂ ReadsFn (P.map fun F => CPrint.text (CPrint.function F)) P' → List.Forall₂ Read P P'
  | [], [], .nil, _ => ⟨⟨[], .nil⟩, fun P' h => by cases h; exact .nil⟩
  | F :: Q, G :: P, .cons h1 h2, g => by
    have hok := elF_ok hN h1 (g F (by simp))
    obtain ⟨⟨P', hP⟩, hu⟩ := reads_all hN h2 fun F hF => g F (by simp [hF])
    obtain ⟨G', hG⟩ := (CPrint.C62_function_meaning_partial G hok).1
    refine ⟨⟨G' :: P', .cons hG hP⟩, fun P' h => ?_⟩
    cases h with
    | cons r1 r2 => exact .cons (read_of hok r1) (hu _ r2)

/-- The text of a program does what the program does. -/
theorem run_text (hN : N.Ok) (hI : N.Inj) {M : CFun × List CFun} {K : CFn × List CFn} (h1 : ElF N M.1 K.1) (h2 : List.Forall₂ (ElF N) M.2 K.2)
    (g : ∀ F ∈ M.1 :: M.2, good prims F.body) :
    (∃ fs, List.Forall₂ ReadsFn (functionTexts K) fs) ∧ ∀ fs, List.Forall₂ ReadsFn (functionTexts K) fs →
      ∀ W n d h, runT N prims W fs n d h = runC W M n d h := by
  obtain ⟨h3, h4⟩ := reads_all (prims := prims) hN (List.Forall₂.cons h1 h2) g
  refine ⟨h3, fun fs hfs W n d h => ?_⟩
  have := h4 fs hfs
  cases this with
  | cons r1 r2 =>
    rw [runT, runC, call_text hI h2 r2 fun F hF => g F (by simp [hF])]
    exact enter_text hI h1 (g _ (by simp)) r1 _ _ _ _ _

end CGen.Text
