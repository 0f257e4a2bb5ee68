import Verif.CGen.TextGood

/-!
# The backend builds the text of every program it compiles
-/

namespace CGen.Text

open ANF
open CPrint (CE CS LS CTy CTys CFn Name)

variable {N : Names} {fns : List Var} {loc : Finset Var}

theorem assignConstructor_some {cenv : Ctor.PMap Ctor.Info} {x : Var} {t : Tag} {vs : List Var} {s : CStmt}
    (h : CGen.assignConstructor cenv fns x t vs = some s) : ∃ c, assignConstructor N cenv fns x t vs = some c := by
  unfold CGen.assignConstructor at h
  unfold assignConstructor
  split at h
  · next o ho => exact ⟨_, by rw [ho]⟩
  · next o a ho => exact ⟨_, by rw [ho]⟩
  · cases h

theorem mkCallVars_some : ∀ {n : Nat} {vs : List Var} {es : List CExpr}, CGen.mkCallVars fns n vs = some es →
    ∃ cs, mkCallVars N fns n vs = some cs
  | 0, [], es, _ => ⟨[], rfl⟩
  | n + 1, v :: vs, es, h => by
    simp only [CGen.mkCallVars, Option.map_eq_some_iff] at h
    obtain ⟨es', h', -⟩ := h
    obtain ⟨cs, hcs⟩ := mkCallVars_some h'
    exact ⟨_, by rw [mkCallVars, hcs]; rfl⟩
  | 0, _ :: _, _, h => by cases h
  | _ + 1, [], _, h => by cases h

theorem mkCall_some {np n : Nat} {x : Var} {f : CExpr} {vs : List Var} {s : CStmt} (g : CE)
    (h : CGen.mkCall np fns x f n vs = some s) : ∃ c, mkCall N np fns x g n vs = some c := by
  simp only [CGen.mkCall, Option.map_eq_some_iff] at h
  obtain ⟨es, h, -⟩ := h
  obtain ⟨cs, hcs⟩ := mkCallVars_some (N := N) h
  exact ⟨_, by rw [mkCall, hcs]; rfl⟩

theorem asgnFunVars'_some : ∀ {vs : List Var} {ind : List Nat} {s : CStmt}, CGen.asgnFunVars' vs ind = some s →
    ∃ c, asgnFunVars' N vs ind = some c
  | [], [], s, _ => ⟨_, rfl⟩
  | v :: vs, i :: ind, s, h => by
    simp only [CGen.asgnFunVars', Option.map_eq_some_iff] at h
    obtain ⟨t, h, -⟩ := h
    obtain ⟨c, hc⟩ := asgnFunVars'_some h
    exact ⟨_, by rw [asgnFunVars', hc]; rfl⟩
  | [], _ :: _, _, h => by cases h
  | _ :: _, [], _, h => by cases h

theorem asgnAppVars'_some : ∀ {vs : List Var} {ind : List Nat} {s : CStmt}, CGen.asgnAppVars' fns vs ind = some s →
    ∃ c, asgnAppVars' N fns vs ind = some c
  | [], [], s, _ => ⟨_, rfl⟩
  | v :: vs, i :: ind, s, h => by
    simp only [CGen.asgnAppVars', Option.map_eq_some_iff] at h
    obtain ⟨t, h, -⟩ := h
    obtain ⟨c, hc⟩ := asgnAppVars'_some h
    exact ⟨_, by rw [asgnAppVars', hc]; rfl⟩
  | [], _ :: _, _, h => by cases h
  | _ :: _, [], _, h => by cases h

theorem asgnAppVars_some {np : Nat} {vs : List Var} {ind : List Nat} {s : CStmt} (h : CGen.asgnAppVars np fns vs ind = some s) :
    ∃ c, asgnAppVars N np fns vs ind = some c := by
  simp only [CGen.asgnAppVars, Option.map_eq_some_iff] at h
  obtain ⟨t, h, -⟩ := h
  obtain ⟨c, hc⟩ := asgnAppVars'_some (N := N) h
  exact ⟨_, by rw [asgnAppVars, hc]; rfl⟩

mutual
theorem genE_some {C : Cfg} (hC : TagsFit C.cenv) {fenv : FEnv} : ∀ (e : Exp) {sl : Nat} {s : CStmt} {m : Nat}, FitsE C.prims e →
    trE C fenv fns loc e sl = some (s, m) → ∃ c, genE N C fenv fns loc e sl = some (c, m)
  | .constr x t vs e, sl, s, m, g, h => by
    rw [FitsE] at g
    rw [trE] at h
    split at h
    · next p s' n hp hs =>
      cases h
      obtain ⟨c, hc⟩ := assignConstructor_some (N := N) hp
      obtain ⟨d, hd⟩ := genE_some hC e g.2.2.2 hs
      exact ⟨_, by rw [genE, hc, hd]⟩
    · cases h
  | .case x bs, sl, s, m, g, h => by
    rw [FitsE] at g
    rw [trE] at h
    split at h
    · next ls ls' n hs =>
      cases h
      obtain ⟨c, d, hd⟩ := genBs_some hC bs g.2 hs
      exact ⟨_, by rw [genE, hd]⟩
    · cases h
  | .proj x t n v e, sl, s, m, g, h => by
    rw [FitsE] at g
    rw [trE] at h
    split at h
    · next s' n' hs =>
      cases h
      obtain ⟨d, hd⟩ := genE_some hC e g.2.2.2 hs
      exact ⟨_, by rw [genE, hd]⟩
    · cases h
  | .letapp x f t vs e, sl, s, m, g, h => by
    rw [FitsE] at g
    rw [trE] at h
    split at h
    · next a ind ht =>
      split at h
      · next asgn c ha hc =>
        simp only at h
        split at h
        · next s' n' hs =>
          cases h
          obtain ⟨a', ha'⟩ := asgnAppVars_some (N := N) ha
          obtain ⟨c', hc'⟩ := mkCall_some (N := N) (makeVar N fns f) hc
          rw [← aroundCall_snd (N := N)] at hs
          obtain ⟨d, hd⟩ := genE_some hC e g.2.2.2.2.2 hs
          exact ⟨_, by rw [genE, ht]; simp only [ha', hc', hd]; rfl⟩
        · cases h
      · cases h
    · cases h
  | .fn _ _, sl, s, m, g, h => by cases h
  | .app f t vs, sl, s, m, g, h => by
    rw [trE] at h
    split at h
    · next a ind ht =>
      split at h
      · next asgn c ha hc =>
        cases h
        obtain ⟨a', ha'⟩ := asgnAppVars_some (N := N) ha
        obtain ⟨c', hc'⟩ := mkCall_some (N := N) (makeVar N fns f) hc
        exact ⟨_, by rw [genE, ht]; simp only [ha', hc']; rfl⟩
      · cases h
    · cases h
  | .primVal x p e, sl, s, m, g, h => by
    rw [FitsE] at g
    rw [trE] at h
    split at h
    · next s' n hs =>
      cases h
      obtain ⟨n, rfl, hn⟩ := g.2.1
      obtain ⟨d, hd⟩ := genE_some hC e g.2.2 hs
      exact ⟨_, by rw [genE, hd]; rfl⟩
    · cases h
  | .prim x p vs e, sl, s, m, g, h => by
    rw [FitsE] at g
    rw [trE] at h
    split at h
    · next as hp hv =>
      split at h
      · next s' n hs =>
        cases h
        obtain ⟨cs, hcs⟩ := mkCallVars_some (N := N) hv
        obtain ⟨d, hd⟩ := genE_some hC e g.2.2.2.2.2 hs
        exact ⟨_, by rw [genE, hp]; simp only [mkPrimCall, hcs, hd, Option.map_some]; rfl⟩
      · cases h
    · next as hp hv =>
      simp only at h
      split at h
      · next s' n hs =>
        cases h
        obtain ⟨cs, hcs⟩ := mkCallVars_some (N := N) hv
        rw [← aroundCall_snd (N := N)] at hs
        obtain ⟨d, hd⟩ := genE_some hC e g.2.2.2.2.2 hs
        exact ⟨_, by rw [genE, hp]; simp only [mkPrimCallTinfo, hcs, hd, Option.map_some]; rfl⟩
      · cases h
    · cases h
  | .halt x, sl, s, m, g, h => by
    rw [trE] at h
    cases h
    exact ⟨_, by rw [genE]⟩
theorem genBs_some {C : Cfg} (hC : TagsFit C.cenv) {fenv : FEnv} : ∀ (bs : Brs) {sl : Nat} {ls ls' : LStmt} {m : Nat}, FitsBs C.prims bs →
    trBs C fenv fns loc bs sl = some (ls, ls', m) → ∃ c d, genBs N C fenv fns loc bs sl = some (c, d, m)
  | .nil, sl, ls, ls', m, g, h => by
    cases h
    exact ⟨_, _, rfl⟩
  | .cons t e bs, sl, ls, ls', m, g, h => by
    rw [FitsBs] at g
    rw [trBs] at h
    split at h
    · next s n ls₀ ls₀' n' hs hbs =>
      obtain ⟨c, hc⟩ := genE_some hC e g.1 hs
      obtain ⟨d, d', hd⟩ := genBs_some hC bs g.2 hbs
      split at h
      · next o a ho =>
        have hm : m = max n n' := by split at h <;> cases h <;> rfl
        subst hm
        cases d with
        | nil => exact ⟨_, _, by rw [genBs, hc, hd]; simp only [ho]; rfl⟩
        | cons => exact ⟨_, _, by rw [genBs, hc, hd]; simp only [ho]; rfl⟩
      · next o ho =>
        have hm : m = max n n' := by split at h <;> cases h <;> rfl
        subst hm
        cases d' with
        | nil => exact ⟨_, _, by rw [genBs, hc, hd]; simp only [ho]; rfl⟩
        | cons => exact ⟨_, _, by rw [genBs, hc, hd]; simp only [ho]; rfl⟩
      · cases h
    · cases h
end

theorem genDef_some {C : Cfg} (hC : TagsFit C.cenv) {fenv : FEnv} {f : Var} {t : Tag} {vs : List Var} {e : Exp} {F : CFun}
    (g : FitsE C.prims e) (h : trDef C fenv fns f t vs e = some F) : ∃ G, genDef N C fenv fns f t vs e = some G := by
  unfold trDef at h
  unfold genDef
  split at h
  · cases h
  · next l ind hi =>
    simp only at h
    split at h
    · next asgn body n ha hb =>
      obtain ⟨a, ha'⟩ := asgnFunVars'_some (N := N) ha
      obtain ⟨c, hc⟩ := genE_some (N := N) hC e g hb
      rw [← asgnFunVars] at ha'
      exact ⟨_, by rw [hi]; simp only [ha', hc]; rfl⟩
    · cases h

theorem genDefs_some {C : Cfg} (hC : TagsFit C.cenv) {fenv : FEnv} : ∀ {B : Defs} {Q : List CFun}, FitsB C.prims B →
    trDefs C fenv fns B = some Q → ∃ P, genDefs N C fenv fns B = some P
  | .nil, Q, _, _ => ⟨[], rfl⟩
  | .cons f t vs e B, Q, g, h => by
    rw [FitsB] at g
    rw [trDefs] at h
    split at h
    · next P F hP hF =>
      obtain ⟨P', hP'⟩ := genDefs_some hC g.2.2.2.2.2 hP
      obtain ⟨G, hG⟩ := genDef_some (N := N) hC g.2.2.2.2.1 hF
      exact ⟨_, by rw [genDefs, hP', hG]⟩
    · cases h

/-- Every compiled program has a text. -/
theorem genProgram_some {C : Cfg} (hC : TagsFit C.cenv) {body : Var} {e : Exp} (g : FitsE C.prims e) {M : CFun × List CFun}
    (h : compileC C body e = some M) : ∃ K, genProgram N C body e = some K := by
  cases e with
  | fn B e =>
    simp only [compileC] at h
    rw [FitsE] at g
    split at h
    · next hok =>
      split at h
      · next P s n hP hs =>
        obtain ⟨P', hP'⟩ := genDefs_some (N := N) hC g.1 hP
        obtain ⟨c, hc⟩ := genE_some (N := N) hC e g.2.2 hs
        exact ⟨_, by simp only [genProgram]; rw [if_pos hok]; simp only [hP', hc]; rfl⟩
      · cases h
    · cases h
  | _ => cases h

end CGen.Text
