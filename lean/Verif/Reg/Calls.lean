import Verif.CGen.TextModel
import Verif.ANF.Feat

/-!
# The calls in a C file
-/

namespace Reg

open ANF CGen.Text
open CGen (Cfg FEnv)
open CPrint (CE CS LS CTy CTys CFn)

mutual
/-- Every call in a statement, given as its function and arguments, satisfies `K`. -/
def EveryCall (K : CE → List CE → Prop) : CS → Prop
  | .call _ f as => K f as
  | .seq a b => EveryCall K a ∧ EveryCall K b
  | .ite _ a b => EveryCall K a ∧ EveryCall K b
  | .switch _ ls => EveryCallL K ls
  | .skip | .assign _ _ | .set _ _ | .brk | .ret _ => True
/-- The same for labelled statements. -/
def EveryCallL (K : CE → List CE → Prop) : LS → Prop
  | .nil => True
  | .cons _ s ls => EveryCall K s ∧ EveryCallL K ls
end

/-- The number of parameters of a function type. -/
def params : CTys → Nat
  | .nil => 0
  | .cons _ ts => params ts + 1

/-! ## Proofs -/

variable {N : Names} {K : CE → List CE → Prop} {P : Feat → Prop} {C : Cfg} {fns : List Var}

/-- What is asked of `K`: the collector, functions of the program, functions in variables, and primitives. -/
structure Allows (N : Names) (C : Cfg) (fns : List Var) (P : Feat → Prop) (K : CE → List CE → Prop) : Prop where
  gc : K (.var (N.ext 80)) [tinf N]
  fn : ∀ f ty as, f ∈ fns → K (.cast (.var (N.ext f)) ty) as
  tmp : ∀ x ty as, K (.cast (.temp x) ty) as
  prim : ∀ p n (as : List CE), P (.prim p n) → as.length = n → C.prims p = some false → K (.cast (.var (N.ext p)) (mkPrimTy n)) as
  tinfo : ∀ p n (as : List CE), P (.prim p n) → as.length = n → C.prims p = some true → K (.cast (.var (N.ext p)) (mkFunTy N n)) (tinf N :: as)

theorem pushAux_calls : ∀ (xs : List Var) (n : Nat) (s : CS), EveryCall K s → EveryCall K (pushAux N xs n s).1
  | [], _, _, h => h
  | _ :: xs, n, _, h => pushAux_calls xs (n + 1) _ ⟨trivial, h⟩

theorem popAux_calls : ∀ (xs : List Var) (n : Nat) (s : CS), EveryCall K s → EveryCall K (popAux N xs n s)
  | [], _, _, h => h
  | _ :: xs, n, _, h => popAux_calls xs (n + 1) _ ⟨trivial, h⟩

theorem setStack_calls (sp : Nat) (b : Bool) : EveryCall K (setStack N sp b) := by unfold setStack; split <;> trivial
theorem updateStack_calls (sp : Nat) : EveryCall K (updateStack N sp) := by unfold updateStack; split <;> trivial
theorem resetStack_calls (sp : Nat) (b : Bool) : EveryCall K (resetStack N sp b) := by unfold resetStack; split <;> trivial

theorem gcCall_calls (h : Allows N C fns P K) (n : Nat) (xs : List Var) (off : Nat) : EveryCall K (gcCall N n xs off).1 := by
  unfold gcCall
  dsimp only
  split
  · trivial
  · exact ⟨⟨⟨pushAux_calls _ _ _ trivial, updateStack_calls _, setStack_calls _ _⟩, trivial, h.gc,
      ⟨popAux_calls _ _ _ trivial, resetStack_calls _ _⟩, trivial, trivial⟩, trivial⟩

theorem assignFields_calls (x : Var) : ∀ (n : Nat) (vs : List Var), EveryCall K (assignFields N fns x n vs)
  | _, [] => trivial
  | _, [_] => trivial
  | n, _ :: w :: vs => ⟨trivial, assignFields_calls x (n + 1) (w :: vs)⟩

theorem assignConstructor_calls {cenv : Ctor.PMap Ctor.Info} {x : Var} {t : Tag} {vs : List Var} {c : CS}
    (h : assignConstructor N cenv fns x t vs = some c) : EveryCall K c := by
  unfold assignConstructor at h
  split at h
  · cases h; trivial
  · cases h; exact ⟨trivial, trivial, trivial, assignFields_calls _ _ _⟩
  · cases h

theorem mkCallVars_length : ∀ {n : Nat} {vs : List Var} {es : List CE}, mkCallVars N fns n vs = some es → es.length = n
  | 0, [], _, h => by simp [mkCallVars] at h; simp [← h]
  | n + 1, v :: vs, _, h => by
    simp only [mkCallVars, Option.map_eq_some_iff] at h
    obtain ⟨es, h1, rfl⟩ := h
    simp [mkCallVars_length h1]
  | 0, _ :: _, _, h => by simp [mkCallVars] at h
  | _ + 1, [], _, h => by simp [mkCallVars] at h

theorem mkCall_calls (h : Allows N C fns P K) {np : Nat} {x f : Var} {n : Nat} {vs : List Var} {c : CS}
    (hc : mkCall N np fns x (makeVar N fns f) n vs = some c) : EveryCall K c := by
  simp only [mkCall, Option.map_eq_some_iff] at hc
  obtain ⟨as, _, rfl⟩ := hc
  simp only [EveryCall, makeVar]
  split
  · rename_i hf; exact h.fn _ _ _ hf
  · exact h.tmp _ _ _

theorem asgnFunVars_calls : ∀ {vs : List Var} {ind : List Nat} {c : CS}, asgnFunVars' N vs ind = some c → EveryCall K c
  | [], [], _, h => by cases h; trivial
  | _ :: vs, _ :: ind, _, h => by
    simp only [asgnFunVars', Option.map_eq_some_iff] at h
    obtain ⟨c, h1, rfl⟩ := h
    exact ⟨trivial, asgnFunVars_calls h1⟩
  | [], _ :: _, _, h => by simp [asgnFunVars'] at h
  | _ :: _, [], _, h => by simp [asgnFunVars'] at h

theorem asgnAppVars'_calls : ∀ {vs : List Var} {ind : List Nat} {c : CS}, asgnAppVars' N fns vs ind = some c → EveryCall K c
  | [], [], _, h => by cases h; trivial
  | _ :: vs, _ :: ind, _, h => by
    simp only [asgnAppVars', Option.map_eq_some_iff] at h
    obtain ⟨c, h1, rfl⟩ := h
    exact ⟨asgnAppVars'_calls h1, trivial⟩
  | [], _ :: _, _, h => by simp [asgnAppVars'] at h
  | _ :: _, [], _, h => by simp [asgnAppVars'] at h

theorem asgnAppVars_calls {np : Nat} {vs : List Var} {ind : List Nat} {c : CS} (h : asgnAppVars N np fns vs ind = some c) : EveryCall K c := by
  simp only [asgnAppVars, Option.map_eq_some_iff] at h
  obtain ⟨c, h1, rfl⟩ := h
  exact ⟨trivial, asgnAppVars'_calls h1⟩

theorem aroundCall_calls (h : Allows N C fns P K) {loc : Finset Var} {x : Var} {e : Exp} {c k : CS} (hc : EveryCall K c) (hk : EveryCall K k) :
    EveryCall K (aroundCall N loc x e c k) :=
  ⟨trivial, trivial, ⟨pushAux_calls _ _ _ trivial, updateStack_calls _, setStack_calls _ _⟩, hc, trivial, trivial, gcCall_calls h _ _ _,
    ⟨popAux_calls _ _ _ trivial, resetStack_calls _ _⟩, hk⟩

mutual
theorem genE_calls (hK : Allows N C fns P K) {fenv : FEnv} {loc : Finset Var} : ∀ (e : Exp) {sl : Nat} {c : CS} {m : Nat},
    e.All P → genE N C fenv fns loc e sl = some (c, m) → EveryCall K c
  | .constr x t vs e, sl, c, m, ha, h => by
    rw [genE] at h
    split at h
    · next p s n h1 h2 => cases h; exact ⟨assignConstructor_calls h1, genE_calls hK e ha.2 h2⟩
    · cases h
  | .case x bs, sl, c, m, ha, h => by
    rw [genE] at h
    split at h
    · next ls ls' n h1 => cases h; exact genBs_calls hK bs (by simpa only [Exp.All] using ha) h1
    · cases h
  | .proj x t n v e, sl, c, m, ha, h => by
    rw [genE] at h
    split at h
    · next s n h1 => cases h; exact ⟨trivial, genE_calls hK e (by simpa only [Exp.All] using ha) h1⟩
    · cases h
  | .letapp x f t vs e, sl, c, m, ha, h => by
    rw [genE] at h
    split at h
    · split at h
      · next asgn d h1 h2 =>
        split at h
        · next s n h3 =>
          cases h
          exact ⟨asgnAppVars_calls h1, aroundCall_calls hK (mkCall_calls hK h2) (genE_calls hK e ha.2 h3)⟩
        · cases h
      · cases h
    · cases h
  | .fn B e, sl, c, m, ha, h => by rw [genE] at h; cases h
  | .app f t vs, sl, c, m, ha, h => by
    rw [genE] at h
    split at h
    · split at h
      · next asgn d h1 h2 => cases h; exact ⟨asgnAppVars_calls h1, trivial, trivial, mkCall_calls hK h2, trivial⟩
      · cases h
    · cases h
  | .primVal x p e, sl, c, m, ha, h => by
    rw [genE] at h
    split at h
    · next d s n h1 h2 =>
      cases h
      refine ⟨?_, genE_calls hK e ha.2 h2⟩
      unfold compilePrim at h1
      split at h1
      · cases h1; trivial
      · cases h1
    · cases h
  | .prim x p vs e, sl, c, m, ha, h => by
    rw [genE] at h
    split at h
    · next hq =>
      split at h
      · next d s n h1 h2 =>
        cases h
        refine ⟨?_, genE_calls hK e ha.2 h2⟩
        simp only [mkPrimCall, Option.map_eq_some_iff] at h1
        obtain ⟨as, h3, rfl⟩ := h1
        exact hK.prim _ _ _ ha.1 (mkCallVars_length h3) hq
      · cases h
    · next hq =>
      split at h
      · next d s n h1 h2 =>
        cases h
        refine aroundCall_calls hK ?_ (genE_calls hK e ha.2 h2)
        simp only [mkPrimCallTinfo, Option.map_eq_some_iff] at h1
        obtain ⟨as, h3, rfl⟩ := h1
        exact hK.tinfo _ _ _ ha.1 (mkCallVars_length h3) hq
      · cases h
    · cases h
  | .halt x, sl, c, m, ha, h => by rw [genE] at h; cases h; exact ⟨trivial, trivial, trivial⟩
theorem genBs_calls (hK : Allows N C fns P K) {fenv : FEnv} {loc : Finset Var} : ∀ (bs : Brs) {sl : Nat} {ls ls' : LS} {m : Nat},
    bs.All P → genBs N C fenv fns loc bs sl = some (ls, ls', m) → EveryCallL K ls ∧ EveryCallL K ls'
  | .nil, sl, ls, ls', m, ha, h => by rw [genBs] at h; cases h; exact ⟨trivial, trivial⟩
  | .cons t e bs, sl, ls, ls', m, ha, h => by
    rw [genBs] at h
    split at h
    · next s n l1 l2 n' h1 h2 =>
      have h3 := genE_calls hK e ha.2.1 h1
      obtain ⟨h4, h5⟩ := genBs_calls hK bs ha.2.2 h2
      split at h
      · split at h <;> (cases h; exact ⟨⟨⟨h3, trivial⟩, h4⟩, h5⟩)
      · split at h <;> (cases h; exact ⟨h4, ⟨h3, trivial⟩, h5⟩)
      · cases h
    · cases h
end

theorem genDefs_calls (hK : Allows N C fns P K) {fenv : FEnv} : ∀ (B : Defs) {Fs : List CFn}, B.All P → genDefs N C fenv fns B = some Fs →
    ∀ F ∈ Fs, EveryCall K F.body
  | .nil, _, _, h => by rw [genDefs] at h; cases h; simp
  | .cons f t vs e B, _, ha, h => by
    rw [genDefs] at h
    split at h
    · next Q G h1 h2 =>
      cases h
      intro F hF
      rcases List.mem_cons.1 hF with rfl | hF
      · unfold genDef at h2
        split at h2
        · cases h2
        · dsimp only at h2
          split at h2
          · next asgn bd n h3 h4 =>
            cases h2
            exact ⟨trivial, trivial, trivial, asgnFunVars_calls h3, ⟨trivial, trivial, trivial⟩, gcCall_calls hK _ _ _, genE_calls hK e ha.2.1 h4⟩
          · cases h2
      · exact genDefs_calls hK B ha.2.2 h1 F hF
    · cases h

theorem genProgram_calls {body : Var} {B : Defs} {e : Exp} {G : CFn × List CFn} (hK : Allows N C B.names P K) (hB : B.All P) (he : e.All P)
    (h : genProgram N C body (.fn B e) = some G) : ∀ F ∈ G.1 :: G.2, EveryCall K F.body := by
  rw [genProgram] at h
  split at h
  · split at h
    · next Q s n h1 h2 =>
      cases h
      intro F hF
      rcases List.mem_cons.1 hF with rfl | hF
      · exact ⟨trivial, trivial, trivial, ⟨trivial, trivial, trivial⟩, gcCall_calls hK _ _ _, genE_calls hK e he h2⟩
      · exact genDefs_calls hK B hB h1 F hF
    · cases h
  · cases h

theorem params_list : ∀ n, params (funTyList n) = n
  | 0 => rfl
  | n + 1 => by simp [funTyList, params, params_list n]

end Reg
