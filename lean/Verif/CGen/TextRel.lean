import Verif.CGen.TextModel

/-!
# The C syntax of the statements of CGen/Model.lean

`El s c`: the syntax `c` is that of the statement `s`.  The functions of TextModel.lean build the syntax of what those of Model.lean build.
-/

namespace CGen.Text

open ANF
open CPrint (CE CS LS CTy CTys CFn Name)

/-- The syntax of an expression. -/
inductive ElE (N : Names) : CExpr → CE → Prop
  | temp (x) : ElE N (.temp x) (tvar N x)
  | func (f) : ElE N (.func f) (.var (N.ext f))
  | slit (z) : z < 2 ^ 63 → ElE N (.cst (.int z)) (lit z)
  | ulit (z) : ElE N (.cst (.int z)) (ulit z)
  | field (x n) : ElE N (.field x n) (fieldE N x n)
  | arg (i) : ElE N (.arg i) (argE N i)
  | root (i) : ElE N (.root i) (rootE N i)
  | alloc (n : Nat) : ElE N (.alloc n) (.cast (.binop .add (allocP N) (lit n)) val)

mutual
/-- The syntax of a statement. -/
inductive El (N : Names) : CStmt → CS → Prop
  | skip : El N .skip .skip
  | seq {a b c d} : El N a c → El N b d → El N (.seq a b) (.seq c d)
  | assoc {a b c d} : El N (.seq a (.seq b c)) d → El N (.seq (.seq a b) c) d
  | skipL {a c} : El N a c → El N (.seq .skip a) c
  | set (x) {e c} : ElE N e c → El N (.set x e) (.set (N.tmp x) c)
  | setField (x n) {e c} : ElE N e c → El N (.setField x n e) (.assign (fieldE N x n) c)
  | setArg (i) {e c} : ElE N e c → El N (.setArg i e) (.assign (argE N i) c)
  | setRoot (i) {e c} : ElE N e c → El N (.setRoot i e) (.assign (rootE N i) c)
  | bump (n : Nat) : El N (.bump n) (.set (N.tmp 28) (.binop .add (allocP N) (lit n)))
  | loadAlloc : El N .loadAlloc (loadAlloc N)
  | loadLimit : El N .loadLimit (loadLimit N)
  | loadArgs : El N .loadArgs (loadArgs N)
  | saveAlloc : El N .saveAlloc (saveAlloc N)
  | saveLimit : El N .saveLimit (saveLimit N)
  | initStack : El N .initStack (initStack N)
  | setNext (n : Nat) : El N (.setNext n) (.assign (ffield N 87) (.binop .add (roots N) (lit n)))
  | link : El N .link (.assign (tfield N 86) (.addrof (.var (N.ext 79))))
  | unlink : El N .unlink (.assign (tfield N 86) (ffield N 89))
  | setNalloc (n : Nat) : El N (.setNalloc n) (.assign (tfield N 92) (lit n))
  | gc : El N .gc (.call none (.var (N.ext 80)) [tinf N])
  | call (x) {f es c cs} : ElE N f c → List.Forall₂ (ElE N) es cs →
      El N (.call x f es) (.call (some (N.tmp x)) (.cast c (.ptr (mkFunTy N es.length))) (tinf N :: cs))
  | prim (x p) {es cs} : List.Forall₂ (ElE N) es cs →
      El N (.prim x p es) (.call (some (N.tmp x)) (.cast (.var (N.ext p)) (mkPrimTy es.length)) cs)
  | primT (x p) {es cs} : List.Forall₂ (ElE N) es cs →
      El N (.primT x p es) (.call (some (N.tmp x)) (.cast (.var (N.ext p)) (mkFunTy N es.length)) (tinf N :: cs))
  | ifLow (n : Nat) {s c} : El N s c →
      El N (.ifLow n s) (.ite (.unop .notbool (.binop .le (lit n) (.binop .sub (limitP N) (allocP N)))) c .skip)
  | ifPtr (x) {a b c d} : El N a c → El N b d → El N (.ifPtr x a b) (.ite (isPtr N x) c d)
  | switchTag (x) {ls ms} : ElL N ls ms → El N (.switchTag x ls) (.switch (.binop .and (fieldE N x (-1)) (lit 255)) ms)
  | switchOrd (x) {ls ms} : ElL N ls ms → El N (.switchOrd x ls) (.switch (.binop .shr (tvar N x) (lit 1)) ms)
  | brk : El N .brk .brk
  | ret {e c} : ElE N e c → El N (.ret e) (.ret (some c))
/-- The syntax of labelled statements, each ending with `break`. -/
inductive ElL (N : Names) : LStmt → LS → Prop
  | nil : ElL N .nil .nil
  | cons (l) {s c ls ms} : El N s c → ElL N ls ms → ElL N (.cons l (.seq s .brk) ls) (.cons l (.seq c .brk) ms)
end

variable {N : Names}

theorem pushAux_snd : ∀ (xs : List Var) (n : Nat) (s : CStmt) (c : CS), (pushAux N xs n c).2 = (CGen.pushAux xs n s).2
  | [], _, _, _ => rfl
  | _ :: xs, n, _, _ => pushAux_snd xs (n + 1) _ _

theorem pushAux_el : ∀ (xs : List Var) (n : Nat) {s : CStmt} {c : CS}, El N s c → El N (CGen.pushAux xs n s).1 (pushAux N xs n c).1
  | [], _, _, _, h => h
  | x :: xs, n, _, _, h => pushAux_el xs (n + 1) (.seq (.setRoot _ (.temp x)) h)

theorem popAux_el : ∀ (xs : List Var) (n : Nat) {s : CStmt} {c : CS}, El N s c → El N (CGen.popAux xs n s) (popAux N xs n c)
  | [], _, _, _, h => h
  | x :: xs, n, _, _, h => popAux_el xs (n + 1) (.seq (.set x (.root n)) h)

theorem setStack_el (sp : Nat) (b : Bool) : El N (CGen.setStack sp b) (setStack N sp b) := by
  unfold CGen.setStack setStack
  split
  · exact .skip
  · exact .link

theorem updateStack_el (sp : Nat) : El N (CGen.updateStack sp) (updateStack N sp) := by
  unfold CGen.updateStack updateStack
  split
  · exact .skip
  · exact .setNext sp

theorem resetStack_el (sp : Nat) (b : Bool) : El N (CGen.resetStack sp b) (resetStack N sp b) := by
  unfold CGen.resetStack resetStack
  split
  · exact .skip
  · exact .unlink

theorem makeVar_el (fns : List Var) (x : Var) : ElE N (CGen.makeVar fns x) (makeVar N fns x) := by
  unfold CGen.makeVar makeVar
  split
  · exact .func x
  · exact .temp x

theorem assignFields_el (fns : List Var) (x : Var) : ∀ (vs : List Var) (n : Nat),
    El N (CGen.assignFields fns x n vs) (assignFields N fns x n vs)
  | [], _ => .skip
  | [v], n => .setField x n (makeVar_el fns v)
  | v :: w :: vs, n => .seq (.setField x n (makeVar_el fns v)) (assignFields_el fns x (w :: vs) (n + 1))

/-- The header words of constructors are below `2 ^ 63`. -/
def TagsFit (cenv : Ctor.PMap Ctor.Info) : Prop := ∀ t r, ctorRep cenv t = some r → r.tag < 2 ^ 63

theorem assignConstructor_el {cenv} (hC : TagsFit cenv) {fns x t vs c} (h : assignConstructor N cenv fns x t vs = some c) :
    ∃ s, CGen.assignConstructor cenv fns x t vs = some s ∧ El N s c := by
  unfold assignConstructor at h
  unfold CGen.assignConstructor
  split at h
  · rename_i o ho
    cases h
    rw [ho]
    exact ⟨_, rfl, .set x (.slit _ (hC _ _ ho))⟩
  · rename_i o a ho
    cases h
    rw [ho]
    exact ⟨_, rfl, .seq (.set x (.alloc 1)) (.seq (.bump (a + 1)) (.seq (.setField x (-1) (.slit _ (hC _ _ ho)))
      (assignFields_el fns x vs 0)))⟩
  · cases h

theorem mkCallVars_el {fns} : ∀ {n vs cs}, mkCallVars N fns n vs = some cs →
    ∃ es, CGen.mkCallVars fns n vs = some es ∧ List.Forall₂ (ElE N) es cs ∧ es.length = n
  | 0, [], cs, h => by
    cases h
    exact ⟨[], rfl, .nil, rfl⟩
  | n + 1, v :: vs, cs, h => by
    simp only [mkCallVars, Option.map_eq_some_iff] at h
    obtain ⟨cs', h', rfl⟩ := h
    obtain ⟨es, he, hf, hl⟩ := mkCallVars_el h'
    exact ⟨_, by rw [CGen.mkCallVars, he]; rfl, .cons (makeVar_el fns v) hf, by simp [hl]⟩
  | 0, v :: vs, cs, h => by cases h
  | n + 1, [], cs, h => by cases h

theorem mkCall_el {np fns x f c n vs s} (hf : ElE N f c) (h : mkCall N np fns x c n vs = some s) :
    ∃ t, CGen.mkCall np fns x f n vs = some t ∧ El N t s := by
  simp only [mkCall, Option.map_eq_some_iff] at h
  obtain ⟨cs, h, rfl⟩ := h
  obtain ⟨es, he, hE, hl⟩ := mkCallVars_el h
  refine ⟨.call x f es, by simp [CGen.mkCall, he], ?_⟩
  rw [← hl]
  exact .call x hf hE

theorem asgnFunVars'_el : ∀ {vs ind c}, asgnFunVars' N vs ind = some c → ∃ s, CGen.asgnFunVars' vs ind = some s ∧ El N s c
  | [], [], c, h => by
    cases h
    exact ⟨_, rfl, .skip⟩
  | v :: vs, i :: ind, c, h => by
    simp only [asgnFunVars', Option.map_eq_some_iff] at h
    obtain ⟨d, h, rfl⟩ := h
    obtain ⟨s, hs, he⟩ := asgnFunVars'_el h
    exact ⟨_, by rw [CGen.asgnFunVars', hs]; rfl, .seq (.set v (.arg i)) he⟩
  | [], _ :: _, c, h => by cases h
  | _ :: _, [], c, h => by cases h

theorem asgnAppVars'_el {fns} : ∀ {vs ind c}, asgnAppVars' N fns vs ind = some c →
    ∃ s, CGen.asgnAppVars' fns vs ind = some s ∧ El N s c
  | [], [], c, h => by
    cases h
    exact ⟨_, rfl, .skip⟩
  | v :: vs, i :: ind, c, h => by
    simp only [asgnAppVars', Option.map_eq_some_iff] at h
    obtain ⟨d, h, rfl⟩ := h
    obtain ⟨s, hs, he⟩ := asgnAppVars'_el h
    exact ⟨_, by rw [CGen.asgnAppVars', hs]; rfl, .seq he (.setArg i (makeVar_el fns v))⟩
  | [], _ :: _, c, h => by cases h
  | _ :: _, [], c, h => by cases h

theorem asgnAppVars_el {np fns vs ind c} (h : asgnAppVars N np fns vs ind = some c) :
    ∃ s, CGen.asgnAppVars np fns vs ind = some s ∧ El N s c := by
  simp only [asgnAppVars, Option.map_eq_some_iff] at h
  obtain ⟨d, h, rfl⟩ := h
  obtain ⟨s, hs, he⟩ := asgnAppVars'_el h
  exact ⟨_, by rw [CGen.asgnAppVars, hs]; rfl, .seq .loadArgs he⟩

theorem gcCall_el (n : Nat) (xs : List Var) (off : Nat) :
    El N (CGen.gcCall n xs off).1 (gcCall N n xs off).1 ∧ (gcCall N n xs off).2 = (CGen.gcCall n xs off).2 := by
  have h2 := pushAux_snd (N := N) xs off .skip .skip
  unfold CGen.gcCall gcCall pushVars popVars
  simp only
  split
  · exact ⟨.skip, rfl⟩
  · rw [h2]
    exact ⟨.ifLow n (.seq (.seq (pushAux_el xs off .skip) (.seq (updateStack_el _) (setStack_el _ _)))
      (.seq (.setNalloc n) (.seq .gc (.seq (.seq (popAux_el xs off .skip) (resetStack_el _ _)) (.seq .loadAlloc .loadLimit))))), rfl⟩

theorem aroundCall_snd (loc : Finset Var) (x : Var) (e' : Exp) (pre s : CStmt) :
    slotsAround N loc x e' = (CGen.aroundCall loc x e' pre s).2 := by
  unfold slotsAround CGen.aroundCall pushVars
  simp only
  rw [(gcCall_el _ _ _).2, pushAux_snd _ _ .skip]

theorem aroundCall_el (loc : Finset Var) (x : Var) (e' : Exp) {s t : CStmt} {c k : CS} (hc : El N s c) (hk : El N t k) :
    ∃ r, (∀ pre, (CGen.aroundCall loc x e' pre s).1 = .seq pre r) ∧ El N (.seq r t) (aroundCall N loc x e' c k) := by
  refine ⟨_, fun pre => rfl, ?_⟩
  unfold aroundCall pushVars popVars
  simp only
  rw [pushAux_snd _ _ .skip]
  refine .assoc (.seq .saveAlloc (.assoc (.seq .saveLimit (.assoc (.seq (.seq (pushAux_el _ _ .skip)
    (.seq (updateStack_el _) (setStack_el _ _))) (.assoc (.seq hc (.assoc (.seq .loadAlloc (.assoc (.seq .loadLimit
      (.assoc (.seq (gcCall_el _ _ _).1 (.seq (.seq (popAux_el _ _ .skip) (resetStack_el _ _)) hk))))))))))))))

theorem compilePrim_el {x p c} (h : compilePrim N x p = some c) : El N (CGen.compilePrim x p) c := by
  cases p with
  | int n =>
    cases h
    exact .set x (.ulit _)
  | float b => cases h
  | str s => cases h

mutual
theorem genE_el {C : Cfg} (hC : TagsFit C.cenv) {fenv : FEnv} {fns : List Var} {loc : Finset Var} : ∀ (e : Exp) {sl : Nat} {c : CS} {m : Nat},
    genE N C fenv fns loc e sl = some (c, m) → ∃ s, trE C fenv fns loc e sl = some (s, m) ∧ El N s c
  | .constr x t vs e, sl, c, m, h => by
    rw [genE] at h
    split at h
    · rename_i p s n hp hs
      cases h
      obtain ⟨p', hp', ep⟩ := assignConstructor_el hC hp
      obtain ⟨s', hs', es⟩ := genE_el hC e hs
      exact ⟨_, by rw [trE, hp', hs'], .seq ep es⟩
    · cases h
  | .case x bs, sl, c, m, h => by
    rw [genE] at h
    split at h
    · rename_i ls ls' n hb
      cases h
      obtain ⟨l1, l2, hb', e1, e2⟩ := genBs_el hC bs hb
      exact ⟨_, by rw [trE, hb']; rfl, .ifPtr x (.switchTag x e1) (.switchOrd x e2)⟩
    · cases h
  | .proj x _ n v e, sl, c, m, h => by
    rw [genE] at h
    split at h
    · rename_i s k hs
      cases h
      obtain ⟨s', hs', es⟩ := genE_el hC e hs
      exact ⟨_, by rw [trE, hs'], .seq (.set x (.field v n)) es⟩
    · cases h
  | .letapp x f t vs e, sl, c, m, h => by
    rw [genE] at h
    split at h
    · rename_i a ind hi
      split at h
      · rename_i asgn c' ha hc
        split at h
        · rename_i s n hs
          cases h
          obtain ⟨asgn', ha', ea⟩ := asgnAppVars_el ha
          obtain ⟨c2, hc', ec⟩ := mkCall_el (makeVar_el fns f) hc
          rw [aroundCall_snd loc x e asgn' c2] at hs
          obtain ⟨s', hs', es⟩ := genE_el hC e hs
          obtain ⟨r, hr, er⟩ := aroundCall_el loc x e ec es
          refine ⟨_, by rw [trE, hi]; simp only [ha', hc', hs']; rfl, ?_⟩
          rw [hr]
          exact .assoc (.seq ea er)
        · cases h
      · cases h
    · cases h
  | .fn _ _, _, _, _, h => by cases h
  | .app f t vs, sl, c, m, h => by
    rw [genE] at h
    split at h
    · rename_i a ind hi
      split at h
      · rename_i asgn c' ha hc
        cases h
        obtain ⟨asgn', ha', ea⟩ := asgnAppVars_el ha
        obtain ⟨c2, hc', ec⟩ := mkCall_el (makeVar_el fns f) hc
        exact ⟨_, by rw [trE, hi]; simp only [ha', hc'],
          .seq ea (.seq .saveAlloc (.seq .saveLimit (.seq ec (.ret (makeVar_el fns _)))))⟩
      · cases h
    · cases h
  | .primVal x p e, sl, c, m, h => by
    rw [genE] at h
    split at h
    · rename_i c' s n hp hs
      cases h
      obtain ⟨s', hs', es⟩ := genE_el hC e hs
      exact ⟨_, by rw [trE, hs'], .seq (compilePrim_el hp) es⟩
    · cases h
  | .prim x p vs e, sl, c, m, h => by
    rw [genE] at h
    split at h
    · rename_i hp
      split at h
      · rename_i c' s n hc hs
        cases h
        simp only [mkPrimCall, Option.map_eq_some_iff] at hc
        obtain ⟨cs, hc, rfl⟩ := hc
        obtain ⟨es, he, hE, hl⟩ := mkCallVars_el hc
        obtain ⟨s', hs', es'⟩ := genE_el hC e hs
        refine ⟨_, by rw [trE, hp, he]; simp only [hs']; rfl, ?_⟩
        rw [← hl]
        exact .seq (.prim x p hE) es'
      · cases h
    · rename_i hp
      split at h
      · rename_i c' s n hc hs
        cases h
        simp only [mkPrimCallTinfo, Option.map_eq_some_iff] at hc
        obtain ⟨cs, hc, rfl⟩ := hc
        obtain ⟨es, he, hE, hl⟩ := mkCallVars_el hc
        rw [aroundCall_snd loc x e .skip (.primT x p es)] at hs
        obtain ⟨s', hs', es'⟩ := genE_el hC e hs
        obtain ⟨r, hr, er⟩ := aroundCall_el loc x e (.primT x p hE) es'
        refine ⟨_, by rw [trE, hp, he]; simp only [hs']; rfl, ?_⟩
        rw [hr, ← hl]
        exact .assoc (.skipL er)
      · cases h
    · cases h
  | .halt x, sl, c, m, h => by
    cases h
    exact ⟨_, rfl, .seq .saveAlloc (.seq .saveLimit (.ret (makeVar_el fns x)))⟩
theorem genBs_el {C : Cfg} (hC : TagsFit C.cenv) {fenv : FEnv} {fns : List Var} {loc : Finset Var} : ∀ (bs : Brs) {sl : Nat} {ls ls' : LS} {m : Nat},
    genBs N C fenv fns loc bs sl = some (ls, ls', m) →
    ∃ l l', trBs C fenv fns loc bs sl = some (l, l', m) ∧ ElL N l ls ∧ ElL N l' ls'
  | .nil, sl, ls, ls', m, h => by
    cases h
    exact ⟨_, _, rfl, .nil, .nil⟩
  | .cons t e bs, sl, ls, ls', m, h => by
    rw [genBs] at h
    split at h
    · rename_i s n ks ks' n' hs hb
      obtain ⟨s', hs', es⟩ := genE_el hC e hs
      obtain ⟨l1, l2, hb', e1, e2⟩ := genBs_el hC bs hb
      split at h
      · rename_i o a ho
        split at h
        · cases h
          cases e1
          exact ⟨_, _, by rw [trBs, hs', hb']; simp only [ho], .cons none es .nil, e2⟩
        · cases h
          cases e1 with
          | cons _ e3 e4 => exact ⟨_, _, by rw [trBs, hs', hb']; simp only [ho], .cons _ es (.cons _ e3 e4), e2⟩
      · rename_i o ho
        split at h
        · cases h
          cases e2
          exact ⟨_, _, by rw [trBs, hs', hb']; simp only [ho], e1, .cons none es .nil⟩
        · cases h
          cases e2 with
          | cons _ e3 e4 => exact ⟨_, _, by rw [trBs, hs', hb']; simp only [ho], e1, .cons _ es (.cons _ e3 e4)⟩
      · cases h
    · cases h
end

/-- The syntax of a function. -/
structure ElF (N : Names) (F : CFun) (G : CFn) : Prop where
  name : G.name = N.ext F.name
  ret : G.ret = val
  va : G.va = false
  params : G.params = (N.tmp 91, threadInf N) :: F.params.map fun x => (N.tmp x, val)
  vars : G.vars = stackDecl N F.rootSize
  temps : ∀ p ∈ G.temps, (∃ x, p.1 = N.tmp x) ∧ (p.2 = val ∨ p.2 = valPtr ∨ p.2 = .base .bool)
  body : El N F.body G.body

theorem mem_temps {xs : List Var} {l : List (Name × CTy)}
    (hl : ∀ p ∈ l, (∃ x, p.1 = N.tmp x) ∧ (p.2 = val ∨ p.2 = valPtr ∨ p.2 = .base .bool)) :
    ∀ p ∈ (xs.map fun x => (N.tmp x, val)) ++ l, (∃ x, p.1 = N.tmp x) ∧ (p.2 = val ∨ p.2 = valPtr ∨ p.2 = .base .bool) := by
  intro p hp
  rcases List.mem_append.1 hp with h | h
  · obtain ⟨x, _, rfl⟩ := List.mem_map.1 h
    exact ⟨⟨x, rfl⟩, .inl rfl⟩
  · exact hl p h

theorem genDef_el {C : Cfg} (hC : TagsFit C.cenv) {fenv fns f t vs e G} (h : genDef N C fenv fns f t vs e = some G) :
    ∃ F, trDef C fenv fns f t vs e = some F ∧ ElF N F G := by
  unfold genDef at h
  split at h
  · cases h
  · rename_i l ind hi
    simp only at h
    split at h
    · rename_i asgn body n ha hb
      cases h
      obtain ⟨asgn', ha', ea⟩ := asgnFunVars'_el ha
      obtain ⟨s, hs, es⟩ := genE_el hC e hb
      refine ⟨_, by rw [trDef, hi]; simp only [CGen.asgnFunVars, ha', hs]; rfl, ?_⟩
      refine ⟨rfl, rfl, rfl, rfl, rfl, ?_, ?_⟩
      · refine mem_temps ?_
        intro p hp
        simp only [List.mem_cons, List.not_mem_nil, or_false] at hp
        rcases hp with rfl | rfl | rfl | rfl | rfl <;> exact ⟨⟨_, rfl⟩, by simp⟩
      · exact .seq .loadAlloc (.seq .loadLimit (.seq .loadArgs (.seq ea (.seq .initStack (.seq (gcCall_el _ _ _).1 es)))))
    · cases h

theorem genDefs_el {C : Cfg} (hC : TagsFit C.cenv) {fenv fns} : ∀ {B P}, genDefs N C fenv fns B = some P →
    ∃ Q, trDefs C fenv fns B = some Q ∧ List.Forall₂ (ElF N) Q P
  | .nil, P, h => by
    cases h
    exact ⟨[], rfl, .nil⟩
  | .cons f t vs e B, P, h => by
    rw [genDefs] at h
    split at h
    · rename_i P' F hP hF
      cases h
      obtain ⟨Q, hQ, eQ⟩ := genDefs_el hC hP
      obtain ⟨G, hG, eG⟩ := genDef_el hC hF
      exact ⟨_, by rw [trDefs, hQ, hG], .cons eG eQ⟩
    · cases h

theorem genProgram_el {C : Cfg} (hC : TagsFit C.cenv) {body e G P} (h : genProgram N C body e = some (G, P)) :
    ∃ F Q, compileC C body e = some (F, Q) ∧ ElF N F G ∧ List.Forall₂ (ElF N) Q P := by
  cases e with
  | fn B e =>
    simp only [genProgram] at h
    split at h
    · rename_i hok
      split at h
      · rename_i P' s n hP hs
        cases h
        obtain ⟨Q, hQ, eQ⟩ := genDefs_el hC hP
        obtain ⟨s', hs', es⟩ := genE_el hC e hs
        refine ⟨_, _, by simp only [compileC, hok, hQ, hs', if_true]; rfl, ?_, eQ⟩
        refine ⟨rfl, rfl, rfl, rfl, rfl, ?_, ?_⟩
        · refine mem_temps ?_
          intro p hp
          simp only [List.mem_cons, List.not_mem_nil, or_false] at hp
          rcases hp with rfl | rfl | rfl <;> exact ⟨⟨_, rfl⟩, by simp⟩
        · exact .seq .loadAlloc (.seq .loadLimit (.seq .loadArgs (.seq .initStack (.seq (gcCall_el _ _ _).1 es))))
      · cases h
    · cases h
  | _ => cases h

end CGen.Text
