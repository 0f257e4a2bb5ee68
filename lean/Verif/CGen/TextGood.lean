import Verif.CGen.TextRun
import Verif.CGen.Calls
import Verif.ANF.Util

/-!
# Which programs have a text that does what they do
-/

namespace CGen.Text

open ANF
open CPrint (CE CS LS CTy CTys CFn Name Meaning ReadsFn)

/-- A variable of the program is no identifier of the compiler and no C function. -/
def vOk (prims : Tag → Option Bool) (x : Var) : Prop := tOk x ∧ fOk x ∧ prims x = none

mutual
/-- The variables of a program are its own; the numbers in it fit in words; no constants of strings and floating-point numbers. -/
def FitsE (prims : Tag → Option Bool) : Exp → Prop
  | .constr x _ vs e => vOk prims x ∧ (∀ v ∈ vs, vOk prims v) ∧ vs.length < 2 ^ 62 ∧ FitsE prims e
  | .case x bs => vOk prims x ∧ FitsBs prims bs
  | .proj x _ n v e => vOk prims x ∧ vOk prims v ∧ n < 2 ^ 63 ∧ FitsE prims e
  | .letapp x f _ vs e => vOk prims x ∧ vOk prims f ∧ (∀ v ∈ vs, vOk prims v) ∧ maxAllocsE e < 2 ^ 63 ∧ e.fv.card < 2 ^ 62 ∧
      FitsE prims e
  | .fn B e => FitsB prims B ∧ maxAllocsE e < 2 ^ 63 ∧ FitsE prims e
  | .app f _ vs => vOk prims f ∧ ∀ v ∈ vs, vOk prims v
  | .primVal x p e => vOk prims x ∧ (∃ n, p = .int n ∧ n < 2 ^ 63) ∧ FitsE prims e
  | .prim x p vs e => vOk prims x ∧ fOk p ∧ (∀ v ∈ vs, vOk prims v) ∧ maxAllocsE e < 2 ^ 63 ∧ e.fv.card < 2 ^ 62 ∧ FitsE prims e
  | .halt x => vOk prims x
/-- The same for branches. -/
def FitsBs (prims : Tag → Option Bool) : Brs → Prop
  | .nil => True
  | .cons _ e bs => FitsE prims e ∧ FitsBs prims bs
/-- The same for functions. -/
def FitsB (prims : Tag → Option Bool) : Defs → Prop
  | .nil => True
  | .cons f _ vs e B => vOk prims f ∧ (∀ v ∈ vs, vOk prims v) ∧ maxAllocsE e < 2 ^ 63 ∧ e.fv.card < 2 ^ 62 ∧ FitsE prims e ∧ FitsB prims B
end

variable {prims : Tag → Option Bool} {fns : List Var} {loc : Finset Var}

theorem makeVar_good {x : Var} (h : vOk prims x) : goodE prims (CGen.makeVar fns x) := by
  unfold CGen.makeVar
  split
  · exact h.2
  · exact h.1

theorem assignFields_good {x : Var} (hx : vOk prims x) : ∀ {vs : List Var} {n : Nat}, (∀ v ∈ vs, vOk prims v) → n + vs.length < 2 ^ 63 →
    good prims (CGen.assignFields fns x n vs)
  | [], n, _, _ => trivial
  | [v], n, hv, hn => by
    rw [CGen.assignFields, good]
    exact ⟨hx.1, by omega, by simp at hn; omega, makeVar_good (hv v (by simp))⟩
  | v :: w :: vs, n, hv, hn => by
    rw [CGen.assignFields, good, good]
    simp only [List.length_cons] at hn
    exact ⟨⟨hx.1, by omega, by omega, makeVar_good (hv v (by simp))⟩,
      assignFields_good hx (fun u hu => hv u (by simp [hu])) (by simp only [List.length_cons]; omega)⟩

theorem assignConstructor_good {cenv : Ctor.PMap Ctor.Info} (hC : TagsFit cenv) {x : Var} (hx : vOk prims x) {t : Tag} {vs : List Var}
    (hv : ∀ v ∈ vs, vOk prims v) (hl : vs.length < 2 ^ 62) {s : CStmt} (h : CGen.assignConstructor cenv fns x t vs = some s) : good prims s := by
  unfold CGen.assignConstructor at h
  split at h
  · next o ho =>
    cases h
    have := hC _ _ ho
    rw [good, goodE]
    simp only [Rep.tag] at this ⊢
    exact ⟨hx.1, by omega, by omega⟩
  · next o a ho =>
    cases h
    have := hC _ _ ho
    simp only [good, goodE]
    simp only [Rep.tag] at this ⊢
    exact ⟨⟨hx.1, by omega⟩, by omega, ⟨hx.1, by omega, by omega, by omega, by omega⟩, assignFields_good hx hv (by omega)⟩
  · cases h

theorem mkCallVars_good : ∀ {n : Nat} {vs : List Var} {es : List CExpr}, (∀ v ∈ vs, vOk prims v) → CGen.mkCallVars fns n vs = some es →
    ∀ e ∈ es, goodE prims e
  | 0, [], es, _, h => by
    cases h
    simp
  | n + 1, v :: vs, es, hv, h => by
    simp only [CGen.mkCallVars, Option.map_eq_some_iff] at h
    obtain ⟨es', h', rfl⟩ := h
    intro e he
    rcases List.mem_cons.1 he with rfl | he
    · exact makeVar_good (hv v (by simp))
    · exact mkCallVars_good (fun u hu => hv u (by simp [hu])) h' e he
  | 0, _ :: _, _, _, h => by cases h
  | _ + 1, [], _, _, h => by cases h

theorem mkCall_good {np n : Nat} {x : Var} {f : CExpr} {vs : List Var} {s : CStmt} (hx : tOk x) (hf : goodE prims f)
    (hv : ∀ v ∈ vs, vOk prims v) (h : CGen.mkCall np fns x f n vs = some s) : good prims s := by
  simp only [CGen.mkCall, Option.map_eq_some_iff] at h
  obtain ⟨es, h, rfl⟩ := h
  rw [good]
  exact ⟨hx, hf, mkCallVars_good (fun v hv' => hv v (List.mem_of_mem_take hv')) h⟩

theorem asgnFunVars'_good : ∀ {vs : List Var} {ind : List Nat} {s : CStmt}, (∀ v ∈ vs, vOk prims v) → (∀ i ∈ ind, i < 2 ^ 63) →
    CGen.asgnFunVars' vs ind = some s → good prims s
  | [], [], s, _, _, h => by cases h; trivial
  | v :: vs, i :: ind, s, hv, hi, h => by
    simp only [CGen.asgnFunVars', Option.map_eq_some_iff] at h
    obtain ⟨t, h, rfl⟩ := h
    rw [good, good]
    exact ⟨⟨(hv v (by simp)).1, hi i (by simp)⟩, asgnFunVars'_good (fun u hu => hv u (by simp [hu])) (fun j hj => hi j (by simp [hj])) h⟩
  | [], _ :: _, _, _, _, h => by cases h
  | _ :: _, [], _, _, _, h => by cases h

theorem asgnAppVars'_good : ∀ {vs : List Var} {ind : List Nat} {s : CStmt}, (∀ v ∈ vs, vOk prims v) → (∀ i ∈ ind, i < 2 ^ 63) →
    CGen.asgnAppVars' fns vs ind = some s → good prims s
  | [], [], s, _, _, h => by cases h; trivial
  | v :: vs, i :: ind, s, hv, hi, h => by
    simp only [CGen.asgnAppVars', Option.map_eq_some_iff] at h
    obtain ⟨t, h, rfl⟩ := h
    rw [good, good]
    exact ⟨asgnAppVars'_good (fun u hu => hv u (by simp [hu])) (fun j hj => hi j (by simp [hj])) h, hi i (by simp),
      makeVar_good (hv v (by simp))⟩
  | [], _ :: _, _, _, _, h => by cases h
  | _ :: _, [], _, _, _, h => by cases h

theorem asgnAppVars_good {np : Nat} {vs : List Var} {ind : List Nat} {s : CStmt} (hv : ∀ v ∈ vs, vOk prims v) (hi : ∀ i ∈ ind, i < 2 ^ 63)
    (h : CGen.asgnAppVars np fns vs ind = some s) : good prims s := by
  simp only [CGen.asgnAppVars, Option.map_eq_some_iff] at h
  obtain ⟨t, h, rfl⟩ := h
  rw [good]
  exact ⟨trivial, asgnAppVars'_good (fun v hv' => hv v (List.mem_of_mem_drop hv')) (fun i hi' => hi i (List.mem_of_mem_drop hi')) h⟩

theorem pushAux_good : ∀ {xs : List Var} {n : Nat} {s : CStmt}, (∀ v ∈ xs, tOk v) → n + xs.length < 2 ^ 63 → good prims s →
    good prims (CGen.pushAux xs n s).1 ∧ (CGen.pushAux xs n s).2 = n + xs.length
  | [], n, s, _, _, h => ⟨h, rfl⟩
  | x :: xs, n, s, hx, hn, h => by
    rw [CGen.pushAux]
    simp only [List.length_cons] at hn ⊢
    have := pushAux_good (xs := xs) (n := n + 1) (s := .seq (.setRoot n (.temp x)) s) (fun v hv => hx v (by simp [hv])) (by omega)
      (by simp only [good, goodE]; exact ⟨⟨by omega, hx x (by simp)⟩, h⟩)
    exact ⟨this.1, by rw [this.2]; omega⟩

theorem popAux_good : ∀ {xs : List Var} {n : Nat} {s : CStmt}, (∀ v ∈ xs, tOk v) → n + xs.length < 2 ^ 63 → good prims s →
    good prims (CGen.popAux xs n s)
  | [], n, s, _, _, h => h
  | x :: xs, n, s, hx, hn, h => by
    rw [CGen.popAux]
    simp only [List.length_cons] at hn
    exact popAux_good (xs := xs) (fun v hv => hx v (by simp [hv])) (by omega)
      (by simp only [good, goodE]; exact ⟨⟨hx x (by simp), by omega⟩, h⟩)

theorem updateStack_good {n : Nat} (h : n < 2 ^ 63) : good prims (CGen.updateStack n) := by
  unfold CGen.updateStack
  split
  · trivial
  · rw [good]; exact h

theorem setStack_good (n : Nat) (b : Bool) : good prims (CGen.setStack n b) := by
  unfold CGen.setStack
  split <;> trivial

theorem resetStack_good (n : Nat) (b : Bool) : good prims (CGen.resetStack n b) := by
  unfold CGen.resetStack
  split <;> trivial

theorem gcCall_good {n off : Nat} {xs : List Var} (hn : n < 2 ^ 63) (hx : ∀ v ∈ xs, tOk v) (hl : off + xs.length < 2 ^ 63) :
    good prims (CGen.gcCall n xs off).1 := by
  obtain ⟨h1, h2⟩ := pushAux_good (prims := prims) (s := .skip) hx hl trivial
  unfold CGen.gcCall pushVars popVars
  simp only
  split
  · trivial
  · simp only [good]
    exact ⟨hn, ⟨h1, updateStack_good (by omega), setStack_good _ _⟩, hn, trivial, ⟨popAux_good hx hl trivial, resetStack_good _ _⟩, trivial,
      trivial⟩

theorem elements_card {s : Finset Var} {t : Finset Var} (h : s ⊆ t) : (elements s).length ≤ t.card := by
  have h1 : (elements s).toFinset = s := by
    ext x
    rw [List.mem_toFinset, mem_elements]
  have h2 := List.toFinset_card_of_nodup (elements_nodup s)
  rw [← h2, h1]
  exact Finset.card_le_card h

theorem aroundCall_good {x : Var} {e : Exp} {pre c : CStmt} (hv : ∀ v ∈ loc, tOk v) (hm : maxAllocsE e < 2 ^ 63) (hc : e.fv.card < 2 ^ 62)
    (g1 : good prims pre) (g2 : good prims c) : good prims (CGen.aroundCall loc x e pre c).1 := by
  have e1 : ∀ v ∈ elements ((e.fv ∩ loc).erase x), tOk v := fun v h => by
    rw [mem_elements, Finset.mem_erase, Finset.mem_inter] at h
    exact hv v h.2.2
  have e2 : (elements ((e.fv ∩ loc).erase x)).length ≤ e.fv.card :=
    elements_card fun v h => by rw [Finset.mem_erase, Finset.mem_inter] at h; exact h.2.1
  obtain ⟨h1, h2⟩ := pushAux_good (prims := prims) (n := 0) (s := .skip) e1 (by omega) trivial
  have e3 : ∀ v ∈ (if x ∈ e.fv ∩ loc then [x] else []), tOk v := fun v h => by
    split at h
    · next hx =>
      rw [List.mem_singleton] at h
      subst h
      exact hv _ (Finset.mem_inter.1 hx).2
    · cases h
  have e4 : (if x ∈ e.fv ∩ loc then [x] else ([] : List Var)).length ≤ 1 := by split <;> simp
  unfold CGen.aroundCall pushVars popVars
  simp only [good]
  exact ⟨g1, trivial, trivial, ⟨h1, updateStack_good (by omega), setStack_good _ _⟩, g2, trivial, trivial, gcCall_good hm e3 (by omega),
    popAux_good e1 (by omega) trivial, resetStack_good _ _⟩

theorem fenv_small {fenv : FEnv} (hf : FenvWf fenv) {t : Tag} {a : Nat} {ind : List Nat} (h : fenv t = some (a, ind)) : ∀ i ∈ ind, i < 2 ^ 63 := by
  obtain ⟨rfl, h2⟩ := hf t a ind h
  intro i hi
  rw [List.mem_range] at hi
  simp only [maxArgs] at h2
  omega

mutual
theorem trE_good {C : Cfg} (hC : TagsFit C.cenv) (hr : vOk C.prims C.result) {fenv : FEnv} (hf : FenvWf fenv)
    (hloc : ∀ v ∈ loc, tOk v) : ∀ (e : Exp) {sl : Nat} {s : CStmt} {m : Nat}, FitsE C.prims e → trE C fenv fns loc e sl = some (s, m) →
    good C.prims s
  | .constr x t vs e, sl, s, m, g, h => by
    rw [FitsE] at g
    rw [trE] at h
    split at h
    · next p s' n hp hs =>
      cases h
      rw [good]
      exact ⟨assignConstructor_good hC g.1 g.2.1 g.2.2.1 hp, trE_good hC hr hf hloc e g.2.2.2 hs⟩
    · cases h
  | .case x bs, sl, s, m, g, h => by
    rw [FitsE] at g
    rw [trE] at h
    split at h
    · next ls ls' n hs =>
      cases h
      have := trBs_good hC hr hf hloc bs g.2 hs
      simp only [CGen.caseSwitch, good]
      exact ⟨g.1.1, ⟨g.1.1, this.1⟩, g.1.1, this.2⟩
    · cases h
  | .proj x t n v e, sl, s, m, g, h => by
    rw [FitsE] at g
    rw [trE] at h
    split at h
    · next s' n' hs =>
      cases h
      simp only [good, goodE]
      exact ⟨⟨g.1.1, g.2.1.1, by omega, by omega⟩, trE_good hC hr hf hloc e g.2.2.2 hs⟩
    · cases h
  | .letapp x f t vs e, sl, s, m, g, h => by
    rw [FitsE] at g
    rw [trE] at h
    split at h
    · next a ind ht =>
      split at h
      · next asgn c ha hc =>
        simp only at h
        split at h
        · next s' n' hs =>
          cases h
          rw [good]
          exact ⟨aroundCall_good hloc g.2.2.2.1 g.2.2.2.2.1 (asgnAppVars_good g.2.2.1 (fenv_small hf ht) ha)
            (mkCall_good g.1.1 (makeVar_good g.2.1) g.2.2.1 hc), trE_good hC hr hf hloc e g.2.2.2.2.2 hs⟩
        · cases h
      · cases h
    · cases h
  | .fn _ _, sl, s, m, g, h => by cases h
  | .app f t vs, sl, s, m, g, h => by
    rw [FitsE] at g
    rw [trE] at h
    split at h
    · next a ind ht =>
      split at h
      · next asgn c ha hc =>
        cases h
        simp only [good]
        exact ⟨asgnAppVars_good g.2 (fenv_small hf ht) ha, trivial, trivial, mkCall_good hr.1 (makeVar_good g.1) g.2 hc, makeVar_good hr⟩
      · cases h
    · cases h
  | .primVal x p e, sl, s, m, g, h => by
    rw [FitsE] at g
    rw [trE] at h
    split at h
    · next s' n hs =>
      cases h
      obtain ⟨n, rfl, hn⟩ := g.2.1
      simp only [CGen.compilePrim, good, goodE]
      exact ⟨⟨g.1.1, by omega, by omega⟩, trE_good hC hr hf hloc e g.2.2 hs⟩
    · cases h
  | .prim x p vs e, sl, s, m, g, h => by
    rw [FitsE] at g
    rw [trE] at h
    split at h
    · next as hp hv =>
      split at h
      · next s' n hs =>
        cases h
        simp only [good]
        exact ⟨⟨g.1.1, g.2.1, hp, mkCallVars_good g.2.2.1 hv⟩, trE_good hC hr hf hloc e g.2.2.2.2.2 hs⟩
      · cases h
    · next as hp hv =>
      simp only at h
      split at h
      · next s' n hs =>
        cases h
        rw [good]
        exact ⟨aroundCall_good hloc g.2.2.2.1 g.2.2.2.2.1 trivial (by rw [good]; exact ⟨g.1.1, g.2.1, hp, mkCallVars_good g.2.2.1 hv⟩),
          trE_good hC hr hf hloc e g.2.2.2.2.2 hs⟩
      · cases h
    · cases h
  | .halt x, sl, s, m, g, h => by
    rw [FitsE] at g
    rw [trE] at h
    cases h
    simp only [good]
    exact ⟨trivial, trivial, makeVar_good g⟩
theorem trBs_good {C : Cfg} (hC : TagsFit C.cenv) (hr : vOk C.prims C.result) {fenv : FEnv} (hf : FenvWf fenv)
    (hloc : ∀ v ∈ loc, tOk v) : ∀ (bs : Brs) {sl : Nat} {ls ls' : LStmt} {m : Nat}, FitsBs C.prims bs →
    trBs C fenv fns loc bs sl = some (ls, ls', m) → goodL C.prims ls ∧ goodL C.prims ls'
  | .nil, sl, ls, ls', m, g, h => by
    cases h
    exact ⟨trivial, trivial⟩
  | .cons t e bs, sl, ls, ls', m, g, h => by
    rw [FitsBs] at g
    rw [trBs] at h
    split at h
    · next s n ls₀ ls₀' n' hs hbs =>
      have h1 := trE_good hC hr hf hloc e g.1 hs
      have h2 := trBs_good hC hr hf hloc bs g.2 hbs
      split at h
      · split at h
        · cases h
          simp only [goodL, good]
          exact ⟨⟨⟨h1, trivial⟩, trivial⟩, h2.2⟩
        · cases h
          simp only [goodL, good] at h2 ⊢
          exact ⟨⟨⟨h1, trivial⟩, h2.1⟩, h2.2⟩
      · split at h
        · cases h
          simp only [goodL, good]
          exact ⟨h2.1, ⟨h1, trivial⟩, trivial⟩
        · cases h
          simp only [goodL, good] at h2 ⊢
          exact ⟨h2.1, ⟨h1, trivial⟩, h2.2⟩
      · cases h
    · cases h
end

mutual
theorem localsE_ok : ∀ {e : Exp}, FitsE prims e → ∀ x ∈ localsE e, vOk prims x
  | .constr x _ vs e, g, y, hy => by
    rw [FitsE] at g
    rw [localsE, List.mem_cons] at hy
    rcases hy with rfl | hy
    · exact g.1
    · exact localsE_ok g.2.2.2 y hy
  | .case x bs, g, y, hy => by
    rw [FitsE] at g
    rw [localsE] at hy
    exact localsBs_ok g.2 y hy
  | .proj x _ n v e, g, y, hy => by
    rw [FitsE] at g
    rw [localsE, List.mem_cons] at hy
    rcases hy with rfl | hy
    · exact g.1
    · exact localsE_ok g.2.2.2 y hy
  | .letapp x f _ vs e, g, y, hy => by
    rw [FitsE] at g
    rw [localsE, List.mem_cons] at hy
    rcases hy with rfl | hy
    · exact g.1
    · exact localsE_ok g.2.2.2.2.2 y hy
  | .fn B e, g, y, hy => by
    rw [FitsE] at g
    rw [localsE, List.mem_append] at hy
    rcases hy with hy | hy
    · exact localsB_ok g.1 y hy
    · exact localsE_ok g.2.2 y hy
  | .app _ _ _, g, y, hy => by cases hy
  | .primVal x p e, g, y, hy => by
    rw [FitsE] at g
    rw [localsE, List.mem_cons] at hy
    rcases hy with rfl | hy
    · exact g.1
    · exact localsE_ok g.2.2 y hy
  | .prim x p vs e, g, y, hy => by
    rw [FitsE] at g
    rw [localsE, List.mem_cons] at hy
    rcases hy with rfl | hy
    · exact g.1
    · exact localsE_ok g.2.2.2.2.2 y hy
  | .halt x, g, y, hy => by cases hy
theorem localsBs_ok : ∀ {bs : Brs}, FitsBs prims bs → ∀ x ∈ localsBs bs, vOk prims x
  | .nil, g, y, hy => by cases hy
  | .cons _ e bs, g, y, hy => by
    rw [FitsBs] at g
    rw [localsBs, List.mem_append] at hy
    rcases hy with hy | hy
    · exact localsE_ok g.1 y hy
    · exact localsBs_ok g.2 y hy
theorem localsB_ok : ∀ {B : Defs}, FitsB prims B → ∀ x ∈ localsB B, vOk prims x
  | .nil, g, y, hy => by cases hy
  | .cons _ _ vs e B, g, y, hy => by
    rw [FitsB] at g
    rw [localsB, List.mem_append, List.mem_append] at hy
    rcases hy with hy | hy | hy
    · exact g.2.1 y hy
    · exact localsE_ok g.2.2.2.2.1 y hy
    · exact localsB_ok g.2.2.2.2.2 y hy
end

theorem trDef_good {C : Cfg} (hC : TagsFit C.cenv) (hr : vOk C.prims C.result) {fenv : FEnv} (hf : FenvWf fenv) {f : Var} {t : Tag}
    {vs : List Var} {e : Exp} {F : CFun} (hv : ∀ v ∈ vs, vOk C.prims v) (hm : maxAllocsE e < 2 ^ 63) (hc : e.fv.card < 2 ^ 62)
    (g : FitsE C.prims e) (h : trDef C fenv fns f t vs e = some F) : good C.prims F.body := by
  unfold trDef at h
  split at h
  · cases h
  · next l ind hi =>
    simp only at h
    split at h
    · next asgn body n ha hb =>
      cases h
      have e1 : ∀ v ∈ elements (e.fv ∩ vs.toFinset), tOk v := fun v h => by
        rw [mem_elements, Finset.mem_inter, List.mem_toFinset] at h
        exact (hv v h.2).1
      have e2 : (elements (e.fv ∩ vs.toFinset)).length ≤ e.fv.card := elements_card Finset.inter_subset_left
      have hloc : ∀ v ∈ vs.toFinset ∪ (localsE e).toFinset, tOk v := fun v h => by
        rw [Finset.mem_union, List.mem_toFinset, List.mem_toFinset] at h
        rcases h with h | h
        · exact (hv v h).1
        · exact (localsE_ok g v h).1
      simp only [good]
      exact ⟨trivial, trivial, trivial, asgnFunVars'_good (fun v hv' => hv v (List.mem_of_mem_drop hv'))
        (fun i hi' => fenv_small hf hi i (List.mem_of_mem_drop hi')) ha, trivial, gcCall_good hm e1 (by omega), trE_good hC hr hf hloc e g hb⟩
    · cases h

theorem trDefs_good {C : Cfg} (hC : TagsFit C.cenv) (hr : vOk C.prims C.result) {fenv : FEnv} (hf : FenvWf fenv) : ∀ {B : Defs} {Q : List CFun},
    FitsB C.prims B → trDefs C fenv fns B = some Q → ∀ F ∈ Q, good C.prims F.body
  | .nil, Q, _, h => by
    cases h
    simp
  | .cons f t vs e B, Q, g, h => by
    rw [FitsB] at g
    rw [trDefs] at h
    split at h
    · next P F hP hF =>
      cases h
      intro G hG
      rcases List.mem_cons.1 hG with rfl | hG
      · exact trDef_good hC hr hf g.2.1 g.2.2.1 g.2.2.2.1 g.2.2.2.2.1 hF
      · exact trDefs_good hC hr hf g.2.2.2.2.2 hP G hG
    · cases h

/-- The functions of a compiled program are such that their texts do what they do. -/
theorem compileC_good {C : Cfg} (hC : TagsFit C.cenv) (hr : vOk C.prims C.result) {body : Var} {e : Exp} (hs : SeenE C.cenv e)
    (g : FitsE C.prims e) {M : CFun × List CFun} (h : compileC C body e = some M) : ∀ F ∈ M.1 :: M.2, good C.prims F.body := by
  have hf := funEnv_wf hs
  cases e with
  | fn B e =>
    simp only [compileC] at h
    rw [FitsE] at g
    split at h
    · split at h
      · next P s n hP hs =>
        cases h
        intro F hF
        rcases List.mem_cons.1 hF with rfl | hF
        · simp only [good]
          exact ⟨trivial, trivial, trivial, trivial, gcCall_good g.2.1 (by simp) (by simp), trE_good hC hr hf
            (fun v h => (localsE_ok g.2.2 v (List.mem_toFinset.1 h)).1) e g.2.2 hs⟩
        · exact trDefs_good hC hr hf g.1 hP F hF
      · cases h
    · cases h
  | _ => cases h

end CGen.Text
