import Verif.CGen.Cps.Prog
import Verif.CGen.Static

/-! # Static facts about the code generated for CPS programs -/

namespace CGen.Cps

open ANF

/-! ## Variables used by generated code -/

/-- The temporaries an expression reads. -/
def CExpr.Reads (x : Var) : CExpr → Prop
  | .temp y => x = y
  | .field y _ => x = y
  | _ => False

/-- The temporaries a statement shared with the other backend reads or assigns. -/
def UsesC (x : Var) : CStmt → Prop
  | .seq a b => UsesC x a ∨ UsesC x b
  | .set y e => x = y ∨ CExpr.Reads x e
  | .setField y _ e => x = y ∨ CExpr.Reads x e
  | .setArg _ e => CExpr.Reads x e
  | .prim y _ es => x = y ∨ ∃ e ∈ es, CExpr.Reads x e
  | .primT y _ es => x = y ∨ ∃ e ∈ es, CExpr.Reads x e
  | _ => False

mutual
/-- The temporaries a statement reads or assigns. -/
def UsesV (x : Var) : VStmt → Prop
  | .base s => UsesC x s
  | .seq a b => UsesV x a ∨ UsesV x b
  | .call f es => CExpr.Reads x f ∨ ∃ e ∈ es, CExpr.Reads x e
  | .ifLow _ s => UsesV x s
  | .gc _ => False
  | .ifPtr y a b => x = y ∨ UsesV x a ∨ UsesV x b
  | .switchTag y ls => x = y ∨ UsesVL x ls
  | .switchOrd y ls => x = y ∨ UsesVL x ls
  | .brk => False
  | .retArg _ => False
/-- The same for labelled statements. -/
def UsesVL (x : Var) : VL → Prop
  | .nil => False
  | .cons _ s ls => UsesV x s ∨ UsesVL x ls
end

mutual
/-- The statement uses the variable `arg` of `make_case_switch`. -/
def UsesArg : VStmt → Prop
  | .seq a b => UsesArg a ∨ UsesArg b
  | .ifLow _ s => UsesArg s
  | .ifPtr _ _ _ => True
  | .switchTag _ ls => UsesArgL ls
  | .switchOrd _ ls => UsesArgL ls
  | _ => False
/-- The same for labelled statements. -/
def UsesArgL : VL → Prop
  | .nil => False
  | .cons _ s ls => UsesArg s ∨ UsesArgL ls
end

/-- There is a match on some path of the expression (outside nested functions). -/
def HasCase : Exp → Prop
  | .constr _ _ _ e => HasCase e
  | .case _ _ => True
  | .proj _ _ _ _ e => HasCase e
  | .letapp _ _ _ _ e => HasCase e
  | .fn _ e => HasCase e
  | .primVal _ _ e => HasCase e
  | .prim _ _ _ e => HasCase e
  | _ => False

variable {C : Cfg} {fenv : FEnv} {fns : List Var} {ar : Tag → Nat}

theorem usesArg_mkCall {np f n vs c} (h : mkCallV np fns f n vs = some c) : ¬ UsesArg c := by
  unfold mkCallV at h
  simp only [Option.map_eq_some_iff] at h
  obtain ⟨_, _, rfl⟩ := h
  simp [UsesArg]

theorem usesArg_tr : ∀ (e : Exp) {s}, trV C fenv fns e = some s → (UsesArg s ↔ HasCase e)
  | .constr x t ys e, s, h => by
    simp only [trV] at h
    split at h
    · rename_i p s' _ hs
      cases h
      simp only [UsesArg, HasCase, false_or]
      exact usesArg_tr e hs
    · cases h
  | .case x bs, s, h => by
    simp only [trV] at h
    split at h
    · cases h; simp [caseSwitchV, UsesArg, HasCase]
    · cases h
  | .proj x t k y e, s, h => by
    simp only [trV] at h
    split at h
    · rename_i s' hs
      cases h
      simp only [UsesArg, HasCase, false_or]
      exact usesArg_tr e hs
    · cases h
  | .letapp x f t ys e, s, h => by
    simp only [trV] at h
    split at h
    · rename_i s' a ind hs _
      split at h
      · rename_i asgn c _ hc
        cases h
        simp only [UsesArg, HasCase, false_or, saveRegs, usesArg_mkCall hc]
        exact usesArg_tr e hs
      · cases h
    · cases h
  | .fn _ _, s, h => by simp [trV] at h
  | .app f t ys, s, h => by
    simp only [trV] at h
    split at h
    · split at h
      · rename_i asgn c _ hc
        cases h
        simp [UsesArg, HasCase, saveRegs, usesArg_mkCall hc]
      · cases h
    · cases h
  | .primVal x p e, s, h => by
    simp only [trV] at h
    split at h
    · rename_i s' hs
      cases h
      simp only [UsesArg, HasCase, false_or]
      exact usesArg_tr e hs
    · cases h
  | .prim x p ys e, s, h => by
    simp only [trV] at h
    split at h
    · rename_i hs
      cases h
      simp only [UsesArg, HasCase, false_or]
      exact usesArg_tr e hs
    · rename_i hs
      cases h
      simp only [UsesArg, HasCase, false_or, saveRegs]
      exact usesArg_tr e hs
    · cases h
  | .halt x, s, h => by
    simp only [trV, Option.some.injEq] at h
    subst h
    simp [UsesArg, HasCase, saveRegs]

/-! ### Temporaries -/

theorem reads_makeVar {x y : Var} (h : CExpr.Reads x (makeVar fns y)) : x = y ∧ y ∉ fns := by
  unfold makeVar at h
  split at h
  · exact h.elim
  · exact ⟨h, by assumption⟩

theorem reads_callVars : ∀ {n : Nat} {vs : List Var} {es}, mkCallVars fns n vs = some es → ∀ {x}, (∃ e ∈ es, CExpr.Reads x e) →
    x ∈ vs ∧ x ∉ fns := by
  intro n vs
  induction vs generalizing n with
  | nil =>
    intro es h x
    cases n with
    | zero => simp only [mkCallVars, Option.some.injEq] at h; subst h; simp
    | succ => simp [mkCallVars] at h
  | cons v vs ih =>
    intro es h x
    cases n with
    | zero => simp [mkCallVars] at h
    | succ n =>
      simp only [mkCallVars, Option.map_eq_some_iff] at h
      obtain ⟨es', h1, rfl⟩ := h
      simp only [List.mem_cons, exists_eq_or_imp]
      rintro (h2 | h2)
      · obtain ⟨rfl, h3⟩ := reads_makeVar h2
        exact ⟨.inl rfl, h3⟩
      · exact ⟨.inr (ih h1 h2).1, (ih h1 h2).2⟩

theorem uses_fields {x : Var} : ∀ (y : Var) (vs : List Var) (k : Nat), UsesC x (assignFields fns y k vs) →
    x = y ∨ x ∈ vs ∧ x ∉ fns
  | y, [], k, h => by simp [assignFields, UsesC] at h
  | y, [v], k, h => by
    simp only [assignFields, UsesC] at h
    rcases h with h | h
    · exact .inl h
    · obtain ⟨rfl, h1⟩ := reads_makeVar h
      exact .inr ⟨by simp, h1⟩
  | y, v :: w :: vs, k, h => by
    simp only [assignFields, UsesC] at h
    rcases h with (h | h) | h
    · exact .inl h
    · obtain ⟨rfl, h1⟩ := reads_makeVar h
      exact .inr ⟨by simp, h1⟩
    · rcases uses_fields y (w :: vs) (k + 1) h with h | h
      · exact .inl h
      · exact .inr ⟨List.mem_cons_of_mem _ h.1, h.2⟩

theorem uses_constructor {cenv x y t vs p} (h : assignConstructor cenv fns y t vs = some p) (hu : UsesC x p) :
    x = y ∨ x ∈ vs ∧ x ∉ fns := by
  unfold assignConstructor at h
  split at h
  · cases h; left; simpa [UsesC, CExpr.Reads] using hu
  · cases h
    simp only [UsesC, CExpr.Reads, or_false, false_or] at hu
    rcases hu with h | h | h
    · exact .inl h
    · exact .inl h
    · exact uses_fields _ _ _ h
  · cases h

theorem uses_app {x : Var} : ∀ {vs : List Var} {ind s}, asgnAppVars' fns vs ind = some s → UsesC x s → x ∈ vs ∧ x ∉ fns := by
  intro vs
  induction vs with
  | nil =>
    intro ind s h hu
    cases ind with
    | nil => simp only [asgnAppVars', Option.some.injEq] at h; subst h; simp [UsesC] at hu
    | cons => simp [asgnAppVars'] at h
  | cons v vs ih =>
    intro ind s h hu
    cases ind with
    | nil => simp [asgnAppVars'] at h
    | cons i ind =>
      simp only [asgnAppVars', Option.map_eq_some_iff] at h
      obtain ⟨s', h1, rfl⟩ := h
      simp only [UsesC] at hu
      rcases hu with hu | hu
      · exact ⟨List.mem_cons_of_mem _ (ih h1 hu).1, (ih h1 hu).2⟩
      · obtain ⟨rfl, h2⟩ := reads_makeVar hu
        exact ⟨by simp, h2⟩

theorem uses_fun {x : Var} : ∀ {vs : List Var} {ind s}, asgnFunVars' vs ind = some s → UsesC x s → x ∈ vs := by
  intro vs
  induction vs with
  | nil =>
    intro ind s h hu
    cases ind with
    | nil => simp only [asgnFunVars', Option.some.injEq] at h; subst h; simp [UsesC] at hu
    | cons => simp [asgnFunVars'] at h
  | cons v vs ih =>
    intro ind s h hu
    cases ind with
    | nil => simp [asgnFunVars'] at h
    | cons i ind =>
      simp only [asgnFunVars', Option.map_eq_some_iff] at h
      obtain ⟨s', h1, rfl⟩ := h
      simp only [UsesC, CExpr.Reads, or_false] at hu
      rcases hu with hu | hu
      · subst hu; simp
      · exact List.mem_cons_of_mem _ (ih h1 hu)

theorem uses_words {x y : Var} : ∀ (ws : List Nat) (i : Nat) (acc : CStmt), UsesC x (storeWords y i ws acc) → x = y ∨ UsesC x acc
  | [], _, _, h => .inr h
  | w :: ws, i, acc, h => by
    rcases uses_words ws _ _ h with h | h
    · exact .inl h
    · simp only [UsesC, CExpr.Reads, or_false] at h
      exact h.symm

theorem uses_prim {x y p} (h : UsesC x (compilePrimV y p)) : x = y := by
  cases p with
  | int n => simpa [compilePrimV, UsesC, CExpr.Reads] using h
  | float b => simpa [compilePrimV, UsesC, CExpr.Reads] using h
  | str s =>
    simp only [compilePrimV, UsesC, CExpr.Reads, or_false, false_or] at h
    rcases h with h | h
    · exact h
    · rcases uses_words _ _ _ h with h | h
      · exact h
      · simpa [UsesC, CExpr.Reads] using h

theorem uses_mkCall {np f n vs c x} (h : mkCallV np fns f n vs = some c) (hu : UsesV x c) :
    CExpr.Reads x f ∨ x ∈ vs ∧ x ∉ fns := by
  unfold mkCallV at h
  simp only [Option.map_eq_some_iff] at h
  obtain ⟨es, h1, rfl⟩ := h
  simp only [UsesV] at hu
  rcases hu with hu | hu
  · exact .inl hu
  · obtain ⟨h2, h3⟩ := reads_callVars h1 hu
    exact .inr ⟨List.mem_of_mem_take h2, h3⟩

theorem uses_appVars {np vs ind s x} (h : asgnAppVars np fns vs ind = some s) (hu : UsesC x s) : x ∈ vs ∧ x ∉ fns := by
  unfold asgnAppVars at h
  simp only [Option.map_eq_some_iff] at h
  obtain ⟨s', h1, rfl⟩ := h
  simp only [UsesC, false_or] at hu
  exact ⟨List.mem_of_mem_drop (uses_app h1 hu).1, (uses_app h1 hu).2⟩

theorem uses_saveRegs {x} : ¬ UsesV x saveRegs := by simp [saveRegs, UsesV, UsesC]

mutual
/-- The code of an expression only uses its free variables and those it binds. -/
theorem uses_tr {x : Var} : ∀ (e : Exp) {s}, trV C fenv fns e = some s → UsesV x s →
    x ∈ e.fv ∨ x ∈ localsE e
  | .constr y t ys e, s, h, hu => by
    simp only [trV] at h
    split at h
    · rename_i p s' hp hs
      cases h
      simp only [UsesV] at hu
      rcases hu with hu | hu
      · rcases uses_constructor hp hu with rfl | hu
        · right; simp [localsE]
        · left; simp [Exp.fv, hu.1]
      · by_cases hxy : x = y
        · right; simp [localsE, hxy]
        · rcases uses_tr e hs hu with hu | hu
          · left; simp [Exp.fv, hu, hxy]
          · right; simp [localsE, hu]
    · cases h
  | .case y bs, s, h, hu => by
    simp only [trV] at h
    split at h
    · rename_i ls ls' hs
      cases h
      simp only [caseSwitchV, UsesV] at hu
      have key : UsesVL x ls ∨ UsesVL x ls' → x ∈ (Exp.case y bs).fv ∨ x ∈ localsE (.case y bs) := by
        intro hu
        rcases uses_trs bs hs hu with hu | hu
        · left; simp [Exp.fv, hu]
        · right; simp [localsE, hu]
      rcases hu with rfl | (rfl | hu) | rfl | hu
      · left; simp [Exp.fv]
      · left; simp [Exp.fv]
      · exact key (.inl hu)
      · left; simp [Exp.fv]
      · exact key (.inr hu)
    · cases h
  | .proj y t k z e, s, h, hu => by
    simp only [trV] at h
    split at h
    · rename_i s' hs
      cases h
      simp only [UsesV, UsesC, CExpr.Reads] at hu
      rcases hu with (rfl | rfl) | hu
      · right; simp [localsE]
      · left; simp [Exp.fv]
      · by_cases hxy : x = y
        · right; simp [localsE, hxy]
        · rcases uses_tr e hs hu with hu | hu
          · left; simp [Exp.fv, hu, hxy]
          · right; simp [localsE, hu]
    · cases h
  | .letapp y f t ys e, s, h, hu => by
    simp only [trV] at h
    split at h
    · rename_i s' a ind hs _
      split at h
      · rename_i asgn c ha hc
        cases h
        simp only [UsesV, UsesC, CExpr.Reads, uses_saveRegs, false_or, or_false] at hu
        rcases hu with hu | hu | rfl | hu
        · left; simp [Exp.fv, (uses_appVars ha hu).1]
        · rcases uses_mkCall hc hu with hu | hu
          · left; simp [Exp.fv, (reads_makeVar hu).1]
          · left; simp [Exp.fv, hu.1]
        · right; simp [localsE]
        · by_cases hxy : x = y
          · right; simp [localsE, hxy]
          · rcases uses_tr e hs hu with hu | hu
            · left; simp [Exp.fv, hu, hxy]
            · right; simp [localsE, hu]
      · cases h
    · cases h
  | .fn _ _, s, h, hu => by simp [trV] at h
  | .app f t ys, s, h, hu => by
    simp only [trV] at h
    split at h
    · split at h
      · rename_i asgn c ha hc
        cases h
        simp only [UsesV, uses_saveRegs, false_or] at hu
        rcases hu with hu | hu
        · left; simp [Exp.fv, (uses_appVars ha hu).1]
        · rcases uses_mkCall hc hu with hu | hu
          · left; simp [Exp.fv, (reads_makeVar hu).1]
          · left; simp [Exp.fv, hu.1]
      · cases h
    · cases h
  | .primVal y p e, s, h, hu => by
    simp only [trV] at h
    split at h
    · rename_i s' hs
      cases h
      simp only [UsesV] at hu
      by_cases hxy : x = y
      · right; simp [localsE, hxy]
      · rcases hu with hu | hu
        · exact absurd (uses_prim hu) hxy
        · rcases uses_tr e hs hu with hu | hu
          · left; simp [Exp.fv, hu, hxy]
          · right; simp [localsE, hu]
    · cases h
  | .prim y p ys e, s, h, hu => by
    simp only [trV] at h
    split at h
    · rename_i has hs
      cases h
      simp only [UsesV, UsesC] at hu
      by_cases hxy : x = y
      · right; simp [localsE, hxy]
      · rcases hu with (hu | hu) | hu
        · exact absurd hu hxy
        · left; simp [Exp.fv, (reads_callVars has hu).1]
        · rcases uses_tr e hs hu with hu | hu
          · left; simp [Exp.fv, hu, hxy]
          · right; simp [localsE, hu]
    · rename_i has hs
      cases h
      simp only [UsesV, UsesC, uses_saveRegs, false_or] at hu
      by_cases hxy : x = y
      · right; simp [localsE, hxy]
      · rcases hu with (hu | hu) | hu
        · exact absurd hu hxy
        · left; simp [Exp.fv, (reads_callVars has hu).1]
        · rcases uses_tr e hs hu with hu | hu
          · left; simp [Exp.fv, hu, hxy]
          · right; simp [localsE, hu]
    · cases h
  | .halt y, s, h, hu => by
    simp only [trV, Option.some.injEq] at h
    subst h
    simp only [UsesV, UsesC, uses_saveRegs, false_or] at hu
    left; simp [Exp.fv, (reads_makeVar hu).1]
theorem uses_trs {x : Var} : ∀ (bs : Brs) {ls ls'}, trVs C fenv fns bs = some (ls, ls') → UsesVL x ls ∨ UsesVL x ls' →
    x ∈ bs.fv ∨ x ∈ localsBs bs
  | .nil, ls, ls', h, hu => by
    simp only [trVs, Option.some.injEq, Prod.mk.injEq] at h
    obtain ⟨rfl, rfl⟩ := h
    simp [UsesVL] at hu
  | .cons t e bs, ls, ls', h, hu => by
    simp only [trVs] at h
    split at h
    case h_2 => cases h
    rename_i s l1 l2 hs hbs
    have k1 : UsesV x s → x ∈ (Brs.cons t e bs).fv ∨ x ∈ localsBs (.cons t e bs) := by
      intro hu
      rcases uses_tr e hs hu with hu | hu
      · left; simp [Brs.fv, hu]
      · right; simp [localsBs, hu]
    have k2 : UsesVL x l1 ∨ UsesVL x l2 → x ∈ (Brs.cons t e bs).fv ∨ x ∈ localsBs (.cons t e bs) := by
      intro hu
      rcases uses_trs bs hbs hu with hu | hu
      · left; simp [Brs.fv, hu]
      · right; simp [localsBs, hu]
    split at h
    · cases l1 <;> simp only [Option.some.injEq, Prod.mk.injEq] at h <;> obtain ⟨rfl, rfl⟩ := h <;>
        simp only [UsesVL, UsesV, or_false] at hu k2
      · rcases hu with hu | hu
        · exact k1 hu
        · exact k2 (by first | exact hu | exact .inr hu)
      · rcases hu with (hu | hu) | hu
        · exact k1 hu
        · exact k2 (.inl hu)
        · exact k2 (.inr hu)
    · cases l2 <;> simp only [Option.some.injEq, Prod.mk.injEq] at h <;> obtain ⟨rfl, rfl⟩ := h <;>
        simp only [UsesVL, UsesV, or_false] at hu k2
      · rcases hu with hu | hu
        · exact k2 hu
        · exact k1 hu
      · rcases hu with hu | hu | hu
        · exact k2 (.inl hu)
        · exact k1 hu
        · exact k2 (.inr hu)
    · cases h
end

theorem uses_loadRegs {x} : ¬ UsesV x loadRegs := by simp [loadRegs, UsesV, UsesC]

theorem uses_reserve {np i vs ind r x} (h : reserveV np fns i vs ind = some r) (hu : UsesV x r) : x ∈ vs := by
  unfold reserveV at h
  split at h
  · rename_i h1 h2
    cases h
    simp only [UsesV, UsesC, false_or] at hu
    rcases hu with hu | hu
    · exact List.mem_of_mem_take (uses_app h1 hu).1
    · exact List.mem_of_mem_take (uses_fun h2 hu)
  · cases h

/-! ## Totality -/

theorem callV_total {ft : Tag} {ys : List Var} {np : Nat} {g : CExpr} (hl : ys.length = ar ft) :
    (∃ s, asgnAppVars np fns ys (List.range (ar ft)) = some s) ∧ ∃ c, mkCallV np fns g (min (ar ft) np) ys = some c := by
  obtain ⟨h1, c, h2⟩ := call_total (fns := fns) (np := np) (x := 0) (g := g) hl
  refine ⟨h1, ?_⟩
  simp only [mkCall, Option.map_eq_some_iff] at h2
  obtain ⟨es, h3, _⟩ := h2
  exact ⟨.call g es, by simp only [mkCallV, h3, Option.map_some]⟩

mutual
theorem trV_total (hfe : FenvOk ar fenv) : ∀ (e : Exp), OkE C.cenv ar e → FlatE C.prims e → KnownE fenv e →
    ∃ r, trV C fenv fns e = some r
  | .constr x t ys e, hok, hfl, hk => by
    simp only [OkE] at hok; simp only [FlatE] at hfl; simp only [KnownE] at hk
    obtain ⟨s, hs⟩ := trV_total hfe e hok.2 hfl hk
    obtain ⟨i, hi, _⟩ := hok.1
    simp only [trV, hs, assignConstructor, ctorRep, hi]
    by_cases ha : i.arity = 0
    · rw [if_pos ha]; exact ⟨_, rfl⟩
    · rw [if_neg ha]; exact ⟨_, rfl⟩
  | .case x bs, hok, hfl, hk => by
    simp only [OkE] at hok; simp only [FlatE] at hfl; simp only [KnownE] at hk
    obtain ⟨⟨a, b⟩, hs⟩ := trVs_total hfe bs hok hfl hk
    simp only [trV, hs]; exact ⟨_, rfl⟩
  | .proj x t k y e, hok, hfl, hk => by
    simp only [OkE] at hok; simp only [FlatE] at hfl; simp only [KnownE] at hk
    obtain ⟨s, hs⟩ := trV_total hfe e hok hfl hk
    simp only [trV, hs]; exact ⟨_, rfl⟩
  | .letapp x f ft ys e, hok, hfl, hk => by
    simp only [OkE] at hok; simp only [FlatE] at hfl; simp only [KnownE] at hk
    obtain ⟨⟨a, ind⟩, hp⟩ := hk.1
    obtain ⟨rfl, rfl⟩ := hfe ft a ind hp
    obtain ⟨⟨asgn, h1⟩, c, h2⟩ := callV_total (fns := fns) (np := C.nParam) (g := makeVar fns f) hok.1
    obtain ⟨s, hs⟩ := trV_total hfe e hok.2 hfl hk.2
    simp only [trV, hp, h1, h2, hs]; exact ⟨_, rfl⟩
  | .fn _ _, hok, hfl, hk => by simp only [FlatE] at hfl
  | .app f ft ys, hok, hfl, hk => by
    simp only [OkE] at hok; simp only [KnownE] at hk
    obtain ⟨⟨a, ind⟩, hp⟩ := hk
    obtain ⟨rfl, rfl⟩ := hfe ft a ind hp
    obtain ⟨⟨asgn, h1⟩, c, h2⟩ := callV_total (fns := fns) (np := C.nParam) (g := makeVar fns f) hok
    simp only [trV, hp, h1, h2]; exact ⟨_, rfl⟩
  | .primVal x p e, hok, hfl, hk => by
    simp only [OkE] at hok; simp only [FlatE] at hfl; simp only [KnownE] at hk
    obtain ⟨s, hs⟩ := trV_total hfe e hok.2 hfl hk
    simp only [trV, hs]; exact ⟨_, rfl⟩
  | .prim x p ys e, hok, hfl, hk => by
    simp only [OkE] at hok; simp only [FlatE] at hfl; simp only [KnownE] at hk
    obtain ⟨b, hb⟩ := hfl.1
    obtain ⟨as, has⟩ := mkCallVars_total (fns := fns) ys
    obtain ⟨s, hs⟩ := trV_total hfe e hok hfl.2 hk
    cases b <;> simp only [trV, hb, has, hs] <;> exact ⟨_, rfl⟩
  | .halt x, _, _, _ => by simp only [trV]; exact ⟨_, rfl⟩
theorem trVs_total (hfe : FenvOk ar fenv) : ∀ (bs : Brs), OkBs C.cenv ar bs → FlatBs C.prims bs →
    KnownBs fenv bs → ∃ r, trVs C fenv fns bs = some r
  | .nil, _, _, _ => by simp only [trVs]; exact ⟨_, rfl⟩
  | .cons t e bs, hok, hfl, hk => by
    simp only [OkBs] at hok; simp only [FlatBs] at hfl; simp only [KnownBs] at hk
    obtain ⟨s, hs⟩ := trV_total hfe e hok.2.1 hfl.1 hk.1
    obtain ⟨⟨a, b⟩, hb⟩ := trVs_total hfe bs hok.2.2 hfl.2 hk.2
    obtain ⟨i, hi⟩ := hok.1
    simp only [trVs, hs, hb, ctorRep, hi]
    by_cases ha : i.arity = 0
    · rw [if_pos ha]; cases b <;> exact ⟨_, rfl⟩
    · rw [if_neg ha]; cases a <;> exact ⟨_, rfl⟩
end

theorem trVDefs_total (hfe : FenvOk ar fenv) : ∀ (B : Defs), OkB C.cenv ar B → FlatB C.prims B → KnownB fenv B →
    (∃ P, trVDefs C fenv fns B = some P) ∧ infoOk fenv B = true := by
  intro B
  induction B using Defs.ind with
  | nil => intro _ _ _; exact ⟨⟨[], by simp [trVDefs]⟩, rfl⟩
  | cons f ft xs e B ih =>
    intro hok hfl hk
    simp only [OkB] at hok; simp only [FlatB] at hfl; simp only [KnownB] at hk
    obtain ⟨⟨P, hP⟩, hi⟩ := ih hok.2.2 hfl.2 hk.2.2
    obtain ⟨⟨a, ind⟩, hp⟩ := hk.1
    obtain ⟨rfl, rfl⟩ := hfe ft a ind hp
    obtain ⟨s, hs⟩ := trV_total (fns := fns) hfe e hok.2.1 hfl.1 hk.2.1
    obtain ⟨asgn, ha⟩ := asgnFunVars'_total (xs.drop C.nParam) C.nParam
    have ha' : asgnFunVars C.nParam xs (List.range (ar ft)) = some asgn := by
      simp only [asgnFunVars, drop_range]
      rw [← hok.1, ← List.length_drop]
      exact ha
    have hind : (List.range (ar ft)).take C.nParam = List.range' 0 (xs.take C.nParam).length := by
      rw [take_range, List.length_take, hok.1]
    obtain ⟨b1, hb1⟩ := asgnAppVars'_total (fns := fns) (xs.take C.nParam) 0
    obtain ⟨b2, hb2⟩ := asgnFunVars'_total (xs.take C.nParam) 0
    constructor
    · simp only [trVDefs, hP, trVDef, hp, ha', hs, reserveV, hind, hb1, hb2]; exact ⟨_, rfl⟩
    · simp only [infoOk, hp, hi, Option.isSome_some, Bool.and_self]

theorem compileV_total {B : Defs} {e : Exp} {body : Var} (hok : OkE C.cenv ar (.fn B e)) (hB : FlatB C.prims B)
    (he : FlatE C.prims e) : ∃ M, compileV C body (.fn B e) = some M := by
  have hfe : FenvOk ar (funEnv (.fn B e)) := funEnv_ok hok
  have hk : KnownE (funEnv (.fn B e)) (.fn B e) := (funEnv_known _).1 _ _ (Nat.le_refl _)
  simp only [KnownE] at hk
  simp only [OkE] at hok
  obtain ⟨⟨P, hP⟩, hi⟩ := trVDefs_total (fns := B.names) hfe B hok.1 hB hk.1
  obtain ⟨s, hs⟩ := trV_total (fns := B.names) hfe e hok.2 he hk.2
  simp only [compileV, hi, if_true, hP, hs]
  exact ⟨_, rfl⟩

/-! ## Declarations -/

theorem trVDefs_declared : ∀ {B' : Defs} {P}, trVDefs C fenv fns B' = some P → ∀ F ∈ P, F.caseDecl = true ∧
    ∃ t xs e, (F.name, t, xs, e) ∈ B'.toList ∧ ∀ x, UsesV x F.body → x ∈ F.params ∨ x ∈ F.temps ∨ x ∈ e.fv ∧ x ∉ xs := by
  intro B'
  induction B' using Defs.ind with
  | nil =>
    intro P h F hF
    simp only [trVDefs, Option.some.injEq] at h
    subst h; cases hF
  | cons f t xs e B' ih =>
    intro P h F hF
    simp only [trVDefs] at h
    split at h
    case h_2 => cases h
    rename_i P' F' h1 h2
    cases h
    rcases List.mem_cons.1 hF with rfl | hF
    · simp only [trVDef] at h2
      split at h2
      · cases h2
      split at h2
      case h_2 => cases h2
      rename_i body asgn res hb ha hr
      cases h2
      refine ⟨rfl, t, xs, e, by simp [Defs.toList], ?_⟩
      intro x hu
      simp only [UsesV, uses_loadRegs, false_or] at hu
      have hxs : x ∈ xs → x ∈ xs.take C.nParam ∨ x ∈ xs.drop C.nParam ++ localsE e ∨ x ∈ e.fv ∧ x ∉ xs := by
        intro hx
        rw [← List.take_append_drop C.nParam xs, List.mem_append] at hx
        rcases hx with hx | hx
        · exact .inl hx
        · exact .inr (.inl (by simp [hx]))
      by_cases hx : x ∈ xs
      · exact hxs hx
      · rcases hu with hu | hu | hu
        · exact absurd (uses_reserve hr hu) hx
        · exact absurd (List.mem_of_mem_drop (uses_fun ha hu)) hx
        · rcases uses_tr e hb hu with hu | hu
          · exact .inr (.inr ⟨hu, hx⟩)
          · exact .inr (.inl (by simp [hu]))
    · obtain ⟨h3, t', xs', e', h4, h5⟩ := ih h1 F hF
      exact ⟨h3, t', xs', e', by simp [Defs.toList, h4], h5⟩

end CGen.Cps
