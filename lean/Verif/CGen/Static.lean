import Verif.CGen.Total

/-! # Static facts about the generated code: slot numbers and words allocated between heap checks -/

namespace CGen

open ANF

/-- The shadow-stack slots read by an expression are below `n`. -/
def RootsLtE (n : Nat) : CExpr → Prop
  | .root i => i < n
  | _ => True

mutual
/-- All shadow-stack slots used in the code are below `n`. -/
def RootsLt (n : Nat) : CStmt → Prop
  | .seq a b => RootsLt n a ∧ RootsLt n b
  | .set _ e => RootsLtE n e
  | .setField _ _ e => RootsLtE n e
  | .setArg _ e => RootsLtE n e
  | .setRoot i e => i < n ∧ RootsLtE n e
  | .setNext k => k ≤ n
  | .call _ f es => RootsLtE n f ∧ ∀ e ∈ es, RootsLtE n e
  | .prim _ _ es => ∀ e ∈ es, RootsLtE n e
  | .primT _ _ es => ∀ e ∈ es, RootsLtE n e
  | .ifLow _ s => RootsLt n s
  | .ifPtr _ a b => RootsLt n a ∧ RootsLt n b
  | .switchTag _ ls => RootsLtL n ls
  | .switchOrd _ ls => RootsLtL n ls
  | .ret e => RootsLtE n e
  | .skip => True
  | .bump _ => True
  | .loadAlloc => True
  | .loadLimit => True
  | .loadArgs => True
  | .saveAlloc => True
  | .saveLimit => True
  | .initStack => True
  | .link => True
  | .unlink => True
  | .setNalloc _ => True
  | .gc => True
  | .brk => True
/-- The same for the cases of a switch. -/
def RootsLtL (n : Nat) : LStmt → Prop
  | .nil => True
  | .cons _ s ls => RootsLt n s ∧ RootsLtL n ls
end

/-- `k` words are allocated on some path through the term before the next heap check (after a call or an allocating
primitive there is a new one) or its end. -/
inductive Needs (prims : Tag → Option Bool) : Exp → Nat → Prop
  | enum {x t e k} : Needs prims e k → Needs prims (.constr x t [] e) k
  | boxed {x t y ys e k} : Needs prims e k → Needs prims (.constr x t (y :: ys) e) ((ys.length + 2) + k)
  | case {x bs t e k} : (t, e) ∈ bs.toList → Needs prims e k → Needs prims (.case x bs) k
  | proj {x t n y e k} : Needs prims e k → Needs prims (.proj x t n y e) k
  | letapp {x f t ys e} : Needs prims (.letapp x f t ys e) 0
  | app {f t ys} : Needs prims (.app f t ys) 0
  | int {x n e k} : Needs prims e k → Needs prims (.primVal x (.int n) e) k
  | float {x b e k} : Needs prims e k → Needs prims (.primVal x (.float b) e) (2 + k)
  | str {x s e k} : Needs prims e k → Needs prims (.primVal x (.str s) e) ((s.length / 8 + 2) + k)
  | pure {x p ys e k} : prims p = some false → Needs prims e k → Needs prims (.prim x p ys e) k
  | heap {x p ys e} : prims p = some true → Needs prims (.prim x p ys e) 0
  | halt {x} : Needs prims (.halt x) 0

variable {n : Nat} {fns : List Var} {C : Cfg} {fenv : FEnv} {loc : Finset Var}

theorem rootsLtE_mono {n m} (h : n ≤ m) : ∀ e, RootsLtE n e → RootsLtE m e := by
  intro e he
  cases e <;> simp only [RootsLtE] at *
  omega

mutual
theorem RootsLt.mono {n m} (h : n ≤ m) : ∀ s, RootsLt n s → RootsLt m s
  | .seq a b => by simp only [RootsLt]; exact fun hs => ⟨RootsLt.mono h a hs.1, RootsLt.mono h b hs.2⟩
  | .set _ e => by simp only [RootsLt]; exact rootsLtE_mono h e
  | .setField _ _ e => by simp only [RootsLt]; exact rootsLtE_mono h e
  | .setArg _ e => by simp only [RootsLt]; exact rootsLtE_mono h e
  | .setRoot i e => by simp only [RootsLt]; exact fun hs => ⟨by omega, rootsLtE_mono h e hs.2⟩
  | .setNext k => by simp only [RootsLt]; omega
  | .call _ f es => by
    simp only [RootsLt]; exact fun hs => ⟨rootsLtE_mono h f hs.1, fun e he => rootsLtE_mono h e (hs.2 e he)⟩
  | .prim _ _ es => by simp only [RootsLt]; exact fun hs e he => rootsLtE_mono h e (hs e he)
  | .primT _ _ es => by simp only [RootsLt]; exact fun hs e he => rootsLtE_mono h e (hs e he)
  | .ifLow _ s => by simp only [RootsLt]; exact RootsLt.mono h s
  | .ifPtr _ a b => by simp only [RootsLt]; exact fun hs => ⟨RootsLt.mono h a hs.1, RootsLt.mono h b hs.2⟩
  | .switchTag _ ls => by simp only [RootsLt]; exact RootsLtL.mono h ls
  | .switchOrd _ ls => by simp only [RootsLt]; exact RootsLtL.mono h ls
  | .ret e => by simp only [RootsLt]; exact rootsLtE_mono h e
  | .skip => by simp [RootsLt]
  | .bump _ => by simp [RootsLt]
  | .loadAlloc => by simp [RootsLt]
  | .loadLimit => by simp [RootsLt]
  | .loadArgs => by simp [RootsLt]
  | .saveAlloc => by simp [RootsLt]
  | .saveLimit => by simp [RootsLt]
  | .initStack => by simp [RootsLt]
  | .link => by simp [RootsLt]
  | .unlink => by simp [RootsLt]
  | .setNalloc _ => by simp [RootsLt]
  | .gc => by simp [RootsLt]
  | .brk => by simp [RootsLt]
theorem RootsLtL.mono {n m} (h : n ≤ m) : ∀ ls, RootsLtL n ls → RootsLtL m ls
  | .nil => by simp [RootsLtL]
  | .cons _ s ls => by simp only [RootsLtL]; exact fun hs => ⟨RootsLt.mono h s hs.1, RootsLtL.mono h ls hs.2⟩
end

theorem rootsLt_makeVar (x : Var) : RootsLtE n (makeVar fns x) := by unfold makeVar; split <;> simp [RootsLtE]

theorem rootsLt_fields (x : Var) : ∀ (vs : List Var) (k : Nat), RootsLt n (assignFields fns x k vs)
  | [], _ => by simp [assignFields, RootsLt]
  | [v], _ => by simp only [assignFields, RootsLt]; exact rootsLt_makeVar v
  | v :: w :: vs, k => by
    simp only [assignFields, RootsLt]
    exact ⟨rootsLt_makeVar v, rootsLt_fields x (w :: vs) (k + 1)⟩

theorem rootsLt_callVars : ∀ {k : Nat} {vs : List Var} {es}, mkCallVars fns k vs = some es → ∀ e ∈ es, RootsLtE n e := by
  intro k
  induction k with
  | zero =>
    intro vs es h
    cases vs <;> simp [mkCallVars] at h
    subst h; simp
  | succ k ih =>
    intro vs es h
    cases vs with
    | nil => simp [mkCallVars] at h
    | cons v vs =>
      simp only [mkCallVars, Option.map_eq_some_iff] at h
      obtain ⟨es', h1, rfl⟩ := h
      intro e he
      simp only [List.mem_cons] at he
      rcases he with rfl | he
      · exact rootsLt_makeVar v
      · exact ih h1 e he

theorem rootsLt_app : ∀ {vs : List Var} {ind s}, asgnAppVars' fns vs ind = some s → RootsLt n s := by
  intro vs
  induction vs with
  | nil =>
    intro ind s h
    cases ind <;> simp [asgnAppVars'] at h
    subst h; simp [RootsLt]
  | cons v vs ih =>
    intro ind s h
    cases ind with
    | nil => simp [asgnAppVars'] at h
    | cons i ind =>
      simp only [asgnAppVars', Option.map_eq_some_iff] at h
      obtain ⟨s', h1, rfl⟩ := h
      simp only [RootsLt]
      exact ⟨ih h1, rootsLt_makeVar v⟩

theorem rootsLt_fun : ∀ {vs : List Var} {ind s}, asgnFunVars' vs ind = some s → RootsLt n s := by
  intro vs
  induction vs with
  | nil =>
    intro ind s h
    cases ind <;> simp [asgnFunVars'] at h
    subst h; simp [RootsLt]
  | cons v vs ih =>
    intro ind s h
    cases ind with
    | nil => simp [asgnFunVars'] at h
    | cons i ind =>
      simp only [asgnFunVars', Option.map_eq_some_iff] at h
      obtain ⟨s', h1, rfl⟩ := h
      simp only [RootsLt, RootsLtE]
      exact ⟨trivial, ih h1⟩

theorem rootsLt_push : ∀ (xs : List Var) (k : Nat) (s : CStmt), RootsLt n s → k + xs.length ≤ n → RootsLt n (pushAux xs k s).1
  | [], _, s, h, _ => by simpa [pushAux] using h
  | x :: xs, k, s, h, hk => by
    simp only [pushAux]
    simp only [List.length_cons] at hk
    exact rootsLt_push xs (k + 1) _ (by simp only [RootsLt, RootsLtE]; exact ⟨⟨by omega, trivial⟩, h⟩) (by omega)

theorem rootsLt_pop : ∀ (xs : List Var) (k : Nat) (s : CStmt), RootsLt n s → k + xs.length ≤ n → RootsLt n (popAux xs k s)
  | [], _, s, h, _ => by simpa [popAux] using h
  | x :: xs, k, s, h, hk => by
    simp only [popAux]
    simp only [List.length_cons] at hk
    exact rootsLt_pop xs (k + 1) _ (by simp only [RootsLt, RootsLtE]; exact ⟨by omega, h⟩) (by omega)

theorem rootsLt_update {k : Nat} (h : k ≤ n) : RootsLt n (updateStack k) := by
  unfold updateStack; split <;> simp [RootsLt, h]

theorem rootsLt_set {k b} : RootsLt n (setStack k b) := by unfold setStack; split <;> simp [RootsLt]

theorem rootsLt_reset {k b} : RootsLt n (resetStack k b) := by unfold resetStack; split <;> simp [RootsLt]

theorem rootsLt_gc {m : Nat} {xs : List Var} {off : Nat} (h : (gcCall m xs off).2 ≤ n) : RootsLt n (gcCall m xs off).1 := by
  rw [gcCall_snd] at h
  unfold gcCall
  split
  · simp [RootsLt]
  · rename_i hm
    rw [if_neg hm] at h
    have h2 : (pushVars off xs).2 = off + xs.length := by rw [pushVars, pushAux_snd]
    simp only [RootsLt, h2]
    exact ⟨⟨rootsLt_push xs off .skip (by simp [RootsLt]) h, rootsLt_update h, rootsLt_set⟩, trivial, trivial,
      ⟨rootsLt_pop xs off .skip (by simp [RootsLt]) h, rootsLt_reset⟩, trivial, trivial⟩

theorem rootsLt_around {x : Var} {e' : Exp} {pre c : CStmt} (hp : RootsLt n pre) (hc : RootsLt n c)
    (h : (aroundCall loc x e' pre c).2 ≤ n) : RootsLt n (aroundCall loc x e' pre c).1 := by
  have h2 : ∀ xs : List Var, (pushVars 0 xs).2 = xs.length := fun xs => by rw [pushVars, pushAux_snd, Nat.zero_add]
  unfold aroundCall at h ⊢
  simp only [h2] at h ⊢
  have hg := h
  rw [gcCall_snd] at h
  have hle : (elements ((e'.fv ∩ loc).erase x)).length ≤ n := by split at h <;> omega
  simp only [RootsLt]
  exact ⟨hp, trivial, trivial, ⟨rootsLt_push _ 0 .skip (by simp [RootsLt]) (by omega), rootsLt_update hle, rootsLt_set⟩, hc,
    trivial, trivial, rootsLt_gc hg, rootsLt_pop _ 0 .skip (by simp [RootsLt]) (by omega), rootsLt_reset⟩

theorem rootsLt_prim (x : Var) (p : PVal) : RootsLt n (compilePrim x p) := by
  have hst : ∀ (ws : List Nat) (i : Nat) (acc : CStmt), RootsLt n acc → RootsLt n (storeWords x i ws acc) := by
    intro ws
    induction ws with
    | nil => intro i acc h; simpa [storeWords] using h
    | cons w ws ih =>
      intro i acc h
      simp only [storeWords]
      exact ih _ _ (by simp only [RootsLt, RootsLtE]; exact ⟨h, trivial⟩)
  cases p with
  | int n => simp [compilePrim, RootsLt, RootsLtE]
  | float b => simp [compilePrim, RootsLt, RootsLtE]
  | str s =>
    simp only [compilePrim, RootsLt, RootsLtE]
    exact ⟨trivial, trivial, hst _ _ _ (by simp [RootsLt, RootsLtE])⟩

mutual
theorem rootsLt_trE : ∀ (e : Exp) (sl : Nat) (s : CStmt) (n : Nat), trE C fenv fns loc e sl = some (s, n) → RootsLt n s
  | .constr x t ys e, sl, s, n, htr => by
    simp only [trE] at htr
    split at htr
    case h_2 => cases htr
    rename_i p s' n' hp htr'
    simp only [Option.some.injEq, Prod.mk.injEq] at htr
    obtain ⟨rfl, rfl⟩ := htr
    simp only [RootsLt]
    refine ⟨?_, rootsLt_trE e _ _ _ htr'⟩
    unfold assignConstructor at hp
    split at hp
    · cases hp; simp [RootsLt, RootsLtE]
    · cases hp; simp only [RootsLt, RootsLtE]; exact ⟨trivial, trivial, trivial, rootsLt_fields x ys 0⟩
    · cases hp
  | .case x bs, sl, s, n, htr => by
    simp only [trE] at htr
    split at htr
    case h_2 => cases htr
    rename_i ls ls' n' htr'
    simp only [Option.some.injEq, Prod.mk.injEq] at htr
    obtain ⟨rfl, rfl⟩ := htr
    simp only [caseSwitch, RootsLt]
    exact rootsLt_trBs bs _ _ _ _ htr'
  | .proj x t k y e, sl, s, n, htr => by
    simp only [trE] at htr
    split at htr
    case h_2 => cases htr
    rename_i s' n' htr'
    simp only [Option.some.injEq, Prod.mk.injEq] at htr
    obtain ⟨rfl, rfl⟩ := htr
    simp only [RootsLt, RootsLtE]
    exact ⟨trivial, rootsLt_trE e _ _ _ htr'⟩
  | .letapp x f ft ys e, sl, s, n, htr => by
    simp only [trE] at htr
    split at htr
    case h_2 => cases htr
    split at htr
    case h_2 => cases htr
    rename_i asgn c hasgn hmk
    split at htr
    case h_2 => cases htr
    rename_i s' n' htr'
    simp only [Option.some.injEq, Prod.mk.injEq] at htr
    obtain ⟨rfl, rfl⟩ := htr
    have hm := trE_mono e _ _ _ htr'
    simp only [RootsLt]
    refine ⟨rootsLt_around ?_ ?_ ?_, rootsLt_trE e _ _ _ htr'⟩
    · simp only [asgnAppVars, Option.map_eq_some_iff] at hasgn
      obtain ⟨a, ha, rfl⟩ := hasgn
      simp only [RootsLt]; exact ⟨trivial, rootsLt_app ha⟩
    · simp only [mkCall, Option.map_eq_some_iff] at hmk
      obtain ⟨es, he, rfl⟩ := hmk
      simp only [RootsLt]; exact ⟨rootsLt_makeVar f, rootsLt_callVars he⟩
    · have := Nat.le_max_right sl (aroundCall loc x e asgn c).2; omega
  | .fn _ _, sl, s, n, htr => by simp [trE] at htr
  | .app f ft ys, sl, s, n, htr => by
    simp only [trE] at htr
    split at htr
    case h_2 => cases htr
    split at htr
    case h_2 => cases htr
    rename_i asgn c hasgn hmk
    simp only [Option.some.injEq, Prod.mk.injEq] at htr
    obtain ⟨rfl, rfl⟩ := htr
    simp only [asgnAppVars, Option.map_eq_some_iff] at hasgn
    obtain ⟨a, ha, rfl⟩ := hasgn
    simp only [mkCall, Option.map_eq_some_iff] at hmk
    obtain ⟨es, he, rfl⟩ := hmk
    simp only [RootsLt]
    exact ⟨⟨trivial, rootsLt_app ha⟩, trivial, trivial, ⟨rootsLt_makeVar f, rootsLt_callVars he⟩, rootsLt_makeVar _⟩
  | .primVal x p e, sl, s, n, htr => by
    simp only [trE] at htr
    split at htr
    case h_2 => cases htr
    rename_i s' n' htr'
    simp only [Option.some.injEq, Prod.mk.injEq] at htr
    obtain ⟨rfl, rfl⟩ := htr
    simp only [RootsLt]
    exact ⟨rootsLt_prim x p, rootsLt_trE e _ _ _ htr'⟩
  | .prim x p ys e, sl, s, n, htr => by
    simp only [trE] at htr
    split at htr
    · rename_i as hpr has
      split at htr
      case h_2 => cases htr
      rename_i s' n' htr'
      simp only [Option.some.injEq, Prod.mk.injEq] at htr
      obtain ⟨rfl, rfl⟩ := htr
      simp only [RootsLt]
      exact ⟨rootsLt_callVars has, rootsLt_trE e _ _ _ htr'⟩
    · rename_i as hpr has
      split at htr
      case h_2 => cases htr
      rename_i s' n' htr'
      simp only [Option.some.injEq, Prod.mk.injEq] at htr
      obtain ⟨rfl, rfl⟩ := htr
      have hm := trE_mono e _ _ _ htr'
      simp only [RootsLt]
      refine ⟨rootsLt_around (by simp [RootsLt]) (by simp only [RootsLt]; exact rootsLt_callVars has) ?_, rootsLt_trE e _ _ _ htr'⟩
      have := Nat.le_max_right sl (aroundCall loc x e .skip (.primT x p as)).2; omega
    · cases htr
  | .halt x, sl, s, n, htr => by
    simp only [trE, Option.some.injEq, Prod.mk.injEq] at htr
    obtain ⟨rfl, rfl⟩ := htr
    simp only [RootsLt]
    exact ⟨trivial, trivial, rootsLt_makeVar x⟩
theorem rootsLt_trBs : ∀ (bs : Brs) (sl : Nat) (ls ls' : LStmt) (n : Nat), trBs C fenv fns loc bs sl = some (ls, ls', n) →
    RootsLtL n ls ∧ RootsLtL n ls'
  | .nil, sl, ls, ls', n, htr => by
    simp only [trBs, Option.some.injEq, Prod.mk.injEq] at htr
    obtain ⟨rfl, rfl, rfl⟩ := htr
    simp [RootsLtL]
  | .cons t e bs, sl, ls, ls', n, htr => by
    simp only [trBs] at htr
    split at htr
    case h_2 => cases htr
    rename_i s n1 l1 l2 n2 he hbs
    have h1 := rootsLt_trE e _ _ _ he
    obtain ⟨h2, h3⟩ := rootsLt_trBs bs _ _ _ _ hbs
    have h1' := RootsLt.mono (Nat.le_max_left n1 n2) _ h1
    have h2' := RootsLtL.mono (Nat.le_max_right n1 n2) _ h2
    have h3' := RootsLtL.mono (Nat.le_max_right n1 n2) _ h3
    split at htr
    · split at htr
      all_goals
        simp only [Option.some.injEq, Prod.mk.injEq] at htr
        obtain ⟨rfl, rfl, rfl⟩ := htr
        refine ⟨?_, h3'⟩
        simp only [RootsLtL, RootsLt] at h2' ⊢
        simp [h1', h2']
    · split at htr
      all_goals
        simp only [Option.some.injEq, Prod.mk.injEq] at htr
        obtain ⟨rfl, rfl, rfl⟩ := htr
        refine ⟨h2', ?_⟩
        simp only [RootsLtL, RootsLt] at h3' ⊢
        simp [h1', h3']
    · cases htr
end

theorem rootsLt_trDefs : ∀ {B : Defs} {P}, trDefs C fenv fns B = some P → ∀ F ∈ P, RootsLt F.rootSize F.body := by
  intro B
  induction B using Defs.ind with
  | nil => intro P h; simp only [trDefs, Option.some.injEq] at h; subst h; simp
  | cons f ft xs e B ih =>
    intro P h
    simp only [trDefs] at h
    split at h
    case h_2 => cases h
    rename_i P' F' h1 h2
    simp only [Option.some.injEq] at h
    subst h
    intro F hF
    simp only [List.mem_cons] at hF
    rcases hF with rfl | hF
    · simp only [trDef] at h2
      split at h2
      · cases h2
      split at h2
      case h_2 => cases h2
      rename_i asgn body n hasgn htr
      simp only [Option.some.injEq] at h2
      subst h2
      simp only [RootsLt]
      refine ⟨trivial, trivial, trivial, rootsLt_fun hasgn, trivial, rootsLt_gc ?_,
        (rootsLt_trE e _ _ _ htr).mono (Nat.le_max_right _ _)⟩
      rw [gcCall_snd]
      split <;> omega
    · exact ih h1 F hF

theorem branch_mem {cenv ar} : ∀ {bs : Brs} {t : Tag} {e : Exp}, (t, e) ∈ bs.toList → OkBs cenv ar bs →
    OkE cenv ar e ∧ maxAllocsE e ≤ maxAllocsBs bs := by
  intro bs
  induction bs using Brs.ind with
  | nil => intro t e h; simp [Brs.toList] at h
  | cons t' e' bs ih =>
    intro t e h hok
    simp only [Brs.toList, List.mem_cons, Prod.mk.injEq] at h
    simp only [OkBs] at hok
    simp only [maxAllocsBs]
    rcases h with ⟨rfl, rfl⟩ | h
    · exact ⟨hok.2.1, by omega⟩
    · obtain ⟨h1, h2⟩ := ih h hok.2.2
      exact ⟨h1, by omega⟩

theorem needs_le {prims cenv ar} {e : Exp} {k : Nat} (h : Needs prims e k) : OkE cenv ar e → k ≤ maxAllocsE e := by
  induction h with
  | enum _ ih => intro hok; simp only [OkE] at hok; simp only [maxAllocsE]; exact ih hok.2
  | boxed _ ih =>
    intro hok; simp only [OkE] at hok; simp only [maxAllocsE, List.length_cons]; have := ih hok.2; omega
  | case hm _ ih =>
    intro hok; simp only [OkE] at hok; simp only [maxAllocsE]
    obtain ⟨h1, h2⟩ := branch_mem hm hok
    exact (ih h1).trans h2
  | proj _ ih => intro hok; simp only [OkE] at hok; simp only [maxAllocsE]; exact ih hok
  | letapp => intro _; exact Nat.zero_le _
  | app => intro _; exact Nat.zero_le _
  | int _ ih => intro hok; simp only [OkE] at hok; simp only [maxAllocsE]; exact ih hok.2
  | float _ _ => intro hok; simp [OkE] at hok
  | str _ _ => intro hok; simp [OkE] at hok
  | pure _ _ ih => intro hok; simp only [OkE] at hok; simp only [maxAllocsE]; exact ih hok
  | heap _ => intro _; exact Nat.zero_le _
  | halt => intro _; exact Nat.zero_le _

end CGen
