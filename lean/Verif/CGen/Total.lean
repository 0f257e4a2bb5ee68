import Verif.CGen.Prog
import Verif.Ctor.Lemmas

/-! # The translation succeeds, and the compiler's constructor environment is as it has to be -/

namespace CGen

open ANF

variable {C : Cfg} {fenv : FEnv} {loc : Finset Var} {ar : Tag → Nat} {cenv : Ctor.PMap Ctor.Info} {fns : List Var}

mutual
/-- Functions are not nested (as after closure conversion and hoisting) and all primitives are known. -/
def FlatE (prims : Tag → Option Bool) : Exp → Prop
  | .constr _ _ _ e => FlatE prims e
  | .case _ bs => FlatBs prims bs
  | .proj _ _ _ _ e => FlatE prims e
  | .letapp _ _ _ _ e => FlatE prims e
  | .fn _ _ => False
  | .app _ _ _ => True
  | .primVal _ _ e => FlatE prims e
  | .prim _ p _ e => (∃ b, prims p = some b) ∧ FlatE prims e
  | .halt _ => True
/-- The same for branches. -/
def FlatBs (prims : Tag → Option Bool) : Brs → Prop
  | .nil => True
  | .cons _ e bs => FlatE prims e ∧ FlatBs prims bs
end

/-- The same for the functions of a program. -/
def FlatB (prims : Tag → Option Bool) : Defs → Prop
  | .nil => True
  | .cons _ _ _ e B => FlatE prims e ∧ FlatB prims B

mutual
/-- The tags of all calls and functions are known. -/
def KnownE (m : FEnv) : Exp → Prop
  | .constr _ _ _ e => KnownE m e
  | .case _ bs => KnownBs m bs
  | .proj _ _ _ _ e => KnownE m e
  | .letapp _ _ t _ e => (∃ p, m t = some p) ∧ KnownE m e
  | .fn B e => KnownB m B ∧ KnownE m e
  | .app _ t _ => ∃ p, m t = some p
  | .primVal _ _ e => KnownE m e
  | .prim _ _ _ e => KnownE m e
  | .halt _ => True
/-- The same for branches. -/
def KnownBs (m : FEnv) : Brs → Prop
  | .nil => True
  | .cons _ e bs => KnownE m e ∧ KnownBs m bs
/-- The same for functions. -/
def KnownB (m : FEnv) : Defs → Prop
  | .nil => True
  | .cons _ t _ e B => (∃ p, m t = some p) ∧ KnownE m e ∧ KnownB m B
end

/-- One environment knows every tag another one knows. -/
def Dom (m m' : FEnv) : Prop := ∀ t, (∃ p, m t = some p) → ∃ p, m' t = some p

theorem Dom.refl {m} : Dom m m := fun _ h => h

theorem Dom.trans {m m' m''} (h : Dom m m') (h' : Dom m' m'') : Dom m m'' := fun t ht => h' t (h t ht)

theorem Dom.set {m t p} : Dom m (m.set t p) := by
  intro u hu
  unfold FEnv.set
  split
  · exact ⟨_, rfl⟩
  · exact hu

theorem FEnv.set_known {m : FEnv} {t p} : ∃ q, m.set t p t = some q := ⟨p, by simp [FEnv.set]⟩

theorem Dom.foldl {n} (h : ∀ e m, Dom m (funEnvE n e m)) : ∀ (l : List (Tag × Exp)) m,
    Dom m (l.foldl (fun p te => funEnvE n te.2 p) m)
  | [], _ => .refl
  | te :: l, m => by
    simp only [List.foldl_cons]
    exact (h te.2 m).trans (Dom.foldl h l _)

theorem funEnv_dom : ∀ n, (∀ e m, Dom m (funEnvE n e m)) ∧ ∀ B m, Dom m (funEnvB n B m) := by
  intro n
  induction n with
  | zero => exact ⟨fun e m => by simp only [funEnvE]; exact .refl, fun B m => by simp only [funEnvB]; exact .refl⟩
  | succ n ih =>
    refine ⟨fun e m => ?_, fun B m => ?_⟩
    · cases e <;> simp only [funEnvE]
      case constr => exact ih.1 _ _
      case case => exact .foldl ih.1 _ _
      case proj => exact ih.1 _ _
      case letapp => exact Dom.set.trans (ih.1 _ _)
      case fn => exact (ih.2 _ _).trans (ih.1 _ _)
      case app => exact .set
      case primVal => exact ih.1 _ _
      case prim => exact ih.1 _ _
      case halt => exact .refl
    · cases B <;> simp only [funEnvB]
      case nil => exact .refl
      case cons => exact Dom.set.trans ((ih.1 _ _).trans (ih.2 _ _))

mutual
theorem KnownE.mono {m m'} (h : Dom m m') : ∀ e, KnownE m e → KnownE m' e
  | .constr _ _ _ e => by simp only [KnownE]; exact KnownE.mono h e
  | .case _ bs => by simp only [KnownE]; exact KnownBs.mono h bs
  | .proj _ _ _ _ e => by simp only [KnownE]; exact KnownE.mono h e
  | .letapp _ _ t _ e => by simp only [KnownE]; exact fun hk => ⟨h t hk.1, KnownE.mono h e hk.2⟩
  | .fn B e => by simp only [KnownE]; exact fun hk => ⟨KnownB.mono h B hk.1, KnownE.mono h e hk.2⟩
  | .app _ t _ => by simp only [KnownE]; exact h t
  | .primVal _ _ e => by simp only [KnownE]; exact KnownE.mono h e
  | .prim _ _ _ e => by simp only [KnownE]; exact KnownE.mono h e
  | .halt _ => by simp [KnownE]
theorem KnownBs.mono {m m'} (h : Dom m m') : ∀ bs, KnownBs m bs → KnownBs m' bs
  | .nil => by simp [KnownBs]
  | .cons _ e bs => by simp only [KnownBs]; exact fun hk => ⟨KnownE.mono h e hk.1, KnownBs.mono h bs hk.2⟩
theorem KnownB.mono {m m'} (h : Dom m m') : ∀ B, KnownB m B → KnownB m' B
  | .nil => by simp [KnownB]
  | .cons _ t _ e B => by
    simp only [KnownB]; exact fun hk => ⟨h t hk.1, KnownE.mono h e hk.2.1, KnownB.mono h B hk.2.2⟩
end

theorem maxDepthBs_le : ∀ (bs : Brs) (a n : Nat), maxDepthBs bs a ≤ n → a ≤ n ∧ ∀ te ∈ bs.toList, maxDepthE te.2 ≤ n := by
  intro bs
  induction bs using Brs.ind with
  | nil => intro a n h; simpa [maxDepthBs, Brs.toList] using h
  | cons t e bs ih =>
    intro a n h
    simp only [maxDepthBs] at h
    obtain ⟨h1, h2⟩ := ih _ _ h
    refine ⟨by omega, ?_⟩
    intro te hte
    simp only [Brs.toList, List.mem_cons] at hte
    rcases hte with rfl | hte
    · simp only; omega
    · exact h2 te hte

theorem knownBs_foldl {n} (h : ∀ e m, maxDepthE e ≤ n → KnownE (funEnvE n e m) e) : ∀ (bs : Brs) m,
    (∀ te ∈ bs.toList, maxDepthE te.2 ≤ n) → KnownBs (bs.toList.foldl (fun p te => funEnvE n te.2 p) m) bs := by
  intro bs
  induction bs using Brs.ind with
  | nil => intro m _; simp [KnownBs]
  | cons t e bs ih =>
    intro m hd
    simp only [Brs.toList, List.foldl_cons, KnownBs]
    refine ⟨KnownE.mono (.foldl (funEnv_dom n).1 _ _) e (h e m (hd (t, e) (by simp [Brs.toList]))), ih _ ?_⟩
    intro te hte
    exact hd te (by simp [Brs.toList, hte])

/-- `compute_fun_env` has enough fuel to see every function and every call. -/
theorem funEnv_known : ∀ n, (∀ e m, maxDepthE e ≤ n → KnownE (funEnvE n e m) e) ∧
    ∀ B m, maxDepthB B ≤ n → KnownB (funEnvB n B m) B := by
  intro n
  induction n with
  | zero =>
    refine ⟨fun e m h => ?_, fun B m h => ?_⟩
    · cases e <;> simp [maxDepthE] at h
    · cases B <;> simp [maxDepthB] at h
  | succ n ih =>
    refine ⟨fun e m h => ?_, fun B m h => ?_⟩
    · cases e <;> simp only [maxDepthE] at h <;> simp only [funEnvE, KnownE]
      case constr => exact ih.1 _ _ (by omega)
      case case x bs => exact knownBs_foldl ih.1 bs m (maxDepthBs_le bs 1 n (by omega)).2
      case proj => exact ih.1 _ _ (by omega)
      case letapp => exact ⟨(funEnv_dom n).1 _ _ _ FEnv.set_known, ih.1 _ _ (by omega)⟩
      case fn B e => exact ⟨KnownB.mono ((funEnv_dom n).1 _ _) B (ih.2 _ _ (by omega)), ih.1 _ _ (by omega)⟩
      case app => exact FEnv.set_known
      case primVal => exact ih.1 _ _ (by omega)
      case prim => exact ih.1 _ _ (by omega)
    · cases B <;> simp only [maxDepthB] at h <;> simp only [funEnvB, KnownB]
      case cons f t xs e B =>
        exact ⟨(funEnv_dom n).2 _ _ _ ((funEnv_dom n).1 _ _ _ FEnv.set_known),
          KnownE.mono ((funEnv_dom n).2 _ _) e (ih.1 _ _ (by omega)), ih.2 _ _ (by omega)⟩

theorem asgnAppVars'_total : ∀ (ys : List Var) (s0 : Nat), ∃ s, asgnAppVars' fns ys (List.range' s0 ys.length) = some s := by
  intro ys
  induction ys with
  | nil => intro s0; exact ⟨.skip, by simp [asgnAppVars']⟩
  | cons y ys ih =>
    intro s0
    obtain ⟨s, hs⟩ := ih (s0 + 1)
    simp only [List.length_cons, List.range'_succ, asgnAppVars', hs, Option.map_some]
    exact ⟨_, rfl⟩

theorem asgnFunVars'_total : ∀ (ys : List Var) (s0 : Nat), ∃ s, asgnFunVars' ys (List.range' s0 ys.length) = some s := by
  intro ys
  induction ys with
  | nil => intro s0; exact ⟨.skip, by simp [asgnFunVars']⟩
  | cons y ys ih =>
    intro s0
    obtain ⟨s, hs⟩ := ih (s0 + 1)
    simp only [List.length_cons, List.range'_succ, asgnFunVars', hs, Option.map_some]
    exact ⟨_, rfl⟩

theorem mkCallVars_total : ∀ (ys : List Var), ∃ s, mkCallVars fns ys.length ys = some s := by
  intro ys
  induction ys with
  | nil => exact ⟨[], by simp [mkCallVars]⟩
  | cons y ys ih =>
    obtain ⟨s, hs⟩ := ih
    simp only [List.length_cons, mkCallVars, hs, Option.map_some]
    exact ⟨_, rfl⟩

theorem call_total {ft : Tag} {ys : List Var} {np : Nat} {x : Var} {g : CExpr} (hl : ys.length = ar ft) :
    (∃ s, asgnAppVars np fns ys (List.range (ar ft)) = some s) ∧ ∃ c, mkCall np fns x g (min (ar ft) np) ys = some c := by
  constructor
  · obtain ⟨s, hs⟩ := asgnAppVars'_total (fns := fns) (ys.drop np) np
    simp only [asgnAppVars, drop_range]
    rw [← hl, ← List.length_drop, hs]
    exact ⟨_, rfl⟩
  · obtain ⟨s, hs⟩ := mkCallVars_total (fns := fns) (ys.take np)
    simp only [mkCall]
    rw [← hl, Nat.min_comm, ← List.length_take, hs]
    exact ⟨_, rfl⟩

mutual
theorem trE_total (hfe : FenvOk ar fenv) : ∀ (e : Exp) (sl : Nat), OkE C.cenv ar e → FlatE C.prims e → KnownE fenv e →
    ∃ r, trE C fenv fns loc e sl = some r
  | .constr x t ys e, sl, hok, hfl, hk => by
    simp only [OkE] at hok; simp only [FlatE] at hfl; simp only [KnownE] at hk
    obtain ⟨⟨s, n⟩, hs⟩ := trE_total hfe e sl hok.2 hfl hk
    obtain ⟨i, hi, _⟩ := hok.1
    simp only [trE, hs, assignConstructor, ctorRep, hi]
    by_cases ha : i.arity = 0
    · rw [if_pos ha]; exact ⟨_, rfl⟩
    · rw [if_neg ha]; exact ⟨_, rfl⟩
  | .case x bs, sl, hok, hfl, hk => by
    simp only [OkE] at hok; simp only [FlatE] at hfl; simp only [KnownE] at hk
    obtain ⟨⟨a, b, n⟩, hs⟩ := trBs_total hfe bs sl hok hfl hk
    simp only [trE, hs]; exact ⟨_, rfl⟩
  | .proj x t k y e, sl, hok, hfl, hk => by
    simp only [OkE] at hok; simp only [FlatE] at hfl; simp only [KnownE] at hk
    obtain ⟨⟨s, n⟩, hs⟩ := trE_total hfe e sl hok hfl hk
    simp only [trE, hs]; exact ⟨_, rfl⟩
  | .letapp x f ft ys e, sl, hok, hfl, hk => by
    simp only [OkE] at hok; simp only [FlatE] at hfl; simp only [KnownE] at hk
    obtain ⟨⟨a, ind⟩, hp⟩ := hk.1
    obtain ⟨rfl, rfl⟩ := hfe ft a ind hp
    obtain ⟨⟨asgn, h1⟩, c, h2⟩ := call_total (fns := fns) (np := C.nParam) (x := x) (g := makeVar fns f) hok.1
    obtain ⟨⟨s, n⟩, hs⟩ := trE_total hfe e (max sl (aroundCall loc x e asgn c).2) hok.2 hfl hk.2
    simp only [trE, hp, h1, h2, hs]; exact ⟨_, rfl⟩
  | .fn _ _, sl, hok, hfl, hk => by simp only [FlatE] at hfl
  | .app f ft ys, sl, hok, hfl, hk => by
    simp only [OkE] at hok; simp only [KnownE] at hk
    obtain ⟨⟨a, ind⟩, hp⟩ := hk
    obtain ⟨rfl, rfl⟩ := hfe ft a ind hp
    obtain ⟨⟨asgn, h1⟩, c, h2⟩ := call_total (fns := fns) (np := C.nParam) (x := C.result) (g := makeVar fns f) hok
    simp only [trE, hp, h1, h2]; exact ⟨_, rfl⟩
  | .primVal x p e, sl, hok, hfl, hk => by
    simp only [OkE] at hok; simp only [FlatE] at hfl; simp only [KnownE] at hk
    obtain ⟨⟨s, n⟩, hs⟩ := trE_total hfe e sl hok.2 hfl hk
    simp only [trE, hs]; exact ⟨_, rfl⟩
  | .prim x p ys e, sl, hok, hfl, hk => by
    simp only [OkE] at hok; simp only [FlatE] at hfl; simp only [KnownE] at hk
    obtain ⟨b, hb⟩ := hfl.1
    obtain ⟨as, has⟩ := mkCallVars_total (fns := fns) ys
    cases b with
    | false =>
      obtain ⟨⟨s, n⟩, hs⟩ := trE_total hfe e sl hok hfl.2 hk
      simp only [trE, hb, has, hs]; exact ⟨_, rfl⟩
    | true =>
      obtain ⟨⟨s, n⟩, hs⟩ := trE_total hfe e (max sl (aroundCall loc x e .skip (.primT x p as)).2) hok hfl.2 hk
      simp only [trE, hb, has, hs]; exact ⟨_, rfl⟩
  | .halt x, sl, _, _, _ => by simp only [trE]; exact ⟨_, rfl⟩
theorem trBs_total (hfe : FenvOk ar fenv) : ∀ (bs : Brs) (sl : Nat), OkBs C.cenv ar bs → FlatBs C.prims bs →
    KnownBs fenv bs → ∃ r, trBs C fenv fns loc bs sl = some r
  | .nil, sl, _, _, _ => by simp only [trBs]; exact ⟨_, rfl⟩
  | .cons t e bs, sl, hok, hfl, hk => by
    simp only [OkBs] at hok; simp only [FlatBs] at hfl; simp only [KnownBs] at hk
    obtain ⟨⟨s, n⟩, hs⟩ := trE_total hfe e sl hok.2.1 hfl.1 hk.1
    obtain ⟨⟨a, b, m⟩, hb⟩ := trBs_total hfe bs sl hok.2.2 hfl.2 hk.2
    obtain ⟨i, hi⟩ := hok.1
    simp only [trBs, hs, hb, ctorRep, hi]
    by_cases ha : i.arity = 0
    · rw [if_pos ha]; cases b <;> exact ⟨_, rfl⟩
    · rw [if_neg ha]; cases a <;> exact ⟨_, rfl⟩
end

theorem trDefs_total (hfe : FenvOk ar fenv) : ∀ (B : Defs), OkB C.cenv ar B → FlatB C.prims B → KnownB fenv B →
    (∃ P, trDefs C fenv fns B = some P) ∧ infoOk fenv B = true := by
  intro B
  induction B using Defs.ind with
  | nil => intro _ _ _; exact ⟨⟨[], by simp [trDefs]⟩, rfl⟩
  | cons f ft xs e B ih =>
    intro hok hfl hk
    simp only [OkB] at hok; simp only [FlatB] at hfl; simp only [KnownB] at hk
    obtain ⟨⟨P, hP⟩, hi⟩ := ih hok.2.2 hfl.2 hk.2.2
    obtain ⟨⟨a, ind⟩, hp⟩ := hk.1
    obtain ⟨rfl, rfl⟩ := hfe ft a ind hp
    obtain ⟨⟨s, n⟩, hs⟩ := trE_total (fns := fns) (loc := xs.toFinset ∪ (localsE e).toFinset) hfe e 0 hok.2.1 hfl.1 hk.2.1
    obtain ⟨asgn, ha⟩ := asgnFunVars'_total (xs.drop C.nParam) C.nParam
    have ha' : asgnFunVars C.nParam xs (List.range (ar ft)) = some asgn := by
      simp only [asgnFunVars, drop_range]
      rw [← hok.1, ← List.length_drop]
      exact ha
    constructor
    · simp only [trDefs, hP, trDef, hp, ha', hs]; exact ⟨_, rfl⟩
    · simp only [infoOk, hp, hi, Option.isSome_some, Bool.and_self]

/-- Programs without nested functions are compiled. -/
theorem compileC_total {B : Defs} {e : Exp} {body : Var} (hok : OkE C.cenv ar (.fn B e)) (hB : FlatB C.prims B)
    (he : FlatE C.prims e) : ∃ M, compileC C body (.fn B e) = some M := by
  have hfe : FenvOk ar (funEnv (.fn B e)) := funEnv_ok hok
  have hk : KnownE (funEnv (.fn B e)) (.fn B e) := (funEnv_known _).1 _ _ (Nat.le_refl _)
  simp only [KnownE] at hk
  simp only [OkE] at hok
  obtain ⟨⟨P, hP⟩, hi⟩ := trDefs_total (fns := B.names) hfe B hok.1 hB hk.1
  obtain ⟨⟨s, n⟩, hs⟩ := trE_total (fns := B.names) (loc := (localsE e).toFinset) hfe e 0 hok.2 he hk.2
  simp only [compileC, hi, if_true, hP, hs]
  exact ⟨_, rfl⟩

/-- Adding a constructor that is alone in its type, as closure conversion does for closures and environments. -/
theorem CtorsOk.record (h : CtorsOk cenv) {t : Nat} {i : Ctor.Info} (hfresh : ∀ u j, cenv u = some j → j.indTag ≠ i.indTag)
    (h0 : i.ordinal = 0) : CtorsOk (Ctor.PMap.set t i cenv) := by
  constructor
  · intro u j hj ha
    unfold Ctor.PMap.set at hj
    split at hj
    · cases hj; omega
    · exact h.small u j hj ha
  · intro u u' j j' hj hj' h1 h2 h3
    unfold Ctor.PMap.set at hj hj'
    split at hj <;> split at hj'
    · omega
    · cases hj; exact absurd h1.symm (hfresh u' j' hj')
    · cases hj'; exact absurd h1 (hfresh u j hj)
    · exact h.distinct u u' j j' hj hj' h1 h2 h3

/-- What holds of the constructor environment while the types of a program are processed. -/
structure CInv (ice : Ctor.Env) : Prop extends CtorsOk ice.ce where
  tag : ∀ t i, ice.ce t = some i → t < ice.ncT ∧ i.indTag < ice.niT

theorem CInv.step {ice : Ctor.Env} (h : CInv ice) (x : Ctor.Flat) (hb : Ctor.boxedCount x.2.2.ctors ≤ 251) :
    CInv (Ctor.stepTy ice x) := by
  obtain ⟨s1, s2, s3, s4, _⟩ := Ctor.stepTy_eq ice x
  have key : ∀ t i, (Ctor.stepTy ice x).ce t = some i → ice.ce t = some i ∧ t < ice.ncT ∨
      ∃ j c, x.2.2.ctors[j]? = some c ∧ t = ice.ncT + j ∧ i.indTag = ice.niT ∧ i.arity = c.arity ∧
        i.ordinal = Ctor.specOrdinal x.2.2.ctors j := by
    intro t i ht
    by_cases hlt : t < ice.ncT
    · left; rw [s3 t (.inl hlt)] at ht; exact ⟨ht, hlt⟩
    by_cases hge : ice.ncT + x.2.2.ctors.length ≤ t
    · rw [s3 t (.inr hge)] at ht; exact absurd (h.tag t i ht).1 (by omega)
    · right
      have hj : x.2.2.ctors[t - ice.ncT]? = some (x.2.2.ctors[t - ice.ncT]'(by omega)) := List.getElem?_eq_getElem (by omega)
      have := s4 _ _ hj
      rw [show ice.ncT + (t - ice.ncT) = t by omega, ht] at this
      cases this
      exact ⟨_, _, hj, by omega, rfl, rfl, rfl⟩
  refine ⟨⟨?_, ?_⟩, ?_⟩
  · intro t i ht ha
    rcases key t i ht with h1 | ⟨j, c, h1, _, _, h2, h3⟩
    · exact h.small t i h1.1 ha
    · rw [h3]
      have := Ctor.ordFrom_lt_boxed x.2.2.ctors j c h1 (by omega)
      omega
  · intro t t' i i' ht ht' e1 e2 e3
    rcases key t i ht with h1 | ⟨j, c, h1, a1, a2, a3, a4⟩ <;> rcases key t' i' ht' with h1' | ⟨j', c', h1', b1, b2, b3, b4⟩
    · exact h.distinct t t' i i' h1.1 h1'.1 e1 e2 e3
    · have := (h.tag t i h1.1).2; omega
    · have := (h.tag t' i' h1'.1).2; omega
    · rw [a3, b3] at e2
      have : j = j' := by
        rcases Nat.lt_trichotomy j j' with hlt | heq | hgt
        · have := Ctor.specOrdinal_strict x.2.2.ctors j j' c c' h1 h1' e2 hlt; omega
        · exact heq
        · have := Ctor.specOrdinal_strict x.2.2.ctors j' j c' c h1' h1 e2.symm hgt; omega
      omega
  · intro t i ht
    rw [s1, s2]
    rcases key t i ht with h1 | ⟨j, c, h1, a1, a2, _, _⟩
    · have := h.tag t i h1.1; omega
    · have := (List.getElem?_eq_some_iff.1 h1).1; omega

theorem CInv.fold : ∀ (fl : List Ctor.Flat) (ice : Ctor.Env), CInv ice → (∀ x ∈ fl, Ctor.boxedCount x.2.2.ctors ≤ 251) →
    CInv (fl.foldl Ctor.stepTy ice)
  | [], _, h, _ => h
  | x :: fl, ice, h, hb => by
    simp only [List.foldl_cons]
    exact CInv.fold fl _ (h.step x (hb x (by simp))) (fun y hy => hb y (by simp [hy]))

/-- The constructor environment the compiler builds is as required if no type has more than 251 constructors with
arguments. -/
theorem ctorsOk_convertEnv (dt di : Nat) (g : List (Ctor.Kername × List Ctor.Ityp))
    (hb : ∀ p ∈ g, ∀ t ∈ p.2, Ctor.boxedCount t.ctors ≤ 251) : CtorsOk (Ctor.convertEnv dt di g).ce := by
  unfold Ctor.convertEnv
  simp only [Ctor.convertEnv'_fold]
  refine (CInv.fold _ _ ?_ ?_).toCtorsOk
  · have key : ∀ t i, (Ctor.PMap.set dt { name := none, indName := none, indTag := di, arity := 0, ordinal := 0 }
        (Ctor.PMap.empty : Ctor.PMap Ctor.Info)) t = some i →
        t = dt ∧ i = ({ name := none, indName := none, indTag := di, arity := 0, ordinal := 0 } : Ctor.Info) := by
      intro t i h
      unfold Ctor.PMap.set at h
      split at h
      · rename_i e; cases h; exact ⟨e, rfl⟩
      · cases h
    refine ⟨⟨?_, ?_⟩, ?_⟩
    · intro t i ht ha; obtain ⟨_, rfl⟩ := key t i ht; exact absurd rfl ha
    · intro t t' i i' ht ht' _ _ _
      rw [(key t i ht).1, (key t' i' ht').1]
    · intro t i ht; obtain ⟨rfl, rfl⟩ := key t i ht; exact ⟨Nat.lt_succ_self _, Nat.lt_succ_self _⟩
  · intro x hx
    simp only [Ctor.flatEnv, List.mem_flatMap] at hx
    obtain ⟨p, hp, hx⟩ := hx
    refine hb p hp x.2.2 ?_
    simp only [Ctor.flatTy, List.mem_map] at hx
    obtain ⟨q, hq, rfl⟩ := hx
    exact List.fst_mem_of_mem_zipIdx hq

end CGen
