import Verif.CGen.Around

/-! # Executing constructor allocation, argument passing and switches -/

namespace CGen

open ANF

variable {cenv : Ctor.PMap Ctor.Info} {B : Defs} {W : World} {call : Nat → Var → List CVal → Th → Out} {me : Nat}
  {fns : List Var}

/-- The word a variable of the source program denotes in the generated code. -/
def valOf (fns : List Var) (l : Loc) (x : Var) : Option CVal := if x ∈ fns then some (.fn x) else l.temps x

theorem evalC_makeVar {l h} (x : Var) : evalC me l h (makeVar fns x) = valOf fns l x := by
  unfold makeVar valOf
  split <;> rfl

theorem valOf_congr {l l' : Loc} {x : Var} (h : l'.temps x = l.temps x) : valOf fns l' x = valOf fns l x := by
  unfold valOf; rw [h]

theorem valOf_setT {l : Loc} {x c} (hx : x ∉ fns) : valOf fns (l.setT x c) x = some c := by
  simp [valOf, hx, Loc.setT]

theorem valOf_other {l : Loc} {x y c} (hxy : y ≠ x) : valOf fns (l.setT x c) y = valOf fns l y :=
  valOf_congr (by simp [Loc.setT, hxy])

/-- Values of a list of variables. -/
def valsOf (fns : List Var) (l : Loc) : List Var → Option (List CVal)
  | [] => some []
  | x :: xs => match valOf fns l x, valsOf fns l xs with
    | some c, some cs => some (c :: cs)
    | _, _ => none

theorem valsOf_some {l} : ∀ {xs : List Var} {cs}, valsOf fns l xs = some cs →
    cs.length = xs.length ∧ ∀ (i : Nat) x, xs[i]? = some x → valOf fns l x = cs[i]? := by
  intro xs
  induction xs with
  | nil => intro cs h; simp only [valsOf, Option.some.injEq] at h; subst h; exact ⟨rfl, fun i x hx => by simp at hx⟩
  | cons x xs ih =>
    intro cs h
    simp only [valsOf] at h
    split at h
    · rename_i c cs' h1 h2
      simp only [Option.some.injEq] at h
      subst h
      obtain ⟨a, b⟩ := ih h2
      refine ⟨by simp [a], fun i y hy => ?_⟩
      cases i with
      | zero => simp only [List.getElem?_cons_zero, Option.some.injEq] at hy ⊢; subst hy; exact h1
      | succ i => simp only [List.getElem?_cons_succ] at hy ⊢; exact b i y hy
    · cases h

theorem valsOf_exists {l} : ∀ {xs : List Var}, (∀ x ∈ xs, ∃ c, valOf fns l x = some c) → ∃ cs, valsOf fns l xs = some cs := by
  intro xs
  induction xs with
  | nil => intro _; exact ⟨[], rfl⟩
  | cons x xs ih =>
    intro h
    obtain ⟨c, hc⟩ := h x (by simp)
    obtain ⟨cs, hcs⟩ := ih (fun y hy => h y (List.mem_cons_of_mem _ hy))
    exact ⟨c :: cs, by simp only [valsOf, hc, hcs]⟩

theorem mkCallVars_spec : ∀ {n : Nat} {vs : List Var} {es}, mkCallVars fns n vs = some es →
    n = vs.length ∧ ∀ {l h cs}, valsOf fns l vs = some cs → evalCs me l h es = some cs := by
  intro n
  induction n with
  | zero =>
    intro vs es h
    cases vs with
    | nil =>
      simp only [mkCallVars, Option.some.injEq] at h
      subst h
      refine ⟨rfl, fun {l h cs} hv => ?_⟩
      simp only [valsOf] at hv
      simpa [evalCs] using hv
    | cons v vs => simp [mkCallVars] at h
  | succ n ih =>
    intro vs es h
    cases vs with
    | nil => simp [mkCallVars] at h
    | cons v vs =>
      simp only [mkCallVars, Option.map_eq_some_iff] at h
      obtain ⟨es', he, rfl⟩ := h
      obtain ⟨a, b⟩ := ih he
      refine ⟨by simp [a], fun {l h cs} hv => ?_⟩
      simp only [valsOf] at hv
      split at hv
      · rename_i c cs' h1 h2
        simp only [evalCs, evalC_makeVar, h1, b h2]
        exact hv
      · cases hv

/-- Filling the fields of a new object. -/
theorem exec_assignFields {l : Loc} {x : Var} {a : Nat} (hxa : l.temps x = some (.ptr a)) : ∀ (vs : List Var) (cur : Nat) (h : Th),
    (∀ v ∈ vs, ∃ c, valOf fns l v = some c) → h.alloc ≤ a + cur → a + cur + vs.length ≤ h.limit →
    ∃ mem', exec W call me (assignFields fns x cur vs) l h = .norm l { h with mem := mem' } ∧
      (∀ (i : Nat) v, vs[i]? = some v → mem' (a + cur + i) = valOf fns l v) ∧
      (∀ b, b < a + cur ∨ a + cur + vs.length ≤ b → mem' b = h.mem b) := by
  have one : ∀ (v : Var) (cur : Nat) (h : Th) c, valOf fns l v = some c → h.alloc ≤ a + cur → a + cur < h.limit →
      exec W call me (.setField x cur (makeVar fns v)) l h = .norm l { h with mem := setMem h.mem (a + cur) c } := by
    intro v cur h c hc hlo hhi
    simp only [exec, evalC_makeVar, hc, hxa]
    rw [show ((a : Int) + (cur : Int)).toNat = a + cur by omega, if_pos (by omega)]
  intro vs
  induction vs with
  | nil => intro cur h _ _ _; exact ⟨h.mem, by simp [assignFields, exec], fun i v hv => by simp at hv, fun _ _ => rfl⟩
  | cons v vs ih =>
    intro cur h hv hlo hhi
    simp only [List.length_cons] at hhi
    obtain ⟨c, hc⟩ := hv v (by simp)
    have h1 := one v cur h c hc hlo (by omega)
    cases vs with
    | nil =>
      refine ⟨_, h1, ?_, ?_⟩
      · intro i w hw
        cases i with
        | zero => simp only [List.getElem?_cons_zero, Option.some.injEq] at hw; subst hw; simp [setMem, hc]
        | succ i => simp at hw
      · intro b hb; simp only [List.length_cons, List.length_nil] at hb; simp only [setMem]; rw [if_neg (by omega)]
    | cons w ws =>
      obtain ⟨mem', e, hin, hout⟩ := ih (cur + 1) { h with mem := setMem h.mem (a + cur) c }
        (fun y hy => hv y (List.mem_cons_of_mem _ hy)) (by show h.alloc ≤ _; omega) (by show _ ≤ h.limit; omega)
      refine ⟨mem', ?_, ?_, ?_⟩
      · rw [assignFields, exec_seq h1, e]
      · intro i y hy
        cases i with
        | zero =>
          simp only [List.getElem?_cons_zero, Option.some.injEq] at hy
          subst hy
          rw [hout _ (by omega)]
          simp [setMem, hc]
        | succ i =>
          simp only [List.getElem?_cons_succ] at hy
          rw [show a + cur + (i + 1) = a + (cur + 1) + i by omega]
          exact hin i y hy
      · intro b hb
        simp only [List.length_cons] at hb
        rw [hout b (by simp only [List.length_cons]; omega)]
        simp only [setMem]
        rw [if_neg (by omega)]

/-- Passing arguments through the `args` array. -/
theorem exec_asgnAppVars' : ∀ {vs : List Var} {s0 : Nat} {st}, asgnAppVars' fns vs (List.range' s0 vs.length) = some st →
    s0 + vs.length ≤ maxArgs ∨ vs = [] → ∀ {l : Loc} {h : Th}, l.argsSet = true → (∀ v ∈ vs, ∃ c, valOf fns l v = some c) →
    ∃ args', exec W call me st l h = .norm l { h with args := args' } ∧
      (∀ (i : Nat) v, vs[i]? = some v → args' (s0 + i) = valOf fns l v) := by
  intro vs
  induction vs with
  | nil =>
    intro s0 st h _ l hh _ _
    simp only [List.length_nil, List.range'_zero, asgnAppVars', Option.some.injEq] at h
    subst h
    exact ⟨hh.args, exec_skip, fun i v hv => by simp at hv⟩
  | cons v vs ih =>
    intro s0 st h hmax l hh ha hv
    simp only [List.length_cons, List.range'_succ, asgnAppVars', Option.map_eq_some_iff] at h hmax
    obtain ⟨s', hs', rfl⟩ := h
    have hm : s0 + (vs.length + 1) ≤ maxArgs := by rcases hmax with h | h; exact h; cases h
    obtain ⟨args', e, hin⟩ := ih hs' (.inl (by omega)) (l := l) (h := hh) ha (fun y hy => hv y (List.mem_cons_of_mem _ hy))
    obtain ⟨c, hc⟩ := hv v (by simp)
    refine ⟨setArr args' s0 c, ?_, ?_⟩
    · rw [exec_seq e]
      simp only [exec, evalC_makeVar, hc]
      rw [if_pos ⟨ha, by omega⟩]
    · intro i y hy
      cases i with
      | zero => simp only [List.getElem?_cons_zero, Option.some.injEq] at hy; subst hy; simp [setArr, hc]
      | succ i =>
        simp only [List.getElem?_cons_succ] at hy
        rw [setArr, if_neg (by omega), show s0 + (i + 1) = s0 + 1 + i by omega]
        exact hin i y hy

/-- Fetching parameters from the `args` array. -/
theorem exec_asgnFunVars' : ∀ {vs : List Var} {s0 : Nat} {st}, asgnFunVars' vs (List.range' s0 vs.length) = some st →
    vs.Nodup → s0 + vs.length ≤ maxArgs ∨ vs = [] → ∀ {l : Loc} {h : Th}, l.argsSet = true →
    (∀ i, i < vs.length → ∃ c, h.args (s0 + i) = some c) →
    ∃ l', exec W call me st l h = .norm l' h ∧ l'.alloc = l.alloc ∧ l'.limit = l.limit ∧
      (∀ (i : Nat) v, vs[i]? = some v → l'.temps v = h.args (s0 + i)) ∧ (∀ y, y ∉ vs → l'.temps y = l.temps y) := by
  intro vs
  induction vs with
  | nil =>
    intro s0 st h _ _ l hh _ _
    simp only [List.length_nil, List.range'_zero, asgnFunVars', Option.some.injEq] at h
    subst h
    exact ⟨l, exec_skip, rfl, rfl, fun i v hv => by simp at hv, fun _ _ => rfl⟩
  | cons v vs ih =>
    intro s0 st h hn hmax l hh ha hv
    simp only [List.length_cons, List.range'_succ, asgnFunVars', Option.map_eq_some_iff] at h hmax hv
    obtain ⟨s', hs', rfl⟩ := h
    have hm : s0 + (vs.length + 1) ≤ maxArgs := by rcases hmax with h | h; exact h; cases h
    obtain ⟨c, hc⟩ := hv 0 (by omega)
    have e1 : exec W call me (.set v (.arg s0)) l hh = .norm (l.setT v c) hh := by
      simp only [exec, evalC]
      rw [if_pos ⟨ha, by omega⟩, show s0 = s0 + 0 from rfl, hc]
    obtain ⟨l', e, a1, a2, hin, hout⟩ := ih hs' (List.nodup_cons.1 hn).2 (.inl (by omega)) (l := l.setT v c) (h := hh) ha
      (fun i hi => by
        obtain ⟨c, hc⟩ := hv (i + 1) (by omega)
        exact ⟨c, by rw [show s0 + 1 + i = s0 + (i + 1) by omega]; exact hc⟩)
    refine ⟨l', by rw [exec_seq e1, e], a1, a2, ?_, ?_⟩
    · intro i y hy
      cases i with
      | zero =>
        simp only [List.getElem?_cons_zero, Option.some.injEq] at hy
        subst hy
        rw [hout v (List.nodup_cons.1 hn).1]
        simp only [Loc.setT, if_true]
        exact hc.symm
      | succ i =>
        simp only [List.getElem?_cons_succ] at hy
        rw [show s0 + (i + 1) = s0 + 1 + i by omega]
        exact hin i y hy
    · intro y hy
      simp only [List.mem_cons, not_or] at hy
      rw [hout y hy.2]
      simp [Loc.setT, hy.1]

theorem makeArgList'_eq : ∀ vs : List Var, makeArgList' vs = (List.range vs.length).reverse
  | [] => rfl
  | _ :: vs => by rw [makeArgList', makeArgList'_eq vs, List.length_cons, List.range_succ, List.reverse_append]; rfl

theorem makeArgList_eq (vs : List Var) : makeArgList vs = List.range vs.length := by
  rw [makeArgList, makeArgList'_eq, List.reverse_reverse]

theorem drop_range (np n : Nat) : (List.range n).drop np = List.range' np (n - np) := by
  rw [List.range_eq_range', List.drop_range']
  simp

/-- Every entry of the table of function tags is the arity the tag stands for. -/
def FenvOk (ar : Tag → Nat) (m : FEnv) : Prop := ∀ t a ind, m t = some (a, ind) → a = ar t ∧ ind = List.range (ar t)

theorem FenvOk.set {ar m} (h : FenvOk ar m) {t : Tag} {vs : List Var} (hl : vs.length = ar t) :
    FenvOk ar (m.set t (vs.length, makeArgList vs)) := by
  intro u a ind hu
  unfold FEnv.set at hu
  split at hu
  · rename_i e
    simp only [Option.some.injEq, Prod.mk.injEq] at hu
    obtain ⟨rfl, rfl⟩ := hu
    rw [e, makeArgList_eq, hl]
    exact ⟨rfl, rfl⟩
  · exact h u a ind hu

theorem okBs_toList {ar} : ∀ {bs : Brs}, OkBs cenv ar bs → ∀ te ∈ bs.toList, OkE cenv ar te.2 := by
  intro bs
  induction bs using Brs.ind with
  | nil => intro _ te h; simp [Brs.toList] at h
  | cons t e bs ih =>
    intro h te hte
    simp only [OkBs] at h
    simp only [Brs.toList, List.mem_cons] at hte
    rcases hte with rfl | hte
    · exact h.2.1
    · exact ih h.2.2 te hte

mutual
theorem funEnvE_ok {ar} : ∀ (n : Nat) (e : Exp) (m : FEnv), OkE cenv ar e → FenvOk ar m → FenvOk ar (funEnvE n e m)
  | 0, _, _, _, hm => by simpa [funEnvE] using hm
  | n + 1, .constr _ _ _ e, m, h, hm => by
    simp only [OkE] at h; simp only [funEnvE]; exact funEnvE_ok n e m h.2 hm
  | n + 1, .case _ bs, m, h, hm => by
    simp only [OkE] at h
    simp only [funEnvE]
    have hb := okBs_toList h
    generalize bs.toList = L at hb
    induction L generalizing m with
    | nil => exact hm
    | cons te L ih =>
      rw [List.foldl_cons]
      exact ih _ (funEnvE_ok n te.2 m (hb te (by simp)) hm) (fun u hu => hb u (List.mem_cons_of_mem _ hu))
  | n + 1, .proj _ _ _ _ e, m, h, hm => by
    simp only [OkE] at h; simp only [funEnvE]; exact funEnvE_ok n e m h hm
  | n + 1, .letapp _ _ t vs e, m, h, hm => by
    simp only [OkE] at h; simp only [funEnvE]; exact funEnvE_ok n e _ h.2 (hm.set h.1)
  | n + 1, .fn B e, m, h, hm => by
    simp only [OkE] at h; simp only [funEnvE]; exact funEnvE_ok n e _ h.2 (funEnvB_ok n B m h.1 hm)
  | _ + 1, .app _ t vs, m, h, hm => by
    simp only [OkE] at h; simp only [funEnvE]; exact hm.set h
  | n + 1, .primVal _ _ e, m, h, hm => by
    simp only [OkE] at h; simp only [funEnvE]; exact funEnvE_ok n e m h.2 hm
  | n + 1, .prim _ _ _ e, m, h, hm => by
    simp only [OkE] at h; simp only [funEnvE]; exact funEnvE_ok n e m h hm
  | _ + 1, .halt _, m, _, hm => by simpa [funEnvE] using hm
theorem funEnvB_ok {ar} : ∀ (n : Nat) (B : Defs) (m : FEnv), OkB cenv ar B → FenvOk ar m → FenvOk ar (funEnvB n B m)
  | 0, _, _, _, hm => by simpa [funEnvB] using hm
  | _ + 1, .nil, m, _, hm => by simpa [funEnvB] using hm
  | n + 1, .cons _ t vs e B, m, h, hm => by
    simp only [OkB] at h; simp only [funEnvB]
    exact funEnvB_ok n B _ h.2.2 (funEnvE_ok n e _ h.2.1 (hm.set h.1))
end

theorem funEnv_ok {ar e} (h : OkE cenv ar e) : FenvOk ar (funEnv e) :=
  funEnvE_ok _ e _ h (fun _ _ _ h => by cases h)

end CGen
